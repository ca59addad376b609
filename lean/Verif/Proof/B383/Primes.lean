import Verif.Proof.Primes
/-!
# Primality of the field characteristic and of the group order of BLS12-383

Pocklington certificates, checked by kernel evaluation of modular powers.
-/

set_option exponentiation.threshold 2000

namespace Primes.B383
open Primes

theorem prime_726611 : Nat.Prime 726611 := by norm_num

theorem prime_263027369113 : Nat.Prime 263027369113 := by
  have s0 := pock_step 263027369113 2 726611 1 361992 38 prime_726611 (by norm_num) (by norm_num)
    (by norm_num) (by norm_num) (by decide +kernel) (by decide +kernel)
  refine pock (F := 726611) (by norm_num) (by norm_num) fun d hd hn => ?_
  simpa using s0 d hd hn

theorem prime_4208437905809 : Nat.Prime 4208437905809 := by
  have s0 := pock_step 4208437905809 2 263027369113 1 16 42 prime_263027369113 (by norm_num) (by norm_num)
    (by norm_num) (by norm_num) (by decide +kernel) (by decide +kernel)
  refine pock (F := 263027369113) (by norm_num) (by norm_num) fun d hd hn => ?_
  simpa using s0 d hd hn

theorem prime_195136848816551713 : Nat.Prime 195136848816551713 := by
  have s0 := pock_step 195136848816551713 2 4208437905809 1 46368 58 prime_4208437905809 (by norm_num) (by norm_num)
    (by norm_num) (by norm_num) (by decide +kernel) (by decide +kernel)
  refine pock (F := 4208437905809) (by norm_num) (by norm_num) fun d hd hn => ?_
  simpa using s0 d hd hn

theorem prime_199931233 : Nat.Prime 199931233 := by norm_num

theorem prime_99241865436541 : Nat.Prime 99241865436541 := by
  have s0 := pock_step 99241865436541 2 199931233 1 496380 47 prime_199931233 (by norm_num) (by norm_num)
    (by norm_num) (by norm_num) (by decide +kernel) (by decide +kernel)
  refine pock (F := 199931233) (by norm_num) (by norm_num) fun d hd hn => ?_
  simpa using s0 d hd hn

theorem prime_157596082313227109 : Nat.Prime 157596082313227109 := by
  have s0 := pock_step 157596082313227109 2 99241865436541 1 1588 58 prime_99241865436541 (by norm_num) (by norm_num)
    (by norm_num) (by norm_num) (by decide +kernel) (by decide +kernel)
  refine pock (F := 99241865436541) (by norm_num) (by norm_num) fun d hd hn => ?_
  simpa using s0 d hd hn

theorem prime_4243886798604311207204650196854304947 : Nat.Prime 4243886798604311207204650196854304947 := by
  have s0 := pock_step 4243886798604311207204650196854304947 2 195136848816551713 1 21748259359225341042 122 prime_195136848816551713 (by norm_num) (by norm_num)
    (by norm_num) (by norm_num) (by decide +kernel) (by decide +kernel)
  have s1 := pock_step 4243886798604311207204650196854304947 2 157596082313227109 1 26928885136684136394 122 prime_157596082313227109 (by norm_num) (by norm_num)
    (by norm_num) (by norm_num) (by decide +kernel) (by decide +kernel)
  refine pock (F := 30752802888437037733367030411987717) (by norm_num) (by norm_num) fun d hd hn => ?_
  have t0 : 195136848816551713 ∣ d - 1 := by simpa using s0 d hd hn
  have u1 : 157596082313227109 ∣ d - 1 := by simpa using s1 d hd hn
  have t1 : 30752802888437037733367030411987717 ∣ d - 1 := by
    have := Nat.Coprime.mul_dvd_of_dvd_of_dvd (by norm_num) t0 u1
    simpa using this
  exact t1

theorem prime_4178431 : Nat.Prime 4178431 := by norm_num

theorem prime_2417 : Nat.Prime 2417 := by norm_num

theorem prime_37960723561538521 : Nat.Prime 37960723561538521 := by
  have s0 := pock_step 37960723561538521 2 4178431 1 9084922920 56 prime_4178431 (by norm_num) (by norm_num)
    (by norm_num) (by norm_num) (by decide +kernel) (by decide +kernel)
  have s1 := pock_step 37960723561538521 2 2417 1 15705719305560 56 prime_2417 (by norm_num) (by norm_num)
    (by norm_num) (by norm_num) (by decide +kernel) (by decide +kernel)
  refine pock (F := 10099267727) (by norm_num) (by norm_num) fun d hd hn => ?_
  have t0 : 4178431 ∣ d - 1 := by simpa using s0 d hd hn
  have u1 : 2417 ∣ d - 1 := by simpa using s1 d hd hn
  have t1 : 10099267727 ∣ d - 1 := by
    have := Nat.Coprime.mul_dvd_of_dvd_of_dvd (by norm_num) t0 u1
    simpa using this
  exact t1

theorem prime_68557066752138568927 : Nat.Prime 68557066752138568927 := by
  have s0 := pock_step 68557066752138568927 2 37960723561538521 1 1806 66 prime_37960723561538521 (by norm_num) (by norm_num)
    (by norm_num) (by norm_num) (by decide +kernel) (by decide +kernel)
  refine pock (F := 37960723561538521) (by norm_num) (by norm_num) fun d hd hn => ?_
  simpa using s0 d hd hn

theorem prime_35459692205341752615380188656120955597215361713484045031752675407249659741 : Nat.Prime 35459692205341752615380188656120955597215361713484045031752675407249659741 := by
  have s0 := pock_step 35459692205341752615380188656120955597215361713484045031752675407249659741 2 4243886798604311207204650196854304947 1 8355475508207098299761639629167706420 245 prime_4243886798604311207204650196854304947 (by norm_num) (by norm_num)
    (by norm_num) (by norm_num) (by decide +kernel) (by decide +kernel)
  have s1 := pock_step 35459692205341752615380188656120955597215361713484045031752675407249659741 2 68557066752138568927 1 517228841390528469292105368548078748856747979166275620 245 prime_68557066752138568927 (by norm_num) (by norm_num)
    (by norm_num) (by norm_num) (by decide +kernel) (by decide +kernel)
  refine pock (F := 290948430540435414707302971372106947717231261955836581869) (by norm_num) (by norm_num) fun d hd hn => ?_
  have t0 : 4243886798604311207204650196854304947 ∣ d - 1 := by simpa using s0 d hd hn
  have u1 : 68557066752138568927 ∣ d - 1 := by simpa using s1 d hd hn
  have t1 : 290948430540435414707302971372106947717231261955836581869 ∣ d - 1 := by
    have := Nat.Coprime.mul_dvd_of_dvd_of_dvd (by norm_num) t0 u1
    simpa using this
  exact t1

/-- The field characteristic is prime. -/
theorem prime_p : Nat.Prime 13143624632111687734396218524029004720845126870820156444247788574162855139416800818697211380413727823476285338464427 := by
  have s0 := pock_step 13143624632111687734396218524029004720845126870820156444247788574162855139416800818697211380413727823476285338464427 2 35459692205341752615380188656120955597215361713484045031752675407249659741 1 370663810503456466980065701162843030788786 383 prime_35459692205341752615380188656120955597215361713484045031752675407249659741 (by norm_num) (by norm_num)
    (by norm_num) (by norm_num) (by decide +kernel) (by decide +kernel)
  refine pock (F := 35459692205341752615380188656120955597215361713484045031752675407249659741) (by norm_num) (by norm_num) fun d hd hn => ?_
  simpa using s0 d hd hn

theorem prime_87211 : Nat.Prime 87211 := by norm_num

theorem prime_51059 : Nat.Prime 51059 := by norm_num

theorem prime_3275745005955259 : Nat.Prime 3275745005955259 := by
  have s0 := pock_step 3275745005955259 2 87211 1 37561144878 52 prime_87211 (by norm_num) (by norm_num)
    (by norm_num) (by norm_num) (by decide +kernel) (by decide +kernel)
  have s1 := pock_step 3275745005955259 2 51059 1 64156074462 52 prime_51059 (by norm_num) (by norm_num)
    (by norm_num) (by norm_num) (by decide +kernel) (by decide +kernel)
  refine pock (F := 4452906449) (by norm_num) (by norm_num) fun d hd hn => ?_
  have t0 : 87211 ∣ d - 1 := by simpa using s0 d hd hn
  have u1 : 51059 ∣ d - 1 := by simpa using s1 d hd hn
  have t1 : 4452906449 ∣ d - 1 := by
    have := Nat.Coprime.mul_dvd_of_dvd_of_dvd (by norm_num) t0 u1
    simpa using this
  exact t1

theorem prime_19759777 : Nat.Prime 19759777 := by norm_num

theorem prime_144253367061059 : Nat.Prime 144253367061059 := by
  have s0 := pock_step 144253367061059 2 19759777 1 7300354 48 prime_19759777 (by norm_num) (by norm_num)
    (by norm_num) (by norm_num) (by decide +kernel) (by decide +kernel)
  refine pock (F := 19759777) (by norm_num) (by norm_num) fun d hd hn => ?_
  simpa using s0 d hd hn

/-- The group order is prime. -/
theorem prime_r : Nat.Prime 115848638697272667145794417268073757960001407039087633408816076049920489684993 := by
  have s0 := pock_step 115848638697272667145794417268073757960001407039087633408816076049920489684993 2 3275745005955259 2 10796195983594486000212499680774874255196946432 257 prime_3275745005955259 (by norm_num) (by norm_num)
    (by norm_num) (by norm_num) (by decide +kernel) (by decide +kernel)
  have s1 := pock_step 115848638697272667145794417268073757960001407039087633408816076049920489684993 2 144253367061059 1 803091401313611690415424418225179855993171724109570080997900288 257 prime_144253367061059 (by norm_num) (by norm_num)
    (by norm_num) (by norm_num) (by decide +kernel) (by decide +kernel)
  refine pock (F := 1547911526144575570475486569926829168384608779) (by norm_num) (by norm_num) fun d hd hn => ?_
  have t0 : 10730505344040819821375109757081 ∣ d - 1 := by simpa using s0 d hd hn
  have u1 : 144253367061059 ∣ d - 1 := by simpa using s1 d hd hn
  have t1 : 1547911526144575570475486569926829168384608779 ∣ d - 1 := by
    have := Nat.Coprime.mul_dvd_of_dvd_of_dvd (by norm_num) t0 u1
    simpa using this
  exact t1

end Primes.B383
