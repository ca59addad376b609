import Verif.Proof.Primes
/-!
# Primality of the field characteristic and of the group order of secp256k1

Pocklington certificates, checked by kernel evaluation of modular powers.
-/

set_option exponentiation.threshold 2000

namespace Primes.Secp
open Primes

theorem prime_53 : Nat.Prime 53 := by norm_num

theorem prime_29 : Nat.Prime 29 := by norm_num

theorem prime_7 : Nat.Prime 7 := by norm_num

theorem prime_107590001 : Nat.Prime 107590001 := by
  have s0 := pock_step 107590001 2 53 1 2030000 27 prime_53 (by norm_num) (by norm_num)
    (by norm_num) (by norm_num) (by decide +kernel) (by decide +kernel)
  have s1 := pock_step 107590001 2 29 1 3710000 27 prime_29 (by norm_num) (by norm_num)
    (by norm_num) (by norm_num) (by decide +kernel) (by decide +kernel)
  have s2 := pock_step 107590001 2 7 1 15370000 27 prime_7 (by norm_num) (by norm_num)
    (by norm_num) (by norm_num) (by decide +kernel) (by decide +kernel)
  refine pock (F := 10759) (by norm_num) (by norm_num) fun d hd hn => ?_
  have t0 : 53 ∣ d - 1 := by simpa using s0 d hd hn
  have u1 : 29 ∣ d - 1 := by simpa using s1 d hd hn
  have t1 : 1537 ∣ d - 1 := by
    have := Nat.Coprime.mul_dvd_of_dvd_of_dvd (by norm_num) t0 u1
    simpa using this
  have u2 : 7 ∣ d - 1 := by simpa using s2 d hd hn
  have t2 : 10759 ∣ d - 1 := by
    have := Nat.Coprime.mul_dvd_of_dvd_of_dvd (by norm_num) t1 u2
    simpa using this
  exact t2

theorem prime_7240687 : Nat.Prime 7240687 := by norm_num

theorem prime_96557 : Nat.Prime 96557 := by norm_num

theorem prime_255515944373312847190720520512484175977 : Nat.Prime 255515944373312847190720520512484175977 := by
  have s0 := pock_step 255515944373312847190720520512484175977 2 107590001 1 2374904191824599455024826335976 128 prime_107590001 (by norm_num) (by norm_num)
    (by norm_num) (by norm_num) (by decide +kernel) (by decide +kernel)
  have s1 := pock_step 255515944373312847190720520512484175977 2 7240687 1 35288908963101546467996824129048 128 prime_7240687 (by norm_num) (by norm_num)
    (by norm_num) (by norm_num) (by decide +kernel) (by decide +kernel)
  have s2 := pock_step 255515944373312847190720520512484175977 2 96557 1 2646270538369179315748423423599368 128 prime_96557 (by norm_num) (by norm_num)
    (by norm_num) (by norm_num) (by decide +kernel) (by decide +kernel)
  refine pock (F := 75220367286300824659) (by norm_num) (by norm_num) fun d hd hn => ?_
  have t0 : 107590001 ∣ d - 1 := by simpa using s0 d hd hn
  have u1 : 7240687 ∣ d - 1 := by simpa using s1 d hd hn
  have t1 : 779025521570687 ∣ d - 1 := by
    have := Nat.Coprime.mul_dvd_of_dvd_of_dvd (by norm_num) t0 u1
    simpa using this
  have u2 : 96557 ∣ d - 1 := by simpa using s2 d hd hn
  have t2 : 75220367286300824659 ∣ d - 1 := by
    have := Nat.Coprime.mul_dvd_of_dvd_of_dvd (by norm_num) t1 u2
    simpa using this
  exact t2

theorem prime_205115282021455665897114700593932402728804164701536103180137503955397371 : Nat.Prime 205115282021455665897114700593932402728804164701536103180137503955397371 := by
  have s0 := pock_step 205115282021455665897114700593932402728804164701536103180137503955397371 2 255515944373312847190720520512484175977 1 802749442992798076634733441528810 237 prime_255515944373312847190720520512484175977 (by norm_num) (by norm_num)
    (by norm_num) (by norm_num) (by decide +kernel) (by decide +kernel)
  refine pock (F := 255515944373312847190720520512484175977) (by norm_num) (by norm_num) fun d hd hn => ?_
  simpa using s0 d hd hn

/-- The field characteristic is prime. -/
theorem prime_p : Nat.Prime 115792089237316195423570985008687907853269984665640564039457584007908834671663 := by
  have s0 := pock_step 115792089237316195423570985008687907853269984665640564039457584007908834671663 2 205115282021455665897114700593932402728804164701536103180137503955397371 1 564522 256 prime_205115282021455665897114700593932402728804164701536103180137503955397371 (by norm_num) (by norm_num)
    (by norm_num) (by norm_num) (by decide +kernel) (by decide +kernel)
  refine pock (F := 205115282021455665897114700593932402728804164701536103180137503955397371) (by norm_num) (by norm_num) fun d hd hn => ?_
  simpa using s0 d hd hn

theorem prime_1627771 : Nat.Prime 1627771 := by norm_num

theorem prime_297159362677 : Nat.Prime 297159362677 := by
  have s0 := pock_step 297159362677 2 1627771 1 182556 39 prime_1627771 (by norm_num) (by norm_num)
    (by norm_num) (by norm_num) (by decide +kernel) (by decide +kernel)
  refine pock (F := 1627771) (by norm_num) (by norm_num) fun d hd hn => ?_
  simpa using s0 d hd hn

theorem prime_28181 : Nat.Prime 28181 := by norm_num

theorem prime_545358713 : Nat.Prime 545358713 := by
  have s0 := pock_step 545358713 2 28181 1 19352 30 prime_28181 (by norm_num) (by norm_num)
    (by norm_num) (by norm_num) (by decide +kernel) (by decide +kernel)
  refine pock (F := 28181) (by norm_num) (by norm_num) fun d hd hn => ?_
  simpa using s0 d hd hn

theorem prime_29047611873442575647497758179 : Nat.Prime 29047611873442575647497758179 := by
  have s0 := pock_step 29047611873442575647497758179 2 297159362677 1 97750956294169114 95 prime_297159362677 (by norm_num) (by norm_num)
    (by norm_num) (by norm_num) (by decide +kernel) (by decide +kernel)
  have s1 := pock_step 29047611873442575647497758179 2 545358713 1 53263313083699784306 95 prime_545358713 (by norm_num) (by norm_num)
    (by norm_num) (by norm_num) (by decide +kernel) (by decide +kernel)
  refine pock (F := 162058447585428954701) (by norm_num) (by norm_num) fun d hd hn => ?_
  have t0 : 297159362677 ∣ d - 1 := by simpa using s0 d hd hn
  have u1 : 545358713 ∣ d - 1 := by simpa using s1 d hd hn
  have t1 : 162058447585428954701 ∣ d - 1 := by
    have := Nat.Coprime.mul_dvd_of_dvd_of_dvd (by norm_num) t0 u1
    simpa using this
  exact t1

theorem prime_341948486974166000522343609283189 : Nat.Prime 341948486974166000522343609283189 := by
  have s0 := pock_step 341948486974166000522343609283189 2 29047611873442575647497758179 1 11772 109 prime_29047611873442575647497758179 (by norm_num) (by norm_num)
    (by norm_num) (by norm_num) (by decide +kernel) (by decide +kernel)
  refine pock (F := 29047611873442575647497758179) (by norm_num) (by norm_num) fun d hd hn => ?_
  simpa using s0 d hd hn

theorem prime_9349 : Nat.Prime 9349 := by norm_num

theorem prime_44706919 : Nat.Prime 44706919 := by
  have s0 := pock_step 44706919 2 9349 1 4782 26 prime_9349 (by norm_num) (by norm_num)
    (by norm_num) (by norm_num) (by decide +kernel) (by decide +kernel)
  refine pock (F := 9349) (by norm_num) (by norm_num) fun d hd hn => ?_
  simpa using s0 d hd hn

theorem prime_120233 : Nat.Prime 120233 := by norm_num

theorem prime_174723607534414371449 : Nat.Prime 174723607534414371449 := by
  have s0 := pock_step 174723607534414371449 2 44706919 1 3908200597192 68 prime_44706919 (by norm_num) (by norm_num)
    (by norm_num) (by norm_num) (by decide +kernel) (by decide +kernel)
  have s1 := pock_step 174723607534414371449 2 120233 1 1453208416444856 68 prime_120233 (by norm_num) (by norm_num)
    (by norm_num) (by norm_num) (by decide +kernel) (by decide +kernel)
  refine pock (F := 5375246992127) (by norm_num) (by norm_num) fun d hd hn => ?_
  have t0 : 44706919 ∣ d - 1 := by simpa using s0 d hd hn
  have u1 : 120233 ∣ d - 1 := by simpa using s1 d hd hn
  have t1 : 5375246992127 ∣ d - 1 := by
    have := Nat.Coprime.mul_dvd_of_dvd_of_dvd (by norm_num) t0 u1
    simpa using this
  exact t1

/-- The group order is prime. -/
theorem prime_n : Nat.Prime 115792089237316195423570985008687907852837564279074904382605163141518161494337 := by
  have s0 := pock_step 115792089237316195423570985008687907852837564279074904382605163141518161494337 2 341948486974166000522343609283189 1 338624364920977752681389262317185522840540224 256 prime_341948486974166000522343609283189 (by norm_num) (by norm_num)
    (by norm_num) (by norm_num) (by decide +kernel) (by decide +kernel)
  have s1 := pock_step 115792089237316195423570985008687907852837564279074904382605163141518161494337 2 174723607534414371449 1 662715765037699607481235088557493206623080876315205958464 256 prime_174723607534414371449 (by norm_num) (by norm_num)
    (by norm_num) (by norm_num) (by decide +kernel) (by decide +kernel)
  refine pock (F := 59746473235060985162263246577491932178200490877270861) (by norm_num) (by norm_num) fun d hd hn => ?_
  have t0 : 341948486974166000522343609283189 ∣ d - 1 := by simpa using s0 d hd hn
  have u1 : 174723607534414371449 ∣ d - 1 := by simpa using s1 d hd hn
  have t1 : 59746473235060985162263246577491932178200490877270861 ∣ d - 1 := by
    have := Nat.Coprime.mul_dvd_of_dvd_of_dvd (by norm_num) t0 u1
    simpa using this
  exact t1

end Primes.Secp
