import Mathlib.Data.ZMod.Basic
import Mathlib.GroupTheory.OrderOfElement
import Mathlib.FieldTheory.Finite.Basic
import Mathlib.Tactic.NormNum
import Mathlib.Tactic.NormNum.Prime
/-!
# Primality of the field characteristic and of the group order

Pocklington certificates, checked by kernel evaluation of modular powers.
-/

set_option exponentiation.threshold 2000

namespace Primes

/-- `a ^ e % n` by repeated squaring, for `e < 2 ^ fuel`. -/
def powMod (n a : Nat) : Nat → Nat → Nat
  | 0, _ => 1 % n
  | f + 1, e =>
    match e % 2 with
    | 0 => (fun h => h * h % n) (powMod n a f (e / 2))
    | _ => (fun h => h * h % n * a % n) (powMod n a f (e / 2))

theorem powMod_eq (n a : Nat) (f : Nat) : ∀ e, e < 2 ^ f → powMod n a f e = a ^ e % n := by
  induction f with
  | zero => intro e h; simp at h; subst h; rfl
  | succ f ih =>
    intro e h
    have h2 : e / 2 < 2 ^ f := by rw [pow_succ] at h; omega
    have hd := Nat.div_add_mod e 2
    unfold powMod
    rcases Nat.mod_two_eq_zero_or_one e with he | he
    · rw [he]; simp only [ih _ h2]
      conv_rhs => rw [← hd, he, add_zero, two_mul, pow_add]
      exact (Nat.mul_mod _ _ _).symm
    · rw [he]; simp only [ih _ h2]
      conv_rhs => rw [← hd, he, two_mul, pow_add, pow_add, pow_one]
      rw [← Nat.mul_mod, Nat.mod_mul_mod]

/-- The part of Pocklington's criterion contributed by a prime power `q^k`: it divides `d - 1` for
every prime divisor `d` of `n`. -/
theorem pock_dvd {n a q k m : Nat} (hq : q.Prime) (hm : n - 1 = q ^ k * m)
    (hk : k ≠ 0) (h1 : a ^ (n - 1) % n = 1) (h2 : Nat.gcd (a ^ ((n - 1) / q) % n + (n - 1)) n = 1)
    {d : Nat} (hd : d.Prime) (hdn : d ∣ n) (hn : 1 < n) : q ^ k ∣ d - 1 := by
  have : Fact d.Prime := ⟨hd⟩
  have : Fact q.Prime := ⟨hq⟩
  have e1 : (a : ZMod d) ^ (n - 1) = 1 := by
    have : ((a ^ (n - 1) : Nat) : ZMod d) = ((1 : Nat) : ZMod d) := by
      rw [ZMod.natCast_eq_natCast_iff]
      apply Nat.ModEq.of_dvd hdn
      rw [Nat.ModEq, h1, Nat.mod_eq_of_lt hn]
    simpa using this
  have e2 : (a : ZMod d) ^ ((n - 1) / q) ≠ 1 := by
    intro h
    have h3 : d ∣ a ^ ((n - 1) / q) % n + (n - 1) := by
      rw [← ZMod.natCast_eq_zero_iff]
      have h4 : ((a ^ ((n - 1) / q) % n : Nat) : ZMod d) = 1 := by
        have : ((a ^ ((n - 1) / q) % n : Nat) : ZMod d) = ((a ^ ((n - 1) / q) : Nat) : ZMod d) := by
          rw [ZMod.natCast_eq_natCast_iff]
          exact Nat.ModEq.of_dvd hdn (Nat.mod_modEq _ _)
        rw [this]; simpa using h
      have h5 : ((n : Nat) : ZMod d) = 0 := by rw [ZMod.natCast_eq_zero_iff]; exact hdn
      rw [Nat.cast_add, h4, Nat.cast_sub hn.le, h5]; simp
    have := Nat.dvd_gcd h3 hdn
    rw [h2] at this
    exact hd.one_lt.ne' (Nat.dvd_one.1 this)
  obtain ⟨j, rfl⟩ : ∃ j, k = j + 1 := ⟨k - 1, by omega⟩
  -- `b = a ^ m` has order `q ^ k`
  have hdiv : (n - 1) / q = m * q ^ j := by
    rw [hm, pow_succ, mul_comm (q ^ j) q, mul_assoc, Nat.mul_div_cancel_left _ hq.pos, mul_comm]
  have ho : orderOf ((a : ZMod d) ^ m) = q ^ (j + 1) := by
    apply orderOf_eq_prime_pow
    · rw [← pow_mul, ← hdiv]; exact e2
    · rw [← pow_mul, mul_comm, ← hm]; exact e1
  rw [← ho]
  apply orderOf_dvd_of_pow_eq_one
  rw [← pow_mul, mul_comm, pow_mul]
  have ha : (a : ZMod d) ≠ 0 := by
    intro h0
    rw [h0, zero_pow] at e1
    · exact zero_ne_one e1
    · intro h; rw [h] at hm
      have hn2 : n = 1 := by
        have := hm.symm
        omega
      omega
  rw [ZMod.pow_card_sub_one_eq_one ha, one_pow]

/-- Pocklington: `F ∣ d - 1` for every prime divisor and `F^2 > n` make `n` prime. -/
theorem pock {n F : Nat} (hn : 1 < n) (hF : n < F * F)
    (h : ∀ d, d.Prime → d ∣ n → F ∣ d - 1) : n.Prime := by
  by_contra hp
  have h1 := Nat.minFac_prime (n := n) (by omega)
  have h2 := Nat.minFac_sq_le_self (by omega) hp
  have h3 := Nat.le_of_dvd (by have := h1.two_le; omega) (h _ h1 (Nat.minFac_dvd n))
  have h4 : F < n.minFac := by have := h1.two_le; omega
  have := Nat.mul_lt_mul_of_lt_of_lt h4 h4
  rw [pow_two] at h2
  omega

/-- The data of one prime power in a certificate, in evaluated form. -/
theorem pock_step (n a q k m f : Nat) (hq : q.Prime) (hf : n - 1 < 2 ^ f)
    (hm : n - 1 = q ^ k * m) (hk : k ≠ 0) (hn : 1 < n) (h1 : powMod n a f (n - 1) = 1)
    (h2 : Nat.gcd (powMod n a f ((n - 1) / q) + (n - 1)) n = 1) :
    ∀ d, d.Prime → d ∣ n → q ^ k ∣ d - 1 := by
  intro d hd hdn
  rw [powMod_eq _ _ _ _ hf] at h1
  rw [powMod_eq _ _ _ _ (lt_of_le_of_lt (Nat.div_le_self _ _) hf)] at h2
  exact pock_dvd hq hm hk h1 h2 hd hdn hn

theorem prime_421987 : Nat.Prime 421987 := by norm_num

theorem prime_13090036741 : Nat.Prime 13090036741 := by
  have s0 := pock_step 13090036741 2 421987 1 31020 34 prime_421987 (by norm_num) (by norm_num)
    (by norm_num) (by norm_num) (by decide +kernel) (by decide +kernel)
  refine pock (F := 421987) (by norm_num) (by norm_num) fun d hd hn => ?_
  simpa using s0 d hd hn

theorem prime_755057 : Nat.Prime 755057 := by norm_num

theorem prime_3819663927398918131021 : Nat.Prime 3819663927398918131021 := by
  have s0 := pock_step 3819663927398918131021 2 13090036741 1 291799328220 72 prime_13090036741 (by norm_num) (by norm_num)
    (by norm_num) (by norm_num) (by decide +kernel) (by decide +kernel)
  have s1 := pock_step 3819663927398918131021 2 755057 1 5058775598926860 72 prime_755057 (by norm_num) (by norm_num)
    (by norm_num) (by norm_num) (by decide +kernel) (by decide +kernel)
  refine pock (F := 9883723871549237) (by norm_num) (by norm_num) fun d hd hn => ?_
  have t0 : 13090036741 ∣ d - 1 := by simpa using s0 d hd hn
  have u1 : 755057 ∣ d - 1 := by simpa using s1 d hd hn
  have t1 : 9883723871549237 ∣ d - 1 := by
    have := Nat.Coprime.mul_dvd_of_dvd_of_dvd (by norm_num) t0 u1
    simpa using this
  exact t1

theorem prime_1125266252156850182658904441386709967 : Nat.Prime 1125266252156850182658904441386709967 := by
  have s0 := pock_step 1125266252156850182658904441386709967 2 3819663927398918131021 1 294598235223046 120 prime_3819663927398918131021 (by norm_num) (by norm_num)
    (by norm_num) (by norm_num) (by decide +kernel) (by decide +kernel)
  refine pock (F := 3819663927398918131021) (by norm_num) (by norm_num) fun d hd hn => ?_
  simpa using s0 d hd hn

theorem prime_15778400344354997994418419698270088123916926905054652752758194827714659 : Nat.Prime 15778400344354997994418419698270088123916926905054652752758194827714659 := by
  have s0 := pock_step 15778400344354997994418419698270088123916926905054652752758194827714659 2 1125266252156850182658904441386709967 1 14021926201120671579994175730661374 234 prime_1125266252156850182658904441386709967 (by norm_num) (by norm_num)
    (by norm_num) (by norm_num) (by decide +kernel) (by decide +kernel)
  refine pock (F := 1125266252156850182658904441386709967) (by norm_num) (by norm_num) fun d hd hn => ?_
  simpa using s0 d hd hn

/-- The field characteristic is prime. -/
theorem prime_p : Nat.Prime 4002409555221667393417789825735904156556882819939007885332058136124031650490837864442687629129015664037894272559787 := by
  have s0 := pock_step 4002409555221667393417789825735904156556882819939007885332058136124031650490837864442687629129015664037894272559787 2 15778400344354997994418419698270088123916926905054652752758194827714659 1 253663835868735594330404923636534084567099854 381 prime_15778400344354997994418419698270088123916926905054652752758194827714659 (by norm_num) (by norm_num)
    (by norm_num) (by norm_num) (by decide +kernel) (by decide +kernel)
  refine pock (F := 15778400344354997994418419698270088123916926905054652752758194827714659) (by norm_num) (by norm_num) fun d hd hn => ?_
  simpa using s0 d hd hn

theorem prime_254760293 : Nat.Prime 254760293 := by norm_num

theorem prime_52437899 : Nat.Prime 52437899 := by norm_num

theorem prime_2529403 : Nat.Prime 2529403 := by norm_num

theorem prime_2508409 : Nat.Prime 2508409 := by norm_num

theorem prime_906349 : Nat.Prime 906349 := by norm_num

/-- The group order is prime. -/
theorem prime_r : Nat.Prime 52435875175126190479447740508185965837690552500527637822603658699938581184513 := by
  have s0 := pock_step 52435875175126190479447740508185965837690552500527637822603658699938581184513 2 254760293 2 807913828202290508598677772776006232357759729707044766220288 255 prime_254760293 (by norm_num) (by norm_num)
    (by norm_num) (by norm_num) (by decide +kernel) (by decide +kernel)
  have s1 := pock_step 52435875175126190479447740508185965837690552500527637822603658699938581184513 2 52437899 1 999961405302035279473110478895921551656570994587857873989262207090688 255 prime_52437899 (by norm_num) (by norm_num)
    (by norm_num) (by norm_num) (by decide +kernel) (by decide +kernel)
  have s2 := pock_step 52435875175126190479447740508185965837690552500527637822603658699938581184513 2 2529403 1 20730534112249487519168649878325425342537568153642435714120548880482304 255 prime_2529403 (by norm_num) (by norm_num)
    (by norm_num) (by norm_num) (by decide +kernel) (by decide +kernel)
  have s3 := pock_step 52435875175126190479447740508185965837690552500527637822603658699938581184513 2 2508409 1 20904037250355181503274681484632675866531555460264908084209416686010368 255 prime_2508409 (by norm_num) (by norm_num)
    (by norm_num) (by norm_num) (by decide +kernel) (by decide +kernel)
  have s4 := pock_step 52435875175126190479447740508185965837690552500527637822603658699938581184513 2 906349 2 63831874928265641722739442819312836421123199169656733959729446912 255 prime_906349 (by norm_num) (by norm_num)
    (by norm_num) (by norm_num) (by decide +kernel) (by decide +kernel)
  refine pock (F := 17738466070062044419616408296128385854475832498177) (by norm_num) (by norm_num) fun d hd hn => ?_
  have t0 : 64902806889445849 ∣ d - 1 := by simpa using s0 d hd hn
  have u1 : 52437899 ∣ d - 1 := by simpa using s1 d hd hn
  have t1 : 3403366832485265595831251 ∣ d - 1 := by
    have := Nat.Coprime.mul_dvd_of_dvd_of_dvd (by norm_num) t0 u1
    simpa using this
  have u2 : 2529403 ∣ d - 1 := by simpa using s2 d hd hn
  have t2 : 8608486276188728253892353773153 ∣ d - 1 := by
    have := Nat.Coprime.mul_dvd_of_dvd_of_dvd (by norm_num) t1 u2
    simpa using this
  have u3 : 2508409 ∣ d - 1 := by simpa using s3 d hd hn
  have t3 : 21593604451568291650617865235760943577 ∣ d - 1 := by
    have := Nat.Coprime.mul_dvd_of_dvd_of_dvd (by norm_num) t2 u3
    simpa using this
  have u4 : 821468509801 ∣ d - 1 := by simpa using s4 d hd hn
  have t4 : 17738466070062044419616408296128385854475832498177 ∣ d - 1 := by
    have := Nat.Coprime.mul_dvd_of_dvd_of_dvd (by norm_num) t3 u4
    simpa using this
  exact t4

end Primes
