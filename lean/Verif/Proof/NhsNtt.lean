import Verif.Model.Nhs
import Verif.Spec.Nhs
import Verif.Proof.Machine
/-!
# The transforms of `nhs.rs`
-/

namespace Amcl

namespace NHS

open HASH256 (setAt)
open Spec.NewHope

/-- The coefficient number `l`. -/
def cf (x : Poly) (l : Nat) : Int := x[l]?.getD 0

theorem get_cf (x : Poly) {l : Nat} (h : l < 1024) : x[l]? = some (cf x l) := by
  simp [cf, h]

theorem setAt_cf (x : Poly) {l : Nat} (h : l < 1024) (v : Int) :
    Wp (setAt x l v) fun x' => cf x' = Function.update (cf x) l v := by
  rw [setAt, dif_pos h]
  refine .pure ?_
  funext j
  by_cases e : j = l
  · subst e; simp [cf, h]
  · rw [Function.update_of_ne e]
    by_cases hj : j < 1024
    · simp [cf, hj, Vector.getElem_set_ne h hj (fun q => e q.symm)]
    · simp [cf, hj]

/-! ## Montgomery reduction -/

/-- Numbers with the value of `t / 2^32` modulo the prime, and their bound. -/
def Red (t : Nat) (r : Int) : Prop :=
  0 ≤ r ∧ r * 2 ^ 32 < 12289 * 2 ^ 32 + t ∧ (r : Zq) * 2 ^ 32 = (t : Zq)

theorem redc_wp {t : Nat} (h : t < 2 ^ 62) : Wp (redc t) (Red t) := by
  rw [redc]
  have e : asU64 PRIME = 12289 := by decide
  simp only [e, WL]
  generalize hm : t % 2 ^ 32 * ND % 2 ^ 32 = m
  have hm' : m < 2 ^ 32 := by omega
  have hd : (m * 12289 + t) % 2 ^ 32 = 0 := by
    rw [← hm]
    simp only [ND]
    omega
  have e1 : u64 (m * 12289) = some (m * 12289) := by rw [u64, if_pos (by omega)]
  have e2 : u64 (m * 12289 + t) = some (m * 12289 + t) := by rw [u64, if_pos (by omega)]
  refine .bind (.of_eq e1 rfl) fun _ h1 => ?_
  subst h1
  refine .bind (.of_eq e2 rfl) fun _ h2 => ?_
  subst h2
  refine .ret ?_
  obtain ⟨r, hr⟩ : ∃ r, m * 12289 + t = 2 ^ 32 * r := Nat.dvd_of_mod_eq_zero hd
  rw [hr, Nat.mul_div_cancel_left _ (by norm_num), as32_eq (by omega) (by omega)]
  refine ⟨by omega, by push_cast; omega, ?_⟩
  have := congrArg (fun n : ℕ => (n : Zq)) hr
  push_cast at this
  have z : (12289 : Zq) = 0 := by decide
  rw [z, mul_zero, zero_add] at this
  push_cast
  rw [this]; ring

theorem asU64_eq {x : Int} (h : 0 ≤ x) (h' : x < 2 ^ 31) : asU64 x = x.toNat := by
  rw [asU64, Int.emod_eq_of_lt h (by omega)]

/-- A product divided by `2^32`. -/
def RedM (a b : Int) (r : Int) : Prop :=
  0 ≤ r ∧ r * 2 ^ 32 < 12289 * 2 ^ 32 + a * b ∧ (r : Zq) * 2 ^ 32 = (a : Zq) * b

theorem modmul_wp {a b : Int} (ha : 0 ≤ a) (ha' : a < 2 ^ 31) (hb : 0 ≤ b) (hb' : b < 2 ^ 31) :
    Wp (modmul a b) (RedM a b) := by
  rw [modmul, asU64_eq ha ha', asU64_eq hb hb']
  obtain ⟨a, rfl⟩ := Int.eq_ofNat_of_zero_le ha
  obtain ⟨b, rfl⟩ := Int.eq_ofNat_of_zero_le hb
  have hh : a * b < 2 ^ 62 := by
    have : a * b < 2 ^ 31 * 2 ^ 31 := Nat.mul_lt_mul'' (by omega) (by omega)
    omega
  have e : u64 ((a : Int).toNat * (b : Int).toNat) = some (a * b) := by
    rw [Int.toNat_natCast, Int.toNat_natCast, u64, if_pos (by omega)]
  refine .bind (.of_eq e rfl) fun _ h1 => ?_
  subst h1
  refine (redc_wp hh).mono fun r hr => ?_
  obtain ⟨h1, h2, h3⟩ := hr
  refine ⟨h1, by push_cast at h2; exact h2, ?_⟩
  rw [h3]; push_cast; rfl

theorem nres_wp {x : Int} (h : 0 ≤ x) (h' : x < 2 ^ 31) :
    Wp (nres x) fun r => 0 ≤ r ∧ r * 2 ^ 32 < 12289 * 2 ^ 32 + x * 5664 ∧ (r : Zq) = x * 2 ^ 32 := by
  have e : nres x = modmul x 5664 := rfl
  rw [e]
  refine (modmul_wp h h' (by norm_num) (by norm_num)).mono fun r hr => ⟨hr.1, hr.2.1, ?_⟩
  have h3 := hr.2.2
  have u : (2 ^ 32 : Zq) * 2 ^ 32 = 5664 := by decide
  have v : (2 ^ 32 : Zq) * 11857 = 1 := by decide
  calc (r : Zq) = r * (2 ^ 32 * 11857) := by rw [v, mul_one]
    _ = (r * 2 ^ 32) * 11857 := by ring
    _ = x * ((2 ^ 32 * 2 ^ 32) * 11857) := by rw [h3, u]; push_cast; ring
    _ = x * (2 ^ 32 * (2 ^ 32 * 11857)) := by ring
    _ = x * 2 ^ 32 := by rw [v, mul_one]

/-! ## Loops over the coefficients -/

theorem each_wp {f : Nat → Int → Option Int} {P Q : Nat → Int → Prop}
    (hf : ∀ j x, j < 1024 → P j x → Wp (f j x) (Q j)) : ∀ (n j : Nat) (x : Poly), j + n ≤ 1024 →
    (∀ l, j ≤ l → l < j + n → P l (cf x l)) →
    Wp (each f n j x) fun x' => (∀ l, j ≤ l → l < j + n → Q l (cf x' l)) ∧
      ∀ l, l < j ∨ j + n ≤ l → cf x' l = cf x l := by
  intro n
  induction n with
  | zero => intro j x _ _; exact .pure ⟨fun l h h' => by omega, fun l _ => rfl⟩
  | succ n ih =>
    intro j x hn hp
    rw [each]
    have e := get_cf x (l := j) (by omega)
    refine .bind (.of_eq e rfl) fun _ h1 => ?_
    subst h1
    refine .bind (hf j _ (by omega) (hp j le_rfl (by omega))) fun v hv => ?_
    refine .bind (setAt_cf x (by omega) v) fun x1 h1 => ?_
    refine (ih (j + 1) x1 (by omega) fun l a b => ?_).mono fun x' ⟨h2, h3⟩ => ⟨fun l a b => ?_, fun l a => ?_⟩
    · rw [h1, Function.update_of_ne (by omega)]
      exact hp l (by omega) (by omega)
    · by_cases c : l = j
      · subst c
        rw [h3 l (by omega), h1, Function.update_self]
        exact hv
      · exact h2 l (by omega) (by omega)
    · rw [h3 l (by omega), h1, Function.update_of_ne (by omega)]

theorem each_all {f : Nat → Int → Option Int} {P Q : Nat → Int → Prop}
    (hf : ∀ j x, j < 1024 → P j x → Wp (f j x) (Q j)) (x : Poly)
    (hp : ∀ l, l < 1024 → P l (cf x l)) :
    Wp (each f DEGREE 0 x) fun x' => ∀ l, l < 1024 → Q l (cf x' l) :=
  (each_wp hf 1024 0 x (by omega) fun l _ h => hp l (by omega)).mono fun _ h l hl => h.1 l (by omega) (by omega)

/-! ## Layers of butterflies -/

/-- `n` rounds of a loop of butterflies on the pairs `(j, j + t)`. -/
theorem inner_wp {t : Nat} {pre : Int → Int → Prop} {B : Int → Int → Int → Int → Prop}
    {body : Nat → Poly → Option Poly} {L : Nat → Nat → Poly → Option Poly}
    (h0 : ∀ j x, L 0 j x = some x) (hs : ∀ n j x, L (n + 1) j x = body j x >>= L n (j + 1))
    (hb : ∀ j x, j + t < 1024 → pre (cf x j) (cf x (j + t)) → Wp (body j x) fun x' =>
      ∃ u w, B (cf x j) (cf x (j + t)) u w ∧ cf x' = Function.update (Function.update (cf x) j u) (j + t) w) :
    ∀ (n j : Nat) (x : Poly), n ≤ t → j + n + t ≤ 1024 →
      (∀ l, j ≤ l → l < j + n → pre (cf x l) (cf x (l + t))) →
      Wp (L n j x) fun x' =>
        (∀ l, j ≤ l → l < j + n → B (cf x l) (cf x (l + t)) (cf x' l) (cf x' (l + t))) ∧
        ∀ l, ¬(j ≤ l ∧ l < j + n) → ¬(j + t ≤ l ∧ l < j + t + n) → cf x' l = cf x l := by
  intro n
  induction n with
  | zero => intro j x _ _ _; rw [h0]; exact .pure ⟨fun l h h' => by omega, fun l _ _ => rfl⟩
  | succ n ih =>
    intro j x hn hj hp
    rw [hs]
    refine .bind (hb j x (by omega) (hp j le_rfl (by omega))) fun x1 ⟨u, w, hB, h1⟩ => ?_
    have ne : ∀ l, l ≠ j → l ≠ j + t → cf x1 l = cf x l := fun l a b => by
      rw [h1, Function.update_of_ne b, Function.update_of_ne a]
    refine (ih (j + 1) x1 (by omega) (by omega) fun l a b => ?_).mono fun x' ⟨h2, h3⟩ =>
      ⟨fun l a b => ?_, fun l a b => ?_⟩
    · rw [ne l (by omega) (by omega), ne (l + t) (by omega) (by omega)]
      exact hp l (by omega) (by omega)
    · by_cases c : l = j
      · subst c
        rw [h3 l (by omega) (by omega), h3 (l + t) (by omega) (by omega), h1,
          Function.update_of_ne (a := l) (a' := l + t) (by omega), Function.update_self, Function.update_self]
        exact hB
      · have := h2 l (by omega) (by omega)
        rw [ne l (by omega) (by omega), ne (l + t) (by omega) (by omega)] at this
        exact this
    · rw [h3 l (by omega) (by omega), ne l (by omega) (by omega)]

/-- `n` blocks of `2 * t` coefficients. -/
theorem blocks_wp {m t : Nat} (hm : 2 * t * m = 1024) {pre : Int → Int → Prop} {B : Nat → Int → Int → Int → Int → Prop}
    {body : Nat → Nat → Poly → Option Poly} {L : Nat → Nat → Nat → Poly → Option Poly}
    (h0 : ∀ i k x, L 0 i k x = some x)
    (hs : ∀ n i k x, L (n + 1) i k x = body i k x >>= L n (i + 1) (k + 2 * t))
    (hb : ∀ i k x, i < m → k + 2 * t ≤ 1024 →
      (∀ j, j < t → pre (cf x (k + j)) (cf x (k + j + t))) → Wp (body i k x) fun x' =>
        (∀ j, j < t → B i (cf x (k + j)) (cf x (k + j + t)) (cf x' (k + j)) (cf x' (k + j + t))) ∧
        ∀ l, l < k ∨ k + 2 * t ≤ l → cf x' l = cf x l) :
    ∀ (n i : Nat) (x : Poly), i + n ≤ m →
      (∀ i', i ≤ i' → i' < i + n → ∀ j, j < t → pre (cf x (2 * t * i' + j)) (cf x (2 * t * i' + j + t))) →
      Wp (L n i (2 * t * i) x) fun x' =>
        (∀ i', i ≤ i' → i' < i + n → ∀ j, j < t → B i' (cf x (2 * t * i' + j)) (cf x (2 * t * i' + j + t))
          (cf x' (2 * t * i' + j)) (cf x' (2 * t * i' + j + t))) ∧
        ∀ l, l < 2 * t * i ∨ 2 * t * (i + n) ≤ l → cf x' l = cf x l := by
  intro n
  induction n with
  | zero => intro i x _ _; rw [h0]; exact .pure ⟨fun l h h' => by omega, fun l _ => rfl⟩
  | succ n ih =>
    intro i x hn hp
    rw [hs]
    have k1 : 2 * t * (i + 1) = 2 * t * i + 2 * t := by ring
    have k2 : 2 * t * (i + 1) ≤ 2 * t * m := Nat.mul_le_mul_left _ (by omega)
    have k3 : ∀ i', i + 1 ≤ i' → 2 * t * (i + 1) ≤ 2 * t * i' := fun i' h => Nat.mul_le_mul_left _ h
    refine .bind (hb i (2 * t * i) x (by omega) (by omega) (hp i le_rfl (by omega))) fun x1 ⟨hB, h1⟩ => ?_
    rw [← k1]
    have e : i + 1 + n = i + (n + 1) := by ring
    refine (ih (i + 1) x1 (by omega) fun i' a b j c => ?_).mono fun x' ⟨h2, h3⟩ =>
      ⟨fun i' a b j c => ?_, fun l a => ?_⟩
    · have := k3 i' a
      rw [h1 _ (by omega), h1 _ (by omega)]
      exact hp i' (by omega) (by omega) j c
    · by_cases d : i' = i
      · subst d
        rw [h3 _ (by omega), h3 _ (by omega)]
        exact hB j c
      · have k := k3 i' (by omega)
        have := h2 i' (by omega) (by omega) j c
        rw [h1 _ (by omega), h1 _ (by omega)] at this
        exact this
    · have k := k3 (i + (n + 1)) (by omega)
      rw [e] at h3
      rw [h3 l (by omega), h1 l (by omega)]

end NHS

end Amcl
