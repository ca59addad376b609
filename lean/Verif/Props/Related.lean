import Verif.Props.InfPoint
import Verif.Proof.Frob
/-!
# Property C102: related messages in the pre-hashed functions

`new_hashed` and `verify_hashed` take the abscissa at which the search for the message point starts from the caller.
Neighbouring abscissae can have the same point, and abscissae that differ by a cube root of unity have points whose
signatures follow from each other without the key.
-/

set_option exponentiation.threshold 6000

namespace Props

open Amcl Spec

seal Spec.finalExp Spec.toBE Spec.signBit Spec.enc1

/-- The abscissa that the two strings stand for. -/
def absc (re im : List UInt8) : Fp2 := ⟨(beNat (re.take 48) : Fp), (beNat (im.take 48) : Fp)⟩

/-! ### Neighbours -/

theorem mapsTo_succ {x : Fp2} (hu : ¬ Usable x) {g : G2} (h : MapsTo x g) : MapsTo (x + 1) g := by
  obtain ⟨k, y, e, hn, hk, hL, hg⟩ := h
  cases k with
  | zero => rw [Nat.cast_zero, add_zero] at hk; exact absurd hk hu
  | succ k =>
    have e1 : ∀ j : Nat, x + 1 + (j : Fp2) = x + ((j + 1 : Nat) : Fp2) := fun j => by push_cast; ring
    refine ⟨k, y, by rw [e1]; exact e, fun j hj => by rw [e1]; exact hn (j + 1) (by omega), by rw [e1]; exact hk, hL, ?_⟩
    rw [hg]
    congr 1
    simp only [e1]

/-- **C102**, neighbours: if the abscissa of the strings is not that of a point (with an ordinate that is not purely
imaginary), the strings for the next abscissa give the same verdict, for every signature point and every key, and
`new_hashed` makes the same signature. So different pre-hashed messages share their signatures. -/
theorem C102_neighbours (re im re' im' : List UInt8) (hr : 48 ≤ re.length) (hi : 48 ≤ im.length) (hr' : 48 ≤ re'.length)
    (hi' : 48 ≤ im'.length) (hu : ¬ Usable (absc re im)) (hx : absc re' im' = absc re im + 1) :
    (∀ (s : Signature) (S : G2) (pk : PublicKey) (K : G1), s.Aff S → pk.Aff K →
      s.verify_hashed re im pk = s.verify_hashed re' im' pk ∧ s.verify_hashed re im pk ≠ none) ∧
    ∀ (sk : SecretKey) (n : Nat), sk.Rep n → ∃ s s', Signature.new_hashed re im sk = some s ∧
      Signature.new_hashed re' im' sk = some s' ∧ s.eq s' = some true := by
  constructor
  · intro s S pk K hs hk
    obtain ⟨x, y, g, b, hc, hg, e, hb⟩ := verify_hashed_val s S hs re im hr hi pk K hk
    obtain ⟨x', y', g', b', hc', hg', e', hb'⟩ := verify_hashed_val s S hs re' im' hr' hi' pk K hk
    have hg := mapsTo_succ hu hg
    have hg' : MapsTo (absc re' im') g' := hg'
    rw [hx] at hg'
    cases hg.unique hg'
    exact verdict_eq e e' hb hb' (by rw [hc.val_eq hk.1 hk.1 hc'])
  · intro sk n hn
    obtain ⟨g, s, hg, e, hs⟩ := C04_sign_hashed re im hr hi sk n hn
    obtain ⟨g', s', hg', e', hs'⟩ := C04_sign_hashed re' im' hr' hi' sk n hn
    have hg := mapsTo_succ hu hg
    have hg' : MapsTo (absc re' im') g' := hg'
    rw [hx] at hg'
    cases hg.unique hg'
    exact ⟨s, s', e, e', by rw [C23_equality.2.2.1 s s' _ _ hs hs', decide_eq_true rfl]⟩

theorem absc_toBE {a b : Nat} (ha : a < 256 ^ 48) (hb : b < 256 ^ 48) : absc (toBE 48 a) (toBE 48 b) = ⟨(a : Fp), (b : Fp)⟩ := by
  rw [absc, List.take_of_length_le (length_toBE _ _).le, List.take_of_length_le (length_toBE _ _).le, beNat_toBE, beNat_toBE,
    Nat.mod_eq_of_lt ha, Nat.mod_eq_of_lt hb]

/-- The strings for 0 and for 1 are an example. -/
example : ¬ Usable (absc (toBE 48 0) (toBE 48 0)) ∧
    absc (toBE 48 1) (toBE 48 0) = absc (toBE 48 0) (toBE 48 0) + 1 := by
  rw [absc_toBE (by norm_num) (by norm_num), absc_toBE (by norm_num) (by norm_num)]
  constructor
  · rw [Nat.cast_zero]
    exact zero_not_usable
  · ext
    · rw [QuadraticAlgebra.re_add]; simp [QuadraticAlgebra.re_one]
    · rw [QuadraticAlgebra.im_add]; simp [QuadraticAlgebra.im_one]

/-! ### Cube roots of unity -/

theorem usable_mul {β x : Fp2} (hβ : β ^ 2 + β + 1 = 0) (h : Usable x) : Usable (β * x) := by
  obtain ⟨y, e, hy⟩ := h
  exact ⟨y, Manin.om_on hβ e, hy⟩

theorem mapsTo_mul {β x : Fp2} (hβ : β ^ 2 + β + 1 = 0) (hu : Usable x) {g : G2} (h : MapsTo x g) :
    MapsTo (β * x) (Manin.om hβ g) := by
  obtain ⟨k, y, e, hn, hk, hL, hg⟩ := h
  cases k with
  | succ k => exact absurd (by rw [Nat.cast_zero, add_zero]; exact hu) (hn 0 (by omega))
  | zero =>
    have e0 : ∀ z : Fp2, z + ((0 : Nat) : Fp2) = z := fun z => by rw [Nat.cast_zero, add_zero]
    simp only [e0] at e hk hg
    refine ⟨0, y, by rw [e0]; exact Manin.om_on hβ e, fun j hj => absurd hj (Nat.not_lt_zero j),
      by rw [e0]; exact usable_mul hβ hu, hL, ?_⟩
    rw [hg, map_nsmul, Manin.om_mk]
    congr 1
    simp only [e0]

/-- The abscissa of a point multiplied by a factor. -/
def Scaled (β : Fp2) (S S' : G2) : Prop :=
  S = 0 ∧ S' = 0 ∨ ∃ X Y h h', S = Pt.mk X Y h ∧ S' = Pt.mk (β * X) Y h'

theorem Scaled.om {β : Fp2} (hβ : β ^ 2 + β + 1 = 0) {S S' : G2} (h : Scaled β S S') : S' = Manin.om hβ S := by
  rcases h with ⟨rfl, rfl⟩ | ⟨X, Y, h, h', rfl, rfl⟩
  · exact (map_zero _).symm
  · rfl

theorem om_inj {β : Fp2} (hβ : β ^ 2 + β + 1 = 0) {A B : G2} (h : Manin.om hβ A = Manin.om hβ B) : A = B := by
  have h1 := Manin.om_om hβ A
  have h2 := Manin.om_om hβ B
  rw [h] at h1
  rw [h1] at h2
  exact neg_inj.1 (sub_left_inj.1 h2)

/-- **C102**, cube roots of unity: let `β` be a primitive cube root of unity, and let the second strings stand for `β` times
the abscissa of the first, which is that of a point. Then a signature of order dividing `r` is accepted for the first strings exactly if
the signature whose abscissa is multiplied by `β` is accepted for the second strings, for every key in the subgroup.
So everybody can make the signature of the second strings from that of the first. -/
theorem C102_cube_root (β : Fp2) (hβ : β ^ 2 + β + 1 = 0) (re im re' im' : List UInt8) (hr : 48 ≤ re.length)
    (hi : 48 ≤ im.length) (hr' : 48 ≤ re'.length) (hi' : 48 ≤ im'.length) (hu : Usable (absc re im))
    (hx : absc re' im' = β * absc re im) (s s' : Signature) (S S' : G2) (hs : s.Aff S) (hs' : s'.Aff S') (hS : r • S = 0)
    (hβS : Scaled β S S') (pk : PublicKey) (k : Nat) (hk : pk.Aff (k • gen1)) (h0 : ¬ r ∣ k) :
    s.verify_hashed re im pk = s'.verify_hashed re' im' pk ∧ s.verify_hashed re im pk ≠ none := by
  have e := hβS.om hβ
  obtain ⟨g, hg, h⟩ := C06_exactly_one_hashed re im hr hi s S pk k hs hS hk fun _ => h0
  obtain ⟨g', hg', h'⟩ := C06_exactly_one_hashed re' im' hr' hi' s' S' pk k hs' (by rw [e, ← map_nsmul, hS, map_zero]) hk
    fun _ => h0
  have hm := mapsTo_mul hβ hu hg
  have hg' : MapsTo (absc re' im') g' := hg'
  rw [hx] at hg'
  cases hm.unique hg'
  have hiff : S' = k • Manin.om hβ g ↔ S = k • g := by
    rw [e, ← map_nsmul]
    exact ⟨om_inj hβ, fun h => by rw [h]⟩
  rcases h with ⟨h, h1⟩ | ⟨h, h1⟩ <;> rcases h' with ⟨h', h2⟩ | ⟨h', h2⟩
  · exact ⟨h.trans h'.symm, by simp [h]⟩
  · exact absurd (hiff.2 h1) h2
  · exact absurd (hiff.1 h2) h1
  · exact ⟨h.trans h'.symm, by simp [h]⟩

/-- **C102**, forgery: the signature that a key made for the first strings, with its abscissa multiplied by `β`, is
accepted for the second strings and that key. -/
theorem C102_forgery (β : Fp2) (hβ : β ^ 2 + β + 1 = 0) (re im re' im' : List UInt8) (hr : 48 ≤ re.length)
    (hi : 48 ≤ im.length) (hr' : 48 ≤ re'.length) (hi' : 48 ≤ im'.length) (hu : Usable (absc re im))
    (hx : absc re' im' = β * absc re im) (sk : SecretKey) (n : Nat) (hn : sk.Rep n) (h0 : ¬ r ∣ n) :
    ∃ s pk S, Signature.new_hashed re im sk = some s ∧ PublicKey.from_secret_key sk = some pk ∧ s.Aff S ∧
      ∀ (s' : Signature) (S' : G2), s'.Aff S' → Scaled β S S' → s'.verify_hashed re' im' pk = some true := by
  obtain ⟨s, pk, es, ek, h⟩ := C05_sign_verify_hashed re im hr hi sk n hn fun _ => h0
  obtain ⟨g, s₁, hg, e, hs⟩ := C04_sign_hashed re im hr hi sk n hn
  rw [es] at e
  cases e
  obtain ⟨S, hS⟩ := (C06_signatures_affine s).2.1 _ _ _ _ hn es
  cases hS.1.inj hs
  refine ⟨s, pk, _, es, ek, hS, fun s' S' hs' hβS => ?_⟩
  rw [← (C102_cube_root β hβ re im re' im' hr hi hr' hi' hu hx s s' _ S' hS hs'
    (by rw [smul_comm, mapsTo_order hg, smul_zero]) hβS pk n ((C06_keys_affine pk).1 _ _ hn ek) h0).1]
  exact h

/-- The strings for 2 and for twice a cube root of unity are an example, and every signature has a scaled one. -/
example : Frob.β ^ 2 + Frob.β + 1 = 0 ∧ Usable (absc (toBE 48 2) (toBE 48 0)) ∧
    absc (toBE 48 (2 * Frob.beta)) (toBE 48 0) = Frob.β * absc (toBE 48 2) (toBE 48 0) ∧
    ∀ S : G2, ∃ (S' : G2) (s' : Signature), Scaled Frob.β S S' ∧ s'.Aff S' := by
  refine ⟨Frob.hβ, ?_, ?_, fun S => ?_⟩
  · rw [absc_toBE (by norm_num) (by norm_num)]
    exact two_usable
  · rw [absc_toBE (by norm_num [Frob.beta]) (by norm_num), absc_toBE (by norm_num) (by norm_num), Frob.β]
    ext
    · rw [QuadraticAlgebra.re_mul]; simp; ring
    · rw [QuadraticAlgebra.im_mul]; simp
  · obtain ⟨P, hP⟩ := exists_aff2 (Manin.om Frob.hβ S)
    refine ⟨_, ⟨P⟩, ?_, hP⟩
    rcases Pt.cases S with rfl | ⟨X, Y, h, rfl⟩
    · exact .inl ⟨rfl, map_zero _⟩
    · exact .inr ⟨X, Y, h, Manin.om_on Frob.hβ h, rfl, rfl⟩

end Props
