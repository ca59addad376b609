import Verif.Props.Agree
import Verif.Props.Protocol
/-!
# Property C101: strings whose message point is infinity

The pre-hashed functions take any two strings of 48 bytes. Here are two strings that are mapped to infinity: the coordinates
of the abscissa of a point of order 13, which the multiplication by the cofactor sends to infinity.
-/

set_option exponentiation.threshold 6000

namespace Props

open Amcl Spec

seal Spec.finalExp Spec.toBE Spec.signBit Spec.enc1

/-- The abscissa of a point of order 13, first part. -/
def ord13_xa : Nat := 0x157573f4c77585787c2c988585c1f6afe39f5b91aacb37509b42ec71fceb51a1576fda15dac1031f8d26785d6b139784
/-- The abscissa of a point of order 13, second part. -/
def ord13_xb : Nat := 0xe074268358ced055a27ab8de3bbdeb6d0c2949685103095e491dc537fc8ee474a73ce0b2826fae8eabfb3078a910b64
/-- The ordinate of a point of order 13, first part. -/
def ord13_ya : Nat := 0x1409bd0f66a342adbd89fd4c49a9a06580309dbfaeac7449cd8a58ba5d71f8cbe0299d203f9ff6a6ad6e05649125132e
/-- The ordinate of a point of order 13, second part. -/
def ord13_yb : Nat := 0x1020564df685fc6f4568cc6f629ad422e43d4dd78d42c2771f48cd192290803a19fecc8a030e65cf4efb07d4158771c7

theorem ord13_on : (⟨(ord13_ya : Fp), (ord13_yb : Fp)⟩ : Fp2) ^ 2 = (⟨(ord13_xa : Fp), (ord13_xb : Fp)⟩ : Fp2) ^ 3 + b2 := by
  have h1 : ((ord13_ya ^ 2 + (p - ord13_yb) * ord13_yb : Nat) : Fp) =
      ((ord13_xa ^ 3 + 3 * (p - ord13_xa) * ord13_xb ^ 2 + 4 : Nat) : Fp) := by
    rw [ZMod.natCast_eq_natCast_iff, Nat.ModEq]
    norm_num [ord13_xa, ord13_xb, ord13_ya, ord13_yb, p]
  have h2 : ((2 * ord13_ya * ord13_yb : Nat) : Fp) =
      ((3 * ord13_xa ^ 2 * ord13_xb + (p - ord13_xb) * ord13_xb ^ 2 + 4 : Nat) : Fp) := by
    rw [ZMod.natCast_eq_natCast_iff, Nat.ModEq]
    norm_num [ord13_xa, ord13_xb, ord13_ya, ord13_yb, p]
  push_cast [Nat.cast_sub (show ord13_yb ≤ p by norm_num [ord13_yb, p]), Nat.cast_sub (show ord13_xa ≤ p by norm_num [ord13_xa, p]),
    Nat.cast_sub (show ord13_xb ≤ p by norm_num [ord13_xb, p]), CharP.cast_eq_zero Fp p] at h1 h2
  rw [b2]
  ext
  · simp [pow_succ, i, QuadraticAlgebra.re_one, QuadraticAlgebra.im_one, show (4 : Fp2).re = 4 from rfl,
      show (4 : Fp2).im = 0 from rfl]
    linear_combination h1
  · simp [pow_succ, i, QuadraticAlgebra.re_one, QuadraticAlgebra.im_one, show (4 : Fp2).re = 4 from rfl,
      show (4 : Fp2).im = 0 from rfl]
    linear_combination h2

theorem ord13_is : Eval.Is Eval.fp2 ⟨(ord13_xa, ord13_xb), (ord13_ya, ord13_yb), (1, 0)⟩ (Pt.mk _ _ ord13_on : G2) := by
  show Proj (⟨(ord13_xa : Fp), (ord13_xb : Fp)⟩ : Fp2) ⟨(ord13_ya : Fp), (ord13_yb : Fp)⟩ (Eval.fp2.toF Eval.fp2.one) _
  rw [Eval.fp2.one_eq]
  exact Proj.mk ord13_on

theorem ord13_order : 13 • (Pt.mk _ _ ord13_on : G2) = 0 := by
  rw [← Eval.smul_zero_iff b2_is ord13_is (f := 4) (by norm_num)]
  decide +kernel

theorem ord13_mapsTo : MapsTo (⟨(ord13_xa : Fp), (ord13_xb : Fp)⟩ : Fp2) 0 := by
  have e : (⟨(ord13_xa : Fp), (ord13_xb : Fp)⟩ : Fp2) + ((0 : Nat) : Fp2) = ⟨(ord13_xa : Fp), (ord13_xb : Fp)⟩ := by
    rw [Nat.cast_zero, add_zero]
  refine ⟨0, _, by rw [e]; exact ord13_on, fun j hj => absurd hj (Nat.not_lt_zero j), ?_, ?_, ?_⟩
  · rw [e]
    refine ⟨_, ord13_on, ?_⟩
    show (ord13_ya : Fp) ≠ 0
    rw [Ne, ZMod.natCast_eq_zero_iff]
    norm_num [ord13_ya, p]
  · have e : (ord13_yb : Fp).val = ord13_yb := by
      rw [ZMod.val_natCast, Nat.mod_eq_of_lt (by norm_num [ord13_yb, p])]
    have h0 : (ord13_yb : Fp) ≠ 0 := by
      rw [Ne, ZMod.natCast_eq_zero_iff]
      norm_num [ord13_yb, p]
    obtain ⟨h, -⟩ := val_neg_add h0
    refine .inl ⟨h0, ?_⟩
    show (-(ord13_yb : Fp)).val < (ord13_yb : Fp).val
    have : 2 * ord13_yb > p := by norm_num [ord13_yb, p]
    omega
  · have h : h2 • (Pt.mk _ _ ord13_on : G2) = 0 := by
      rw [show h2 = h2 / 13 * 13 by norm_num [h2], mul_smul, ord13_order, smul_zero]
    rw [← h]
    congr 1

/-- The two strings. -/
def infRe : List UInt8 := toBE 48 ord13_xa
@[inherit_doc infRe] def infIm : List UInt8 := toBE 48 ord13_xb

theorem inf_maps : 48 ≤ infRe.length ∧ 48 ≤ infIm.length ∧
    MapsTo ⟨(beNat (infRe.take 48) : Fp), (beNat (infIm.take 48) : Fp)⟩ 0 := by
  have h1 : infRe.length = 48 := length_toBE _ _
  have h2 : infIm.length = 48 := length_toBE _ _
  refine ⟨h1.ge, h2.ge, ?_⟩
  rw [List.take_of_length_le h1.le, List.take_of_length_le h2.le, infRe, infIm, beNat_toBE, beNat_toBE,
    Nat.mod_eq_of_lt (by norm_num [ord13_xa]), Nat.mod_eq_of_lt (by norm_num [ord13_xb])]
  exact ord13_mapsTo

/-- **C101**, infinity is reached: for two concrete strings of 48 bytes `map_to_g2` returns infinity. -/
theorem C101_infinity : infRe.length = 48 ∧ infIm.length = 48 ∧
    ∃ P, utils.map_to_g2 infRe infIm = some P ∧ P.Rep 0 := by
  obtain ⟨h1, h2, h3⟩ := inf_maps
  obtain ⟨P, g, e, hP, hg, -⟩ := C26_map_to_g2 infRe infIm h1 h2
  cases h3.unique hg
  exact ⟨length_toBE _ _, length_toBE _ _, P, e, hP⟩

/-- **C101**, all keys sign alike: the signature of these strings is infinity for every secret key. -/
theorem C101_sign (sk : SecretKey) (n : Nat) (hn : sk.Rep n) :
    ∃ s, Signature.new_hashed infRe infIm sk = some s ∧ s.Rep 0 := by
  obtain ⟨h1, h2, h3⟩ := inf_maps
  obtain ⟨g, s, hg, e, hs⟩ := C04_sign_hashed infRe infIm h1 h2 sk n hn
  cases h3.unique hg
  exact ⟨s, e, by rwa [smul_zero] at hs⟩

/-- **C101**, one signature for all keys: for these strings the signature at infinity is accepted for every finite key
whose abscissa is not 0, and for no other key. -/
theorem C101_accepted_for_all_keys (s : Signature) (pk : PublicKey) (K : G1) (hs : s.Rep 0) (hk : pk.Aff K) :
    (K ≠ 0 ∧ XNe K → s.verify_hashed infRe infIm pk = some true) ∧
    (¬ (K ≠ 0 ∧ XNe K) → s.verify_hashed infRe infIm pk = some false) := by
  obtain ⟨h1, h2, h3⟩ := inf_maps
  obtain ⟨x, y, g, b, hc, hg, e, hb⟩ := verify_hashed_val s 0 ⟨hs, fun h => absurd rfl h⟩ infRe infIm h1 h2 pk K hk
  cases h3.unique hg
  rw [ateVal_gen, pairing_zero_left] at hb
  have hz : ateVal 0 y 0 = 0 := by
    rw [ateVal, signedMiller_inf_zero, inv_zero, zero_pow (by decide +kernel)]
  obtain ⟨K', hK', ⟨rfl, rfl, rfl⟩ | ⟨h, rfl⟩⟩ := hc
  · cases hK'.inj hk.1
    refine ⟨fun h => absurd rfl h.1, fun _ => ?_⟩
    rw [hK'.inf_coords.1, hz] at hb
    rw [e]
    cases b with
    | true => exact absurd (hb.1 rfl) zero_ne_one
    | false => rfl
  · cases hK'.inj hk.1
    by_cases hx : x = 0
    · subst hx
      refine ⟨fun h' => absurd rfl (h'.2 _ _ h rfl), fun _ => ?_⟩
      rw [hz] at hb
      rw [e]
      cases b with
      | true => exact absurd (hb.1 rfl) zero_ne_one
      | false => rfl
    · refine ⟨fun _ => ?_, fun h' => absurd ⟨Pt.mk_ne h, ?_⟩ h'⟩
      · rw [e, hb.2 (by rw [ateVal, signedMiller_inf hx])]
      · intro x' y' h'' e
        obtain ⟨rfl, rfl⟩ := Pt.mk_inj.1 e
        exact hx

/-- **C101**, in particular on the wire: the bytes `c0 00 … 00` decode to a signature that is accepted for the public key
of every secret key that is not a multiple of `r`. -/
theorem C101_on_the_wire : ∃ s, Signature.from_bytes (0xc0 :: List.replicate 95 0) = some (.ok s) ∧
    ∀ (sk : SecretKey) (n : Nat) (pk : PublicKey), sk.Rep n → ¬ r ∣ n → PublicKey.from_secret_key sk = some pk →
      s.verify_hashed infRe infIm pk = some true := by
  obtain ⟨S, hS⟩ := exists_aff2 0
  obtain ⟨P, hP⟩ := exists_aff1 0
  obtain ⟨-, b', s, e4, e5, e6⟩ := C17_infinity_round_trip ⟨P⟩ ⟨S⟩ hP.1 hS.1
  rw [C24_encoding_of_point.2.2.1 ⟨S⟩ hS.1] at e4
  cases e4
  obtain ⟨T, hT⟩ := (C06_signatures_affine s).2.2 _ e5
  have hT0 : T = 0 := by
    have h := C23_equality.2.2.1 ⟨S⟩ s 0 T hS.1 hT.1
    rw [e6, Option.some_inj, eq_comm, decide_eq_true_iff] at h
    exact h.symm
  subst hT0
  refine ⟨s, e5, fun sk n pk hn h0 e => ?_⟩
  refine (C101_accepted_for_all_keys s pk _ hT.1 ((C06_keys_affine pk).1 _ _ hn e)).1 ⟨?_, ?_⟩
  · rwa [Ne, smul_gen1_zero]
  · exact .of_order (by rw [smul_comm, r_gen1, smul_zero])

/-- The key of the secret 5 is one of them. -/
example : ∃ s sk pk, Signature.from_bytes (0xc0 :: List.replicate 95 0) = some (.ok s) ∧ SecretKey.Rep sk 5 ∧
    PublicKey.from_secret_key sk = some pk ∧ s.verify_hashed infRe infIm pk = some true := by
  obtain ⟨s, e, h⟩ := C101_on_the_wire
  obtain ⟨sk, hk⟩ := SecretKey.exists_rep (n := 5) (by norm_num)
  obtain ⟨pk, e', -⟩ := PublicKey.from_secret_key_wp hk
  exact ⟨s, sk, pk, e, hk, e', h sk 5 pk hk (by norm_num [r]) e'⟩

end Props
