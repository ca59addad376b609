import Verif.Proof.Secp.Ecdsa
/-!
# Properties C69, C70, C71: the curve secp256k1

The references are SEC 1 and SEC 2: `Verif/Spec/Secp`. The group `G1` is the set of the points of `y² = x³ + 7` with the law of
`Verif/Spec/Curve.lean`.
-/

set_option exponentiation.threshold 2000

namespace Props.Secp

open Amcl.Secp Spec.Secp
open Amcl (Wp)
open Spec (Pt toBE beNat length_toBE beNat_toBE)

seal Spec.toBE

/-! ## C69: the parameters -/

/-- **C69**: the constants of `rom.rs` are those of SEC 2; `MCONST` and `R2MODP` are the two numbers that the Montgomery
reduction needs. -/
theorem C69_constants : rom.MODULUS.val = p ∧ rom.CURVE_ORDER.val = n ∧ rom.CURVE_GX.val = gx ∧ rom.CURVE_GY.val = gy ∧
    rom.CURVE_B.val = 7 ∧ rom.CURVE_B_I = 7 ∧ rom.CURVE_COF.val = 1 ∧ p.Prime ∧ n.Prime ∧
    (p * rom.MCONST + 1) % 2 ^ 56 = 0 ∧ rom.R2MODP.val = 2 ^ 560 % (p : Int) := by
  refine ⟨?_, ?_, ?_, ?_, ?_, rfl, ?_, prime_p, prime_n, ?_, ?_⟩ <;>
    norm_num [rom.MODULUS, rom.CURVE_ORDER, rom.CURVE_GX, rom.CURVE_GY, rom.CURVE_B, rom.CURVE_COF, rom.MCONST, rom.R2MODP, BIG.val, p, n, gx, gy]

/-- **C69**: the curve has exactly `n` points; so every point but infinity has the order `n` and is a multiple of every other, in
particular of the generator, which `ECP::generator` returns. -/
theorem C69_group : Nat.card G1 = n ∧ (∃ G, ECP.generator = some G ∧ G.OkY 2 gen) ∧
    ∀ P Q : G1, P ≠ 0 → addOrderOf P = n ∧ ∃ k < n, Q = k • P := by
  refine ⟨card_G1, ?_, fun P Q hP => ⟨order_eq hP, ?_⟩⟩
  · obtain ⟨G, e, h⟩ := ECP.generator_wp
    exact ⟨G, e, h.okY⟩
  · obtain ⟨k, hk⟩ := AddSubgroup.mem_zmultiples_iff.1 (mem_zmultiples_of_prime_card (g' := Q) card_G1 hP)
    have hn : (0 : Int) < n := by exact_mod_cast n_pos
    refine ⟨(k % n).toNat, ?_, ?_⟩
    · have := Int.emod_lt_of_pos k hn
      have := Int.emod_nonneg k hn.ne'
      omega
    · have h1 : ((k % n).toNat : Int) = k % n := Int.toNat_of_nonneg (Int.emod_nonneg k hn.ne')
      rw [← natCast_zsmul, h1, ← hk]
      conv_lhs => rw [← Int.emod_add_mul_ediv k n, add_zsmul, mul_zsmul, natCast_zsmul, n_smul, add_zero]

/-- **C69**: no point has a coordinate 0. -/
theorem C69_coordinates (x y : Fp) (h : y ^ 2 = x ^ 3 + b1) : x ≠ 0 ∧ y ≠ 0 := ⟨x_ne h, Pt.y_ne h⟩

/-- The generator is such a point, and 7 times it is not infinity. -/
example : gen ≠ 0 ∧ 7 • gen ≠ 0 ∧ n • gen = 0 :=
  ⟨gen_ne, fun h => by rw [smul_eq_zero gen_ne] at h; revert h; norm_num [n], n_smul gen⟩

/-! ## C70: arithmetic of points -/

/-- **C70**: addition, doubling, subtraction and negation, for all points, with infinity and with `P = ±Q`. -/
theorem C70_add (P Q : ECP) (g h : G1) (hP : P.OkY (2 ^ 14) g) (hQ : Q.OkY (2 ^ 14) h) :
    (∃ R, P.add Q = some R ∧ R.OkY 32 (g + h)) ∧ (∃ R, P.dbl = some R ∧ R.OkY 32 (g + g)) := by
  obtain ⟨R, e, h1⟩ := ECP.add_wpY hP hQ
  obtain ⟨S, e', h2⟩ := ECP.dbl_wpY hP
  exact ⟨⟨R, e, h1.okY⟩, S, e', h2.okY⟩

theorem C70_neg (P Q : ECP) (g h : G1) (hP : P.OkY (2 ^ 14) g) (hQ : Q.OkY (2 ^ 13) h) :
    (∃ R, P.neg = some R ∧ R.OkY (2 ^ 15) (-g)) ∧ ∃ R, P.sub Q = some R ∧ R.OkY 32 (g - h) := by
  obtain ⟨R, e, h1⟩ := ECP.neg_wpY hP (by norm_num)
  refine ⟨⟨R, e, (h1.mono (by norm_num)).okY⟩, ?_⟩
  unfold ECP.sub
  refine Wp.bind (ECP.neg_wpY hQ (by norm_num)) fun N hN => ?_
  rw [sub_eq_add_neg]
  exact (ECP.add_wpY hP (hN.okY.mono (by norm_num))).mono fun _ h => h.okY

/-- **C70**: the test for infinity, and the test of equality of two points with small ordinates. -/
theorem C70_tests (P Q : ECP) (g h : G1) (hP : P.OkY (2 ^ 14) g) (hP' : P.Ok (2 ^ 14) g) (hQ : Q.Ok (2 ^ 14) h) :
    (∃ b, P.is_infinity = some b ∧ (b = true ↔ g = 0)) ∧ ∃ b, P.equals Q = some b ∧ (b = true ↔ g = h) :=
  ⟨ECP.is_infinity_wpY hP (by norm_num), ECP.equals_wp hP' hQ (by norm_num)⟩

/-- **C70**: multiplication by every number below `2^275`, also one that is not reduced. -/
theorem C70_mul (P : ECP) (g : G1) (hP : P.OkY (2 ^ 10) g) (e : BIG) (he : e.Nrm) (h0 : 0 ≤ e.val) (h1 : e.val < 2 ^ 275) :
    ∃ R, P.mul e = some R ∧ R.OkY (2 ^ 10) (e.val • g) := by
  obtain ⟨R, e', hR, -⟩ := ECP.mul_wpY hP he h0 h1
  exact ⟨R, e', hR.okY⟩

/-- **C70**: the sum of two multiples. -/
theorem C70_mul2 (P Q : ECP) (g h : G1) (hP : P.OkY (2 ^ 12) g) (hQ : Q.OkY (2 ^ 12) h) (e f : BIG) (he : e.Nrm) (e0 : 0 ≤ e.val)
    (e1 : e.val < 2 ^ 276) (hf : f.Nrm) (f0 : 0 ≤ f.val) (f1 : f.val < 2 ^ 276) :
    ∃ R, P.mul2 e Q f = some R ∧ R.OkY 32 (e.val • g + f.val • h) := by
  obtain ⟨R, e', hR, -⟩ := ECP.mul2_wpY hP hQ he e0 e1 hf f0 f1
  exact ⟨R, e', hR.okY⟩

/-- With the generator: `n - 1` times it is its negative, and `(n - 1)·G + 1·G` is infinity. -/
example : ∃ G R S, ECP.generator = some G ∧
    G.mul ⟨0xD25E8CD0364140, 0xDCE6AF48A03BBF, 0xFFFFFFFFFEBAAE, 0xFFFFFFFFFFFFFF, 0xFFFFFFFF⟩ = some R ∧ R.OkY (2 ^ 10) (-gen) ∧
    G.mul2 ⟨0xD25E8CD0364140, 0xDCE6AF48A03BBF, 0xFFFFFFFFFEBAAE, 0xFFFFFFFFFFFFFF, 0xFFFFFFFF⟩ G (BIG.new_int 1) = some S ∧ S.OkY 32 0 := by
  obtain ⟨G, e, hG⟩ := C69_group.2.1
  have hv : BIG.val ⟨0xD25E8CD0364140, 0xDCE6AF48A03BBF, 0xFFFFFFFFFEBAAE, 0xFFFFFFFFFFFFFF, 0xFFFFFFFF⟩ = (n : Int) - 1 := by
    norm_num [BIG.val, n]
  have hn : BIG.Nrm ⟨0xD25E8CD0364140, 0xDCE6AF48A03BBF, 0xFFFFFFFFFEBAAE, 0xFFFFFFFFFFFFFF, 0xFFFFFFFF⟩ := by constructor <;> norm_num
  have h0 := n_pos
  have h1 := n_lt
  have hneg : ((n : Int) - 1) • gen = -gen := by
    rw [sub_zsmul, natCast_zsmul, n_smul, one_zsmul, zero_add]
  obtain ⟨R, e2, hR⟩ := C70_mul G gen (hG.mono (by norm_num)) _ hn (by rw [hv]; omega) (by rw [hv]; omega)
  obtain ⟨S, e3, hS⟩ := C70_mul2 G G gen gen (hG.mono (by norm_num)) (hG.mono (by norm_num)) _ (BIG.new_int 1) hn (by rw [hv]; omega)
    (by rw [hv]; omega) (BIG.new_int_nrm (by norm_num) (by norm_num)) (by rw [BIG.new_int_val]; norm_num) (by rw [BIG.new_int_val]; norm_num)
  rw [hv, hneg] at hR
  rw [hv, hneg, BIG.new_int_val, one_zsmul, neg_add_cancel] at hS
  exact ⟨G, R, S, e, e2, hR, e3, hS⟩

/-! ## C71: octet strings -/

/-- **C71**: `frombytes` returns the finite point of which the argument begins with one of the two strings, and infinity if
there is none. -/
theorem C71_decode (b : List UInt8) (hb : 33 ≤ b.length) (h4 : b.head? = some 4 → beNat ((b.drop 1).take 32) < p → 65 ≤ b.length) :
    ∃ P g, ECP.frombytes b = some P ∧ P.OkY 2 g ∧ ∀ x y h, g = Pt.mk x y h ↔ octets x y <+: b ∨ octetsC x y <+: b := by
  rcases b with _ | ⟨b0, b⟩
  · simp at hb
  rw [List.length_cons] at hb
  simp only [List.head?_cons, Option.some.injEq, List.drop_one, List.tail_cons, List.length_cons] at h4
  obtain ⟨P, e, g, hP, h⟩ := ECP.frombytes_wp (b0 := b0) (b := b) (by omega) (fun h h' => by have := h4 h h'; omega)
  exact ⟨P, g, e, hP, fun x y h' => (h x y h').1⟩

/-- **C71**: it panics exactly on strings that are too short. -/
theorem C71_panics (b : List UInt8) : ECP.frombytes b = none ↔ b.length < 33 ∨
    (b.length < 65 ∧ b.head? = some 4 ∧ beNat ((b.drop 1).take 32) < p) := ECP.frombytes_none b

/-- **C71**: `tobytes` writes the two strings of a finite point, with no exception: on this curve no abscissa is 0. -/
theorem C71_encode (P : ECP) (x y : Fp) (h : y ^ 2 = x ^ 3 + b1) (hP : P.OkY (2 ^ 10) (Pt.mk x y h)) :
    ∃ Q R, P.tobytes = some (octets x y, Q) ∧ P.tobytesC = some (octetsC x y, R) ∧ Q.OkY (2 ^ 10) (Pt.mk x y h) ∧
      R.OkY (2 ^ 10) (Pt.mk x y h) := by
  obtain ⟨⟨b, Q⟩, e, rfl, hQ⟩ := ECP.tobytes_wpY hP (by norm_num)
  obtain ⟨⟨c, R⟩, e', rfl, hR⟩ := ECP.tobytesC_wp hP (by norm_num)
  rw [ECP.xOut_eq h] at e e'
  exact ⟨Q, R, e, e', hQ, hR⟩

theorem decode_zero {b0 : UInt8} {t : List UInt8} {a : Nat} (ha : a = 0 ∨ a = p) (ht : b0 = 4 → 32 ≤ t.length) :
    ∃ P, ECP.frombytes (b0 :: (toBE 32 a ++ t)) = some P ∧ P.OkY 2 0 := by
  obtain ⟨P, g, e, hP, h⟩ := C71_decode (b0 :: (toBE 32 a ++ t)) (by simp [length_toBE])
    (fun h _ => by have := ht (by simpa using h); simp [length_toBE]; omega)
  refine ⟨P, e, ?_⟩
  rcases g.cases with rfl | ⟨x, y, hxy, rfl⟩
  · exact hP
  · exfalso
    have hp := p_le_pow
    have hx := x_ne hxy
    have hl := val_lt_pow x
    have : toBE 32 x.val <+: toBE 32 a ++ t := by
      rcases (h x y hxy).1 rfl with h | h
      · rw [octets, List.cons_prefix_cons] at h
        exact (List.prefix_append _ _).trans h.2
      · rw [octetsC, List.cons_prefix_cons] at h
        exact h.2
    have := List.prefix_of_prefix_length_le this (List.prefix_append _ _) (by rw [length_toBE, length_toBE])
    have := this.eq_of_length (by rw [length_toBE, length_toBE])
    have := congrArg beNat this
    rw [beNat_toBE, beNat_toBE, Nat.mod_eq_of_lt (by omega), Nat.mod_eq_of_lt (by rcases ha with rfl | rfl <;> omega)] at this
    have hlt := ZMod.val_lt x
    rcases ha with rfl | rfl
    · exact hx ((ZMod.val_eq_zero x).1 this)
    · omega

/-- **C71**: what `tobytes` writes, uncompressed, `frombytes` reads as the same point, also for infinity. -/
theorem C71_roundtrip (P : ECP) (g : G1) (hP : P.OkY (2 ^ 10) g) :
    ∃ b Q R, P.tobytes = some (b, Q) ∧ b.length = 65 ∧ ECP.frombytes b = some R ∧ R.OkY 2 g := by
  rcases g.cases with rfl | ⟨x, y, h, rfl⟩
  · obtain ⟨⟨b, Q⟩, e, rfl, -⟩ := ECP.tobytes_inf hP (by norm_num)
    have ha : FP.outNat P.x 0 = 0 ∨ FP.outNat P.x 0 = p := by
      rw [FP.outNat]; split
      · exact Or.inr rfl
      · left; exact ZMod.val_zero
    obtain ⟨R, e1, h1⟩ := decode_zero (b0 := 4) (t := toBE 32 (FP.outNat P.y P.y.toF)) ha (fun _ => by rw [length_toBE])
    exact ⟨_, Q, R, e, by simp [length_toBE], e1, h1⟩
  · obtain ⟨Q, R, e, -, -, -⟩ := C71_encode P x y h hP
    obtain ⟨S, e1, h1⟩ := ecdh.decode_wp (b := octets x y) (Q := Pt.mk x y h) ⟨x, y, h, rfl, Or.inl (List.prefix_refl _)⟩
    exact ⟨_, Q, S, e, by simp [octets, length_toBE], e1, h1⟩

/-- **C71**: the same for compressed strings. -/
theorem C71_roundtrip_compressed (P : ECP) (g : G1) (hP : P.OkY (2 ^ 10) g) :
    ∃ b Q R, P.tobytesC = some (b, Q) ∧ b.length = 33 ∧ ECP.frombytes b = some R ∧ R.OkY 2 g := by
  rcases g.cases with rfl | ⟨x, y, h, rfl⟩
  · obtain ⟨⟨b, Q⟩, e, rfl, -⟩ := ECP.tobytesC_inf hP (by norm_num)
    have ha : FP.outNat P.x 0 = 0 ∨ FP.outNat P.x 0 = p := by
      rw [FP.outNat]; split
      · exact Or.inr rfl
      · left; exact ZMod.val_zero
    obtain ⟨R, e1, h1⟩ := decode_zero (b0 := UInt8.ofNat (2 + FP.outNat P.y P.y.toF % 2)) (t := []) ha (fun h => by
      rcases Nat.mod_two_eq_zero_or_one (FP.outNat P.y P.y.toF) with c | c <;> rw [c] at h <;> revert h <;> decide)
    rw [List.append_nil] at e1
    exact ⟨_, Q, R, e, by simp [length_toBE], e1, h1⟩
  · obtain ⟨-, Q, -, e, -, -⟩ := C71_encode P x y h hP
    obtain ⟨S, e1, h1⟩ := ecdh.decode_wp (b := octetsC x y) (Q := Pt.mk x y h) ⟨x, y, h, rfl, Or.inr (List.prefix_refl _)⟩
    exact ⟨_, Q, S, e, by simp [octetsC, length_toBE], e1, h1⟩

/-- The string of the generator: it is the one printed in SEC 2, and its first 33 bytes begin with 2. -/
example : ∃ G Q R, ECP.generator = some G ∧ G.tobytes = some (4 :: (toBE 32 gx ++ toBE 32 gy), Q) ∧
    G.tobytesC = some (2 :: toBE 32 gx, R) := by
  obtain ⟨G, e, hG⟩ := C69_group.2.1
  obtain ⟨Q, R, e1, e2, -⟩ := C71_encode G _ _ g_on (hG.mono (by norm_num))
  have hx : ((gx : Nat) : Fp).val = gx := ZMod.val_natCast_of_lt (by norm_num [gx, p])
  have hy : ((gy : Nat) : Fp).val = gy := ZMod.val_natCast_of_lt (by norm_num [gy, p])
  refine ⟨G, Q, R, e, ?_, ?_⟩
  · rw [e1, octets, hx, hy]
  · rw [e2, octetsC, hx, hy]
    rfl

end Props.Secp
