import Verif.Proof.B383.EcpMore
import Verif.Spec.B383.Octets
/-!
# The octet encoding of AMCL for points of the first curve
-/

set_option exponentiation.threshold 2000

namespace Amcl.B383

open Spec Spec.B383

seal Spec.toBE

theorem val_neg_parity {y : Fp} (hy : y ≠ 0) : (-y).val % 2 = 1 - y.val % 2 := by
  have := Fact.mk Primes.B383.prime_p
  rw [ZMod.neg_val, if_neg hy]
  have h := ZMod.val_lt y
  have hp : p % 2 = 1 := by norm_num [p]
  omega

/-- The root with a given parity is unique. -/
theorem root_unique {y z : Fp} (hy : y ≠ 0) (h : y ^ 2 = z ^ 2) (hp : y.val % 2 = z.val % 2) : y = z := by
  rcases sq_eq_sq_iff_eq_or_eq_neg.1 h with e | e
  · exact e
  · have hz : z ≠ 0 := fun e' => hy (by rw [e, e', neg_zero])
    rw [e, val_neg_parity hz] at hp
    omega

namespace ECP

theorem withParity_wp {ny : FP} {y : Fp} (h : FP.Can ny y) (hy : y ≠ 0) {s : Nat} (hs : s < 2) :
    Wp (withParity ny s) fun r => ∃ z, FP.Ok r 2 2 z ∧ z ^ 2 = y ^ 2 ∧ z.val % 2 = s := by
  unfold withParity
  refine Wp.bind (FP.redc_nat h.ok (by norm_num)) ?_
  rintro b ⟨nb, vb⟩
  rw [FP.outNat_of_ne hy] at vb
  rw [BIG.parity_spec nb, vb]
  split
  · rename_i hc
    refine (FP.neg_wp h.ok (by norm_num)).mono fun r hr => ⟨-y, hr.mono (by norm_num), by ring, ?_⟩
    rw [val_neg_parity hy]
    omega
  · rename_i hc
    exact Wp.ret ⟨y, h.ok.mono (by norm_num), rfl, by omega⟩

/-- `new_bigint`: the point with this abscissa and an ordinate of this parity if there is one, else infinity. -/
theorem new_bigint_wp {ix : BIG} (hx : ix.Lim (2 ^ 61)) (x0 : 0 ≤ ix.val) (x1 : ix.val ≤ 2 ^ 23 * p) {s : Nat}
    (hs : s < 2) :
    Wp (new_bigint ix s) fun P =>
      (IsSquare ((ix.val : Fp) ^ 3 + b1) → ∃ y h, y.val % 2 = s ∧ OkY P 2 (Pt.mk (ix.val : Fp) y h) ∧
        P.z.toF = 1 ∧ (P.x.x.val = 0 ↔ ix.val = 0)) ∧
      (¬ IsSquare ((ix.val : Fp) ^ 3 + b1) → OkY P 2 0) := by
  unfold new_bigint
  refine Wp.bind ((FP.nres_wp hx x0 x1).and (FP.nres_zero_wp hx x0 x1)) ?_
  rintro x ⟨hx, zx⟩
  refine Wp.bind FP.one_wp fun z hz => ?_
  refine Wp.bind (rhs_wp hx (by norm_num)) ?_
  rintro ⟨r, x'⟩ ⟨hr, hx', ex'⟩
  dsimp only at hr hx' ex' ⊢
  refine Wp.bind (FP.jacobi_one hr.ok (by norm_num)) fun j hj => ?_
  split
  · rename_i ht
    have hs' := (hj.1 ht).2
    refine Wp.bind (FP.sqrt_wp hr.ok (by norm_num)) ?_
    rintro ⟨ny, _⟩ ⟨hy, -⟩
    dsimp only at hy ⊢
    have e : _ = (ix.val : Fp) ^ 3 + b1 := FP.sqrt_pow hs'
    refine Wp.bind (withParity_wp hy (Pt.y_ne e) hs) ?_
    rintro y ⟨w, hw, ew, hp⟩
    refine Wp.ret ⟨fun _ => ⟨w, ew.trans e, hp, okY_of hx' hw hz (Proj.mk _), hz.res, ?_⟩, fun h => absurd hs' h⟩
    rw [← zx, ← ex']
  · rename_i hf
    refine inf_wp.mono fun P hP => ⟨fun h => ?_, fun _ => hP.okY⟩
    obtain ⟨y, e⟩ := h
    refine absurd (hj.2 ⟨?_, ⟨y, e⟩⟩) hf
    have := Pt.y_ne (b := b1) (y := y) (x := (ix.val : Fp)) (by rw [pow_two, e])
    show (ix.val : Fp) ^ 3 + b1 ≠ 0
    rw [e]
    exact mul_ne_zero this this

theorem affine_coordsY {P : ECP} {E : Int} {x y : Fp} {h : y ^ 2 = x ^ 3 + b1} (hP : OkY P E (Pt.mk x y h))
    (hE : E ≤ 2 ^ 23) :
    Wp P.affine fun r => OkY r E (Pt.mk x y h) ∧ FP.Ok r.x 1 E x ∧ FP.Ok r.y 2 E y ∧ r.z.toF = 1 ∧
      FP.outNat r.x x = P.xOut x := by
  refine (affine_wpY hP hE).mono ?_
  rintro r ⟨hr, -, hz, h1, h2⟩
  have hz := (hz (Pt.mk_ne h)).res
  obtain ⟨h', e⟩ := hr.pt.coords hz
  rw [Pt.mk_inj] at e
  refine ⟨hr, e.1 ▸ hr.x, e.2 ▸ hr.y, hz, ?_⟩
  rw [FP.outNat, xOut]
  by_cases hc : P.z.toF = 1
  · rw [(h1 hc).1]; simp [hc]
  · have := (h2 (Pt.mk_ne h) hc).1.zero_iff
    rw [← e.1] at this
    rw [if_neg, if_neg]
    · simp [hc]
    · rintro ⟨e0, e1⟩
      exact e1 (this.2 e0)

theorem tobytes_wpY {P : ECP} {E : Int} {x y : Fp} {h : y ^ 2 = x ^ 3 + b1}
    (hP : OkY P E (Pt.mk x y h)) (hE : E ≤ 2 ^ 23) :
    Wp P.tobytes fun r => r.1 = 4 :: (toBE 48 (P.xOut x) ++ toBE 48 y.val) ∧ OkY r.2 E (Pt.mk x y h) := by
  unfold ECP.tobytes
  have hp := p_le_pow
  have hx1 := P.xOut_le x
  have hyl := ZMod.val_lt y
  refine Wp.bind (affine_coordsY hP hE) ?_
  rintro Q ⟨hQ, hx, hy, hz, eo⟩
  refine Wp.bind (FP.redc_nat hx (by omega)) ?_
  rintro X ⟨nX, vX⟩
  rw [eo] at vX
  refine Wp.bind (Wp.eq (nX.tobytes vX (by omega))) ?_
  rintro _ rfl
  refine Wp.bind (FP.redc_nat hy (by omega)) ?_
  rintro Y ⟨nY, vY⟩
  rw [FP.outNat_of_ne (Pt.y_ne h)] at vY
  refine Wp.bind (Wp.eq (nY.tobytes vY (by omega))) ?_
  rintro _ rfl
  exact Wp.ret ⟨rfl, hQ⟩

theorem parity_byte (n : Nat) : (if (n : Int) % 2 = 1 then 0x03 else 0x02 : UInt8) = UInt8.ofNat (2 + n % 2) := by
  rcases Nat.mod_two_eq_zero_or_one n with h | h
  · rw [if_neg (by omega), h]; rfl
  · rw [if_pos (by omega), h]; rfl

theorem tobytesC_wp {P : ECP} {E : Int} {x y : Fp} {h : y ^ 2 = x ^ 3 + b1}
    (hP : OkY P E (Pt.mk x y h)) (hE : E ≤ 2 ^ 23) :
    Wp P.tobytesC fun r => r.1 = UInt8.ofNat (2 + y.val % 2) :: toBE 48 (P.xOut x) ∧ OkY r.2 E (Pt.mk x y h) := by
  unfold ECP.tobytesC
  have hp := p_le_pow
  have hx1 := P.xOut_le x
  have hyl := ZMod.val_lt y
  refine Wp.bind (affine_coordsY hP hE) ?_
  rintro Q ⟨hQ, hx, hy, hz, eo⟩
  refine Wp.bind (FP.redc_nat hx (by omega)) ?_
  rintro X ⟨nX, vX⟩
  rw [eo] at vX
  refine Wp.bind (Wp.eq (nX.tobytes vX (by omega))) ?_
  rintro _ rfl
  refine Wp.bind (FP.redc_nat hy (by omega)) ?_
  rintro Y ⟨nY, vY⟩
  rw [FP.outNat_of_ne (Pt.y_ne h)] at vY
  refine Wp.ret ⟨?_, hQ⟩
  rw [BIG.parity_spec nY, vY, parity_byte]

/-- The parity of the ordinate. -/
theorem gets_wp {P : ECP} {E : Int} {x y : Fp} {h : y ^ 2 = x ^ 3 + b1} (hP : OkY P E (Pt.mk x y h))
    (hE : E ≤ 2 ^ 23) : Wp P.gets fun r => r.1 = ((y.val % 2 : Nat) : Int) ∧ OkY r.2 E (Pt.mk x y h) := by
  unfold gets gety
  refine Wp.bind (affine_coordsY hP hE) ?_
  rintro Q ⟨hQ, -⟩
  refine Wp.bind (R := fun r : BIG × ECP => r.1.Nrm ∧ r.1.val = (y.val : Int) ∧ OkY r.2 E (Pt.mk x y h)) ?_ ?_
  · refine Wp.bind (affine_coordsY hQ hE) ?_
    rintro R ⟨hR, -, hy, -⟩
    refine Wp.bind (FP.redc_nat hy (by omega)) ?_
    rintro Y ⟨nY, vY⟩
    rw [FP.outNat_of_ne (Pt.y_ne h)] at vY
    exact Wp.ret ⟨nY, vY, hR⟩
  · rintro ⟨Y, R⟩ ⟨nY, vY, hR⟩
    refine Wp.ret ⟨?_, hR⟩
    dsimp only at nY vY ⊢
    rw [BIG.parity_spec nY, vY]
    norm_cast

/-- The encoders on infinity: the coordinates of the representation as they stand. -/
theorem tobytes_inf {P : ECP} {E : Int} (hP : OkY P E 0) (hE : E ≤ 2 ^ 23) :
    Wp P.tobytes fun r => r.1 = 4 :: (toBE 48 (FP.outNat P.x 0) ++ toBE 48 (FP.outNat P.y P.y.toF)) ∧ r.2 = P := by
  unfold ECP.tobytes
  have hp := p_le_pow
  have hx1 := P.x.outNat_le 0
  have hyl := P.y.outNat_le P.y.toF
  have h0 := (hP.pt.inf_iff.2 rfl).1
  refine Wp.bind (affine_wpY hP hE) ?_
  rintro Q ⟨-, e, -⟩
  rw [e rfl]
  have hx := hP.x
  rw [h0] at hx
  refine Wp.bind (FP.redc_nat hx (by omega)) ?_
  rintro X ⟨nX, vX⟩
  refine Wp.bind (Wp.eq (nX.tobytes vX (by omega))) ?_
  rintro _ rfl
  refine Wp.bind (FP.redc_nat hP.y (by omega)) ?_
  rintro Y ⟨nY, vY⟩
  refine Wp.bind (Wp.eq (nY.tobytes vY (by omega))) ?_
  rintro _ rfl
  exact Wp.ret ⟨rfl, rfl⟩

theorem tobytesC_inf {P : ECP} {E : Int} (hP : OkY P E 0) (hE : E ≤ 2 ^ 23) :
    Wp P.tobytesC fun r =>
      r.1 = UInt8.ofNat (2 + FP.outNat P.y P.y.toF % 2) :: toBE 48 (FP.outNat P.x 0) ∧ r.2 = P := by
  unfold ECP.tobytesC
  have hp := p_le_pow
  have hx1 := P.x.outNat_le 0
  have hyl := P.y.outNat_le P.y.toF
  have h0 := (hP.pt.inf_iff.2 rfl).1
  refine Wp.bind (affine_wpY hP hE) ?_
  rintro Q ⟨-, e, -⟩
  rw [e rfl]
  have hx := hP.x
  rw [h0] at hx
  refine Wp.bind (FP.redc_nat hx (by omega)) ?_
  rintro X ⟨nX, vX⟩
  refine Wp.bind (Wp.eq (nX.tobytes vX (by omega))) ?_
  rintro _ rfl
  refine Wp.bind (FP.redc_nat hP.y (by omega)) ?_
  rintro Y ⟨nY, vY⟩
  refine Wp.ret ⟨?_, rfl⟩
  rw [BIG.parity_spec nY, vY, parity_byte]

end ECP

/-! ### Decoding -/

theorem toBE_eq_iff {l : List UInt8} (hl : l.length = 48) {n : Nat} (hn : n < 2 ^ 384) :
    toBE 48 n = l ↔ beNat l = n := by
  constructor
  · rintro rfl
    rw [beNat_toBE, Nat.mod_eq_of_lt (by omega)]
  · rintro rfl
    exact (toBE_of_bytes hl).symm

theorem val_lt384 (x : Fp) : x.val < 2 ^ 384 := by
  have := ZMod.val_lt x
  have := p_le_pow
  omega

theorem octetsC_prefix {x y : Fp} {b0 : UInt8} {b : List UInt8} (hb : 48 ≤ b.length) :
    octetsC x y <+: b0 :: b ↔ b0 = UInt8.ofNat (2 + y.val % 2) ∧ beNat (b.take 48) = x.val := by
  rw [List.prefix_iff_eq_take, octetsC, List.length_cons, length_toBE, List.take_succ_cons, List.cons_eq_cons,
    toBE_eq_iff (by rw [List.length_take]; omega) (val_lt384 x), eq_comm]

theorem octets_prefix {x y : Fp} {b0 : UInt8} {b : List UInt8} (hb : 48 ≤ b.length) :
    octets x y <+: b0 :: b ↔ b0 = 4 ∧ beNat (b.take 48) = x.val ∧ 96 ≤ b.length ∧
      beNat ((b.drop 48).take 48) = y.val := by
  rw [List.prefix_iff_eq_take, octets, List.length_cons, List.length_append, length_toBE, length_toBE,
    List.take_succ_cons, List.cons_eq_cons, List.take_add]
  have hl : (b.take 48).length = 48 := by rw [List.length_take]; omega
  constructor
  · rintro ⟨h, e⟩
    have h96 : 96 ≤ b.length := by
      have := congrArg List.length e
      simp only [List.length_append, length_toBE, List.length_take, List.length_drop] at this
      omega
    obtain ⟨e1, e2⟩ := List.append_inj e (by rw [length_toBE, hl])
    exact ⟨h.symm, (toBE_eq_iff hl (val_lt384 x)).1 e1, h96,
      (toBE_eq_iff (by rw [List.length_take, List.length_drop]; omega) (val_lt384 y)).1 e2⟩
  · rintro ⟨h, e1, h96, e2⟩
    refine ⟨h.symm, ?_⟩
    rw [(toBE_eq_iff hl (val_lt384 x)).2 e1,
      (toBE_eq_iff (by rw [List.length_take, List.length_drop]; omega) (val_lt384 y)).2 e2]

namespace ECP

/-- What `frombytes` returns for the bytes `b`: a representation of the finite point of which `b` starts with one
of the strings, or of infinity if there is no such point. -/
def Decoded (b : List UInt8) (P : ECP) : Prop :=
  ∃ g, OkY P 2 g ∧ ∀ x y h, (g = Pt.mk x y h ↔ octets x y <+: b ∨ octetsC x y <+: b) ∧
    (g = Pt.mk x y h → P.z.toF = 1 ∧ P.xOut x = x.val)

theorem Decoded.inf {b : List UInt8} {P : ECP} (hP : OkY P 2 0)
    (h : ∀ x y : Fp, y ^ 2 = x ^ 3 + b1 → ¬ (octets x y <+: b ∨ octetsC x y <+: b)) : Decoded b P :=
  ⟨0, hP, fun x y e => ⟨⟨fun h' => absurd h'.symm (Pt.mk_ne e), fun h' => absurd h' (h x y e)⟩,
    fun h' => absurd h'.symm (Pt.mk_ne e)⟩⟩

theorem xOut_of_small {P : ECP} {n : Nat} (hn : n < p) (h : P.x.x.val = 0 ↔ n = 0) :
    P.xOut (n : Fp) = (n : Fp).val := by
  rw [xOut, if_neg]
  rintro ⟨h0, -, h1⟩
  refine h1 (h.2 ?_)
  rw [ZMod.natCast_eq_zero_iff] at h0
  exact Nat.eq_zero_of_dvd_of_lt h0 hn

theorem natCast_val_of_lt {n : Nat} (hn : n < p) : ((n : Nat) : Fp).val = n := by
  rw [ZMod.val_natCast, Nat.mod_eq_of_lt hn]

theorem val_inj' {a b : Fp} : a.val = b.val ↔ a = b := (ZMod.val_injective p).eq_iff

theorem comp_modulus {a : BIG} {n : Nat} (ha : a.Nrm) (h : a.val = n) : a.comp rom.MODULUS ≥ 0 ↔ p ≤ n := by
  have := BIG.comp_lt ha modulus_nrm
  rw [modulus_val, h] at this
  have hp := p_val
  omega

theorem p_le25 : (p : Int) ≤ 2 ^ 23 * p := by
  have := p_pos
  omega

theorem frombytes_wp {b0 : UInt8} {b : List UInt8} (hb : 48 ≤ b.length)
    (h4 : b0 = 4 → beNat (b.take 48) < p → 96 ≤ b.length) : Wp (frombytes (b0 :: b)) (Decoded (b0 :: b)) := by
  have hp0 := p_pos
  have hple := p_le_pow
  have h25 := p_le25
  unfold frombytes
  rw [if_neg (by rw [List.length_cons]; omega)]
  have hl : (b.take 48).length = 48 := by rw [List.length_take]; omega
  rw [List.drop_one, List.tail_cons]
  refine Wp.bind (BIG.frombytes_wp (b := b.take 48) (by omega)) ?_
  rintro px ⟨nx, vx⟩
  rw [List.take_take, min_self] at vx
  generalize hN : beNat (b.take 48) = N at *
  refine Wp.bind (R := fun x => x = b0) (Wp.eq (by simp)) ?_
  intro c hc
  rw [hc]
  clear hc c
  unfold fromHead
  split
  · rename_i hc
    rw [comp_modulus nx vx] at hc
    refine new_wp.mono fun P hP => Decoded.inf hP.okY fun x y _ => ?_
    rw [octetsC_prefix hb, octets_prefix hb, hN]
    have := ZMod.val_lt x
    rintro (⟨-, e, -⟩ | ⟨-, e⟩) <;> omega
  rename_i hc
  rw [comp_modulus nx vx, not_le] at hc
  have lx : px.Lim (2 ^ 61) := (nx.lim58 (by omega) (by omega)).mono (by norm_num)
  split
  · rename_i e4
    have h96 := h4 e4 hc
    unfold fromCoords
    rw [if_neg (by rw [List.length_cons]; omega), List.drop_succ_cons]
    have hl' : ((b.drop 48).take 48).length = 48 := by rw [List.length_take, List.length_drop]; omega
    refine Wp.bind (BIG.frombytes_wp (b := (b.drop 48).take 48) (by omega)) ?_
    rintro py ⟨ny, vy⟩
    rw [List.take_take, min_self] at vy
    generalize hM : beNat ((b.drop 48).take 48) = M at *
    split
    · rename_i hc'
      rw [comp_modulus ny vy] at hc'
      refine new_wp.mono fun P hP => Decoded.inf hP.okY fun x y _ => ?_
      rw [octetsC_prefix hb, octets_prefix hb, hN, hM]
      have := ZMod.val_lt y
      rintro (⟨-, -, -, e⟩ | ⟨e, -⟩)
      · omega
      · rw [e4] at e
        rcases Nat.mod_two_eq_zero_or_one y.val with h | h <;> rw [h] at e <;> revert e <;> decide
    rename_i hc'
    rw [comp_modulus ny vy, not_le] at hc'
    have ly : py.Lim (2 ^ 61) := (ny.lim58 (by omega) (by omega)).mono (by norm_num)
    refine (new_bigs_wp lx ly (by omega) (by omega) (by omega) (by omega)).mono ?_
    rintro P ⟨h1, h2⟩
    rw [vx, vy, Int.cast_natCast, Int.cast_natCast] at h1 h2
    have key : ∀ x y : Fp, (octets x y <+: b0 :: b ∨ octetsC x y <+: b0 :: b) ↔ (N : Fp) = x ∧ (M : Fp) = y := by
      intro x y
      rw [octetsC_prefix hb, octets_prefix hb, hN, hM, ← natCast_val_of_lt hc, ← natCast_val_of_lt hc',
        val_inj', val_inj', natCast_val_of_lt hc, natCast_val_of_lt hc']
      constructor
      · rintro (⟨-, e, -, e'⟩ | ⟨e, -⟩)
        · exact ⟨e, e'⟩
        · exfalso
          rw [e4] at e
          rcases Nat.mod_two_eq_zero_or_one y.val with h | h <;> rw [h] at e <;> revert e <;> decide
      · rintro ⟨e, e'⟩
        exact Or.inl ⟨e4, e, h96, e'⟩
    by_cases hon : (M : Fp) ^ 2 = (N : Fp) ^ 3 + b1
    · obtain ⟨hP, hz, hx0, -⟩ := h1 hon
      refine ⟨_, hP.okY, fun x y h => ⟨?_, ?_⟩⟩
      · rw [key, Pt.mk_inj]
      · rw [Pt.mk_inj]
        rintro ⟨rfl, -⟩
        exact ⟨hz, xOut_of_small hc (by rw [hx0]; omega)⟩
    · refine Decoded.inf (h2 hon).okY fun x y e => ?_
      rw [key]
      rintro ⟨rfl, rfl⟩
      exact hon e
  rename_i e4
  split
  · rename_i e23
    have hs : (b0 &&& 1).toNat < 2 ∧ b0 = UInt8.ofNat (2 + (b0 &&& 1).toNat) := by
      rcases e23 with rfl | rfl <;> decide
    obtain ⟨hs, eb⟩ := hs
    generalize (b0 &&& 1).toNat = s at *
    refine (new_bigint_wp lx (by omega) (by omega) hs).mono ?_
    rintro P ⟨h1, h2⟩
    rw [vx, Int.cast_natCast] at h1 h2
    have key : ∀ x y : Fp, (octets x y <+: b0 :: b ∨ octetsC x y <+: b0 :: b) ↔ (N : Fp) = x ∧ y.val % 2 = s := by
      intro x y
      rw [octetsC_prefix hb, octets_prefix hb, hN, ← natCast_val_of_lt hc, val_inj', natCast_val_of_lt hc]
      constructor
      · rintro (⟨e, -⟩ | ⟨e, e'⟩)
        · exact absurd e e4
        · refine ⟨e', ?_⟩
          rw [eb, ← UInt8.toNat_inj, UInt8.toNat_ofNat', UInt8.toNat_ofNat'] at e
          omega
      · rintro ⟨e, e'⟩
        exact Or.inr ⟨by rw [e', ← eb], e⟩
    by_cases hsq : IsSquare ((N : Fp) ^ 3 + b1)
    · obtain ⟨y, h, hp, hP, hz, hx0⟩ := h1 hsq
      refine ⟨_, hP, fun x' y' h' => ⟨?_, ?_⟩⟩
      · rw [key, Pt.mk_inj]
        constructor
        · rintro ⟨rfl, rfl⟩
          exact ⟨rfl, hp⟩
        · rintro ⟨rfl, e⟩
          exact ⟨rfl, root_unique (Pt.y_ne h) (h.trans h'.symm) (hp.trans e.symm)⟩
      · rw [Pt.mk_inj]
        rintro ⟨rfl, -⟩
        exact ⟨hz, xOut_of_small hc (by rw [hx0]; omega)⟩
    · refine Decoded.inf (h2 hsq) fun x y e => ?_
      rw [key]
      rintro ⟨rfl, -⟩
      exact hsq ⟨y, by rw [← e, pow_two]⟩
  · rename_i e23
    refine new_wp.mono fun P hP => Decoded.inf hP.okY fun x y _ => ?_
    rw [octetsC_prefix hb, octets_prefix hb]
    rintro (⟨e, -⟩ | ⟨e, -⟩)
    · exact e4 e
    · refine e23 ?_
      rcases Nat.mod_two_eq_zero_or_one y.val with h | h <;> rw [h] at e <;> rw [e] <;> decide

/-- When `frombytes` reads outside its argument. -/
theorem frombytes_none (b : List UInt8) : frombytes b = none ↔ b.length < 49 ∨
    (b.length < 97 ∧ b.head? = some 4 ∧ beNat ((b.drop 1).take 48) < p) := by
  rcases b with _ | ⟨b0, b⟩
  · simp [frombytes]
  by_cases hb : 48 ≤ b.length
  · by_cases h4 : b0 = 4 → beNat (b.take 48) < p → 96 ≤ b.length
    · obtain ⟨P, e, -⟩ := frombytes_wp hb h4
      rw [e]
      simp only [List.length_cons, List.head?_cons, Option.some.injEq, List.drop_one, List.tail_cons, reduceCtorEq,
        false_iff, not_or, not_and]
      exact ⟨by omega, fun h h' h'' => absurd (h4 h' h'') (by omega)⟩
    · push Not at h4
      obtain ⟨rfl, h5, h6⟩ := h4
      simp only [List.length_cons, List.head?_cons, List.drop_one, List.tail_cons]
      refine ⟨fun _ => Or.inr ⟨by omega, trivial, h5⟩, fun _ => ?_⟩
      unfold frombytes
      rw [if_neg (by rw [List.length_cons]; omega), List.drop_one, List.tail_cons]
      obtain ⟨px, e, nx, vx⟩ := BIG.frombytes_wp (b := b.take 48) (by rw [List.length_take]; omega)
      rw [List.take_take, min_self] at vx
      rw [e]
      show fromHead px 4 (4 :: b) = none
      rw [fromHead, if_neg (by rw [comp_modulus nx vx]; omega), if_pos rfl, fromCoords,
        if_pos (by rw [List.length_cons]; omega)]
      rfl
  · unfold frombytes
    rw [if_pos (by rw [List.length_cons]; omega)]
    simp only [List.length_cons]
    exact ⟨fun _ => Or.inl (by omega), fun _ => rfl⟩

end ECP

end Amcl.B383
