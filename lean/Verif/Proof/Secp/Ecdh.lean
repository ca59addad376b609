import Verif.Model.Secp.Ecdh
import Verif.Spec.Secp.Ecdsa
import Verif.Proof.Secp.EcpCodec
import Verif.Proof.Secp.Joint
import Verif.Proof.Secp.Rng
import Verif.Proof.Ecdh
import Mathlib.NumberTheory.LegendreSymbol.JacobiSymbol
import Mathlib.Tactic.NormNum.LegendreSymbol
/-!
# The functions of `ecdh.rs` that use the curve
-/

set_option exponentiation.threshold 2000

namespace Amcl.Secp

open Spec.Secp
open Spec (Pt toBE beNat length_toBE beNat_toBE toBE_beNat sha256)
open Spec.Rng (numberAt)

seal Spec.toBE

/-! ### The constants -/

theorem order_nrm : rom.CURVE_ORDER.Nrm := by constructor <;> norm_num [rom.CURVE_ORDER]

theorem order_val : rom.CURVE_ORDER.val = (n : Int) := by norm_num [rom.CURVE_ORDER, BIG.val, n]

theorem n_val : (n : Int) = 115792089237316195423570985008687907852837564279074904382605163141518161494337 := rfl

theorem n_pos : 0 < n := prime_n.pos

theorem n_lt : n < 2 ^ 256 := by norm_num [n]

theorem size_n : Nat.size n = 256 := by
  apply le_antisymm
  · rw [Nat.size_le]; exact n_lt
  · have : 255 < Nat.size n := by rw [Nat.lt_size]; norm_num [n]
    exact this

theorem ECP.generator_wp : Wp ECP.generator fun P => ECP.Ok P 2 gen := by
  have ex : rom.CURVE_GX.val = (gx : Int) := by norm_num [rom.CURVE_GX, BIG.val, gx]
  have ey : rom.CURVE_GY.val = (gy : Int) := by norm_num [rom.CURVE_GY, BIG.val, gy]
  have h := ECP.new_bigs_wp (ix := rom.CURVE_GX) (iy := rom.CURVE_GY)
    (by constructor <;> norm_num [rom.CURVE_GX]) (by constructor <;> norm_num [rom.CURVE_GY])
    (by rw [ex]; exact Int.natCast_nonneg _) (by rw [ey]; exact Int.natCast_nonneg _)
    (by rw [ex]; norm_num [gx, p]) (by rw [ey]; norm_num [gy, p])
  refine h.mono ?_
  rintro P ⟨h, -⟩
  rw [ex, ey, Int.cast_natCast, Int.cast_natCast] at h
  exact (h g_on).1

/-! ### Abscissas -/

theorem seven_nonsquare : ¬ IsSquare (7 : Fp) := by
  have h : jacobiSym 7 115792089237316195423570985008687907853269984665640564039457584007908834671663 = -1 := by norm_num
  have := ZMod.nonsquare_of_jacobiSym_eq_neg_one h
  exact_mod_cast this

/-- No point has the abscissa 0. -/
theorem x_ne {x y : Fp} (h : y ^ 2 = x ^ 3 + b1) : x ≠ 0 := by
  rintro rfl
  refine seven_nonsquare ⟨y, ?_⟩
  rw [← pow_two, h, b1]; ring

theorem ECP.xOut_eq {P : ECP} {x y : Fp} (h : y ^ 2 = x ^ 3 + b1) : P.xOut x = x.val := ECP.xOut_of_ne (x_ne h)

theorem _root_.Spec.Secp.HasX.inj {Q : G1} {x x' : Fp} (h : HasX Q x) (h' : HasX Q x') : x = x' := by
  obtain ⟨y, e, rfl⟩ := h
  obtain ⟨y', e', h'⟩ := h'
  exact (Pt.mk_inj.1 h').1

theorem _root_.Spec.Secp.HasX.ne {Q : G1} {x : Fp} (h : HasX Q x) : Q ≠ 0 := by
  obtain ⟨y, e, rfl⟩ := h
  exact Pt.mk_ne e

theorem hasX_of_ne {Q : G1} (h : Q ≠ 0) : ∃ x, HasX Q x := by
  rcases Q.cases with rfl | ⟨x, y, hP, rfl⟩
  · exact absurd rfl h
  · exact ⟨x, y, hP, rfl⟩

theorem _root_.Spec.Secp.HasX.neg {Q : G1} {x : Fp} (h : HasX Q x) : HasX (-Q) x := by
  obtain ⟨y, e, rfl⟩ := h
  exact ⟨-y, by rw [neg_sq]; exact e, Pt.neg_mk e⟩

/-! ### Multiples -/

theorem smul_mod (a : Nat) (Q : G1) : (a % n) • Q = a • Q := by
  conv_rhs => rw [← Nat.mod_add_div a n, add_nsmul, mul_comm, mul_nsmul', n_smul, nsmul_zero, add_zero]

theorem smul_eq_zero {a : Nat} {Q : G1} (h : Q ≠ 0) : a • Q = 0 ↔ a % n = 0 := by
  rw [← addOrderOf_dvd_iff_nsmul_eq_zero, order_eq h, Nat.dvd_iff_mod_eq_zero]

theorem smul_congr {a b : Nat} (h : (a : ZMod n) = (b : ZMod n)) (Q : G1) : a • Q = b • Q := by
  rw [ZMod.natCast_eq_natCast_iff, Nat.ModEq] at h
  rw [← smul_mod a, h, smul_mod]

theorem rmod_n {s : BIG} {a : Nat} (hs : s.Nrm) (h : s.val = (a : Int)) (ha : a < 2 ^ 278) :
    Wp (BIG.rmod s rom.CURVE_ORDER) fun r => r.Nrm ∧ r.val = ((a % n : Nat) : Int) := by
  refine (BIG.rmod_wp ((hs.lim56 (by omega) (by omega)).mono (by norm_num)) (by omega) (by omega) order_nrm
    (by rw [order_val]; exact_mod_cast n_pos)).mono ?_
  rintro r ⟨h1, h2⟩
  refine ⟨h1, ?_⟩
  rw [h2, h, order_val]; push_cast; rfl

theorem randomnum_n {e : List UInt8} {i : Nat} {g : RAND} (hg : RAND.Gen (sha256 e) i g) :
    Wp (BIG.randomnum rom.CURVE_ORDER g) fun x => x.1.Nrm ∧ x.1.val = ((numberAt e i 512 % n : Nat) : Int) ∧
      RAND.Gen (sha256 e) (i + 64) x.2 := by
  have hn := n_lt
  have h0 := n_pos
  have := BIG.randomnum_at hg order_nrm (by rw [order_val]; exact_mod_cast n_pos) (by rw [order_val]; omega)
  rw [order_val, Int.toNat_natCast, size_n] at this
  refine this.mono ?_
  rintro x ⟨h1, h2, h3⟩
  exact ⟨h1, by rw [h2]; push_cast; rfl, h3⟩

theorem ECP.mulY {P : ECP} {g : G1} (hP : ECP.OkY P 2 g) {e : BIG} {a : Nat} (he : e.Nrm) (h : e.val = (a : Int))
    (ha : a < n) : Wp (P.mul e) fun r => ECP.Post r (a • g) := by
  have hn := n_lt
  have := ECP.mul_wpY (hP.mono (by norm_num)) he (by omega) (by omega)
  rw [h, natCast_zsmul] at this
  exact this

/-- The product with 0 is the fixed representation of infinity. -/
theorem ECP.mul_zero {P : ECP} {e : BIG} (he : e.Nrm) (h : e.val = 0) : P.mul e = ECP.new := by
  unfold ECP.mul
  rw [if_pos ((BIG.iszilch_spec he).2 h)]

theorem ECP.new_coords : ∃ y, FP.new_int 1 = some y ∧ FP.Ok y 1 2 1 ∧ ECP.new = some ⟨FP.new, y, FP.new⟩ := by
  have h : Wp (FP.new_int 1) fun y => FP.Ok y 1 2 ((1 : Int) : Fp) := FP.new_int_wp (by norm_num) (by norm_num)
  obtain ⟨y, e, h⟩ := h
  rw [Int.cast_one] at h
  exact ⟨y, e, h, by rw [ECP.new, e]; rfl⟩

theorem FP.new_redc : Wp FP.new.redc fun r => r.Nrm ∧ r.val = 0 := by
  refine (FP.redc_nat (FP.new_can.ok) (by norm_num)).mono ?_
  rintro r ⟨h1, h2⟩
  rw [FP.new_can.outNat, ZMod.val_zero] at h2
  exact ⟨h1, h2⟩

theorem ECP.new_affine {y : FP} (hy : FP.Ok y 1 2 1) : (ECP.mk FP.new y FP.new).affine = some ⟨FP.new, y, FP.new⟩ := by
  have h : ECP.Ok ⟨FP.new, y, FP.new⟩ 2 0 :=
    ECP.ok_of (FP.new_can.ok.mono (by norm_num)) hy (FP.new_can.ok.mono (by norm_num)) (Proj.zero (by simp))
  obtain ⟨r, e, -, h, -⟩ := ECP.affine_wp h (by norm_num)
  rw [e, h rfl]

/-- `getx` of infinity. -/
theorem ECP.new_getx {P : ECP} (h : ECP.new = some P) : Wp P.getx fun r => r.1.Nrm ∧ r.1.val = 0 := by
  obtain ⟨y, -, hy, e⟩ := ECP.new_coords
  rw [e, Option.some.injEq] at h
  subst h
  unfold ECP.getx
  refine Wp.bind (Wp.eq (ECP.new_affine hy)) ?_
  rintro _ rfl
  exact Wp.bind FP.new_redc fun r hr => Wp.ret hr

/-- `tobytes` of infinity. -/
theorem ECP.new_tobytes {P : ECP} (h : ECP.new = some P) : Wp P.tobytes fun r => r.1 = 4 :: (toBE 32 0 ++ toBE 32 1) := by
  obtain ⟨y, -, hy, e⟩ := ECP.new_coords
  rw [e, Option.some.injEq] at h
  subst h
  unfold ECP.tobytes
  refine Wp.bind (Wp.eq (ECP.new_affine hy)) ?_
  rintro _ rfl
  refine Wp.bind FP.new_redc ?_
  rintro X ⟨nX, vX⟩
  refine Wp.bind (Wp.eq (nX.tobytes (n := 0) vX (by norm_num))) ?_
  rintro _ rfl
  refine Wp.bind (FP.redc_nat hy (by norm_num)) ?_
  rintro Y ⟨nY, vY⟩
  rw [FP.outNat_of_ne one_ne_zero, ZMod.val_one] at vY
  refine Wp.bind (Wp.eq (nY.tobytes (n := 1) vY (by norm_num))) ?_
  rintro _ rfl
  exact Wp.ret rfl

theorem _root_.Spec.Secp.HasX.getx {P : ECP} {Q : G1} {x : Fp} (h : HasX Q x) (hP : ECP.Ok P (2 ^ 10) Q) :
    Wp P.getx fun r => r.1.Nrm ∧ r.1.val = (x.val : Int) := by
  obtain ⟨y, e, rfl⟩ := h
  refine (ECP.getx_wp hP (by norm_num)).mono ?_
  rintro r ⟨h1, h2, -⟩
  rw [ECP.xOut_eq e] at h2
  exact ⟨h1, h2⟩

theorem val_lt_pow (x : Fp) : x.val < 2 ^ 256 := val_lt256 x

/-! ### Slices -/

namespace ecdh

open NHS (copy)
open Amcl.ecdh (copy_eq)

theorem setB_none {l : List UInt8} {i : Nat} {x : UInt8} (h : l.length ≤ i) : SHA3.setB l i x = none := by
  unfold SHA3.setB
  rw [if_neg (by omega)]

theorem copy_none (p q : Nat) (src : List UInt8) : ∀ (n i : Nat) (dst : List UInt8), 0 < n → dst.length < i + n + p →
    copy p q src n i dst = none
  | 0, _, _, h, _ => absurd h (by omega)
  | n + 1, i, dst, _, h => by
    rw [copy]
    cases hs : src[i + q]? with
    | none => rfl
    | some x =>
      rw [Option.bind_eq_bind, Option.bind_some]
      by_cases hi : i + p < dst.length
      · rw [SHA3.setB, if_pos hi, Option.bind_eq_bind, Option.bind_some]
        rcases Nat.eq_zero_or_pos n with rfl | hn
        · omega
        · exact copy_none p q src n (i + 1) _ hn (by rw [List.length_set]; omega)
      · rw [setB_none (by omega)]; rfl

theorem put_eq {l w : List UInt8} (h : l.length ≤ w.length) : put l w = some (l ++ w.drop l.length) := by
  rw [put, copy_eq 0 0 l.length l w (by omega) (by omega)]
  simp

theorem put_none {l w : List UInt8} (h : w.length < l.length) : put l w = none := by
  rw [put, copy_none _ _ _ _ _ _ (by omega) (by omega)]

/-! ### Key pairs -/

theorem _root_.Spec.Secp.KeyString.length {d : Nat} {l : List UInt8} (hd : d < n) (h : KeyString d l) : l.length = 65 := by
  by_cases h0 : d = 0
  · rw [h.1 h0]; simp [length_toBE]
  · have hne : d • gen ≠ 0 := by
      rw [Ne, smul_eq_zero gen_ne, Nat.mod_eq_of_lt hd]; exact h0
    obtain ⟨x, y, e, hq⟩ := hasX_of_ne hne
    rw [h.2 x y e hq]; simp [octets, length_toBE]

theorem key_bytes {G : ECP} (hG : ECP.Ok G 2 gen) {sc : BIG} {d : Nat} (hs : sc.Nrm) (hv : sc.val = (d : Int)) (hd : d < n) :
    Wp (do let W ← G.mul sc; W.tobytes) fun r => KeyString d r.1 := by
  by_cases h0 : d = 0
  · subst h0
    rw [ECP.mul_zero hs hv]
    obtain ⟨y, -, -, e⟩ := ECP.new_coords
    refine Wp.bind (Wp.eq e) ?_
    rintro _ rfl
    refine (ECP.new_tobytes e).mono fun r hr => ⟨fun _ => hr, fun x y h e' => ?_⟩
    rw [zero_nsmul] at e'
    exact absurd e'.symm (Pt.mk_ne h)
  · refine Wp.bind (ECP.mulY hG.okY hs hv hd) ?_
    rintro P ⟨hP, -⟩
    have hne : d • gen ≠ 0 := by
      rw [Ne, smul_eq_zero gen_ne, Nat.mod_eq_of_lt hd]; exact h0
    obtain ⟨x, y, e, hq⟩ := hasX_of_ne hne
    rw [hq] at hP
    refine (ECP.tobytes_wp hP (by norm_num)).mono fun r hr => ⟨fun h => absurd h h0, fun x' y' h' e' => ?_⟩
    rw [hq, Pt.mk_inj] at e'
    obtain ⟨rfl, rfl⟩ := e'
    rw [hr, ECP.xOut_eq e]; rfl

/-- `key_pair_generate` from the point where the secret number is known. -/
theorem key_pair_wp {rng rng' : Option RAND} {s w : List UInt8} {sc : BIG} {d : Nat} (he : secret rng s = some (sc, rng')) (hs : sc.Nrm)
    (hv : sc.val = (d : Int)) (hd : d < n) (h32 : 32 ≤ s.length) (h65 : 65 ≤ w.length) :
    Wp (key_pair_generate rng s w) fun r => r.1 = rng' ∧ r.2.1 = 0 ∧ r.2.2.1 = toBE 32 d ++ s.drop 32 ∧
      ∃ l, KeyString d l ∧ r.2.2.2 = l ++ w.drop 65 := by
  unfold key_pair_generate
  have hn := n_lt
  refine Wp.bind ECP.generator_wp fun G hG => ?_
  rw [he]
  refine Wp.bind (Wp.eq rfl) ?_
  rintro _ rfl
  dsimp only
  refine Wp.bind (Wp.eq (hs.tobytes hv (by omega))) ?_
  rintro _ rfl
  refine Wp.bind (Wp.eq (put_eq (by rw [length_toBE]; exact h32))) ?_
  rintro _ rfl
  obtain ⟨⟨l, W'⟩, e, hl⟩ := key_bytes hG hs hv hd
  obtain ⟨W, e1, e2⟩ := Option.bind_eq_some_iff.1 e
  refine Wp.bind (Wp.eq e1) ?_
  rintro _ rfl
  refine Wp.bind (Wp.eq e2) ?_
  rintro _ rfl
  dsimp only at hl ⊢
  have h1 := hl.length hd
  refine Wp.bind (Wp.eq (put_eq (by rw [h1]; exact h65))) ?_
  rintro _ rfl
  exact Wp.ret ⟨rfl, rfl, by rw [length_toBE], l, hl, by rw [h1]⟩

/-! ### Decoding of public keys -/

theorem _root_.Spec.Secp.Begins.length {b : List UInt8} {Q : G1} (h : Begins b Q) :
    ∃ b0 b', b = b0 :: b' ∧ 32 ≤ b'.length ∧ (b0 = 4 → beNat (b'.take 32) < p → 64 ≤ b'.length) := by
  obtain ⟨x, y, h, -, hp | hp⟩ := h
  · have hl := hp.length_le
    obtain ⟨t, rfl⟩ := hp
    refine ⟨4, toBE 32 x.val ++ toBE 32 y.val ++ t, rfl, ?_, fun _ _ => ?_⟩ <;>
      simp only [List.length_append, length_toBE] <;> omega
  · obtain ⟨t, rfl⟩ := hp
    refine ⟨UInt8.ofNat (2 + y.val % 2), toBE 32 x.val ++ t, rfl, ?_, fun h => ?_⟩
    · simp only [List.length_append, length_toBE]; omega
    · exfalso
      rcases Nat.mod_two_eq_zero_or_one y.val with e | e <;> rw [e] at h <;> revert h <;> decide

theorem decode_wp {b : List UInt8} {Q : G1} (h : Begins b Q) : Wp (ECP.frombytes b) fun P => ECP.OkY P 2 Q := by
  obtain ⟨b0, b', rfl, h1, h2⟩ := h.length
  refine (ECP.frombytes_wp h1 h2).mono ?_
  rintro P ⟨g, hP, hg⟩
  obtain ⟨x, y, e, rfl, hq⟩ := h
  rw [((hg x y e).1).2 hq] at hP
  exact hP

theorem _root_.Spec.Secp.Begins.inj {b : List UInt8} {Q Q' : G1} (h : Begins b Q) (h' : Begins b Q') : Q = Q' := by
  obtain ⟨b0, b', rfl, h1, h2⟩ := h.length
  obtain ⟨P, -, g, -, hg⟩ := ECP.frombytes_wp h1 h2
  obtain ⟨x, y, e, rfl, hq⟩ := h
  obtain ⟨x', y', e', rfl, hq'⟩ := h'
  rw [← ((hg x y e).1).2 hq, ← ((hg x' y' e').1).2 hq']

theorem _root_.Spec.Secp.Begins.ne {b : List UInt8} {Q : G1} (h : Begins b Q) : Q ≠ 0 := by
  obtain ⟨x, y, e, rfl, -⟩ := h
  exact Pt.mk_ne e

theorem decode_inf {b : List UInt8} (h : ∀ Q, ¬ Begins b Q) (hb : ECP.frombytes b ≠ none) :
    Wp (ECP.frombytes b) fun P => ECP.OkY P 2 0 := by
  rw [Ne, ECP.frombytes_none, not_or] at hb
  obtain ⟨b0, b', rfl⟩ : ∃ b0 b', b = b0 :: b' := by
    cases b with
    | nil => exact absurd hb.1 (by simp)
    | cons b0 b' => exact ⟨b0, b', rfl⟩
  simp only [List.length_cons, List.head?_cons, Option.some.injEq, List.drop_one, List.tail_cons, not_and] at hb
  refine (ECP.frombytes_wp (by omega) (fun h4 hlt => ?_)).mono ?_
  · by_contra c
    exact hb.2 (by omega) h4 hlt
  · rintro P ⟨g, hP, hg⟩
    rcases g.cases with rfl | ⟨x, y, e, rfl⟩
    · exact hP
    · exact absurd ⟨x, y, e, rfl, ((hg x y e).1).1 rfl⟩ (h _)

theorem begins_octets {x y : Fp} (h : y ^ 2 = x ^ 3 + b1) (t : List UInt8) : Begins (octets x y ++ t) (Pt.mk x y h) :=
  ⟨x, y, h, rfl, Or.inl (List.prefix_append _ _)⟩

/-! ### Diffie-Hellman -/

theorem dh_wp {s wd z : List UInt8} (hs : 32 ≤ s.length) {Q : G1} (hQ : Begins wd Q) {x : Fp}
    (hx : HasX (beNat (s.take 32) • Q) x) (hz : 32 ≤ z.length) :
    ecpsvdp_dh s wd z = some (0, toBE 32 x.val ++ z.drop 32) := by
  suffices Wp (ecpsvdp_dh s wd z) fun r => r = (0, toBE 32 x.val ++ z.drop 32) by
    obtain ⟨r, e, rfl⟩ := this; exact e
  unfold ecpsvdp_dh
  refine Wp.bind (BIG.frombytes_wp hs) ?_
  rintro sc ⟨n1, v1⟩
  have hb := Spec.beNat_lt (s.take 32)
  rw [List.length_take, Nat.min_eq_left hs] at hb
  refine Wp.bind (decode_wp hQ) fun W hW => ?_
  refine Wp.bind (ECP.is_infinity_wpY hW (by norm_num)) fun b hb' => ?_
  rw [if_neg (fun e => hQ.ne (hb'.1 e))]
  refine Wp.bind (rmod_n n1 v1 (by omega)) ?_
  rintro r ⟨n2, v2⟩
  refine Wp.bind (ECP.mulY hW n2 v2 (Nat.mod_lt _ n_pos)) ?_
  rintro V ⟨hV, -⟩
  rw [smul_mod] at hV
  refine Wp.bind (ECP.is_infinity_wp hV (by norm_num)) fun b hb' => ?_
  rw [if_neg (fun e => hx.ne (hb'.1 e))]
  refine Wp.bind (HasX.getx hx hV) ?_
  rintro ⟨X, V'⟩ ⟨n3, v3⟩
  refine Wp.bind (Wp.eq (n3.tobytes v3 (val_lt_pow x))) ?_
  rintro _ rfl
  refine Wp.bind (Wp.eq (put_eq (by rw [length_toBE]; exact hz))) ?_
  rintro _ rfl
  exact Wp.ret (by rw [length_toBE])

theorem dh_zero {s wd z : List UInt8} (hs : 32 ≤ s.length) {Q : G1} (hQ : Begins wd Q) (hx : beNat (s.take 32) • Q = 0) :
    ecpsvdp_dh s wd z = some (ERROR, z) := by
  suffices Wp (ecpsvdp_dh s wd z) fun r => r = (ERROR, z) by
    obtain ⟨r, e, rfl⟩ := this; exact e
  unfold ecpsvdp_dh
  refine Wp.bind (BIG.frombytes_wp hs) ?_
  rintro sc ⟨n1, v1⟩
  have hb := Spec.beNat_lt (s.take 32)
  rw [List.length_take, Nat.min_eq_left hs] at hb
  refine Wp.bind (decode_wp hQ) fun W hW => ?_
  refine Wp.bind (ECP.is_infinity_wpY hW (by norm_num)) fun b hb' => ?_
  rw [if_neg (fun e => hQ.ne (hb'.1 e))]
  refine Wp.bind (rmod_n n1 v1 (by omega)) ?_
  rintro r ⟨n2, v2⟩
  refine Wp.bind (ECP.mulY hW n2 v2 (Nat.mod_lt _ n_pos)) ?_
  rintro V ⟨hV, -⟩
  rw [smul_mod] at hV
  refine Wp.bind (ECP.is_infinity_wp hV (by norm_num)) fun b hb' => ?_
  rw [if_pos (hb'.2 hx)]
  exact Wp.ret rfl

theorem dh_bad {s wd z : List UInt8} (hs : 32 ≤ s.length) (hQ : ∀ Q, ¬ Begins wd Q) (hb : ECP.frombytes wd ≠ none) :
    ecpsvdp_dh s wd z = some (ERROR, z) := by
  suffices Wp (ecpsvdp_dh s wd z) fun r => r = (ERROR, z) by
    obtain ⟨r, e, rfl⟩ := this; exact e
  unfold ecpsvdp_dh
  refine Wp.bind (BIG.frombytes_wp hs) fun sc _ => ?_
  refine Wp.bind (decode_inf hQ hb) fun W hW => ?_
  refine Wp.bind (ECP.is_infinity_wpY hW (by norm_num)) fun b hb' => ?_
  rw [if_pos (hb'.2 rfl)]
  exact Wp.ret rfl

/-! ### Validation of public keys -/

theorem cofactor_wp : Wp cofactor fun k => k = BIG.new_int 1 := by
  have hn : rom.MODULUS.nbits = some 256 := by decide +kernel
  have hs : BIG.shl (BIG.new_int 1) ((256 + 4) / 2) = some ⟨0, 0, 2 ^ 18, 0, 0⟩ := by decide +kernel
  have ha : BIG.add ⟨0, 0, 2 ^ 18, 0, 0⟩ rom.MODULUS =
      some ⟨0xFFFFFEFFFFFC2F, 0xFFFFFFFFFFFFFF, 2 ^ 18 + 0xFFFFFFFFFFFFFF, 0xFFFFFFFFFFFFFF, 0xFFFFFFFF⟩ := by decide +kernel
  unfold cofactor
  refine Wp.bind (Wp.eq hn) ?_
  rintro _ rfl
  refine Wp.bind (Wp.eq hs) ?_
  rintro _ rfl
  refine Wp.bind (Wp.eq ha) ?_
  rintro _ rfl
  refine (BIG.div_wp (by constructor <;> norm_num) (by norm_num [BIG.val]) (by norm_num [BIG.val]) order_nrm
    (by rw [order_val]; exact_mod_cast n_pos) (by rw [order_val, n_val]; norm_num)).mono ?_
  rintro k ⟨nk, vk⟩
  refine nk.ext (BIG.new_int_nrm (by norm_num) (by norm_num)) ?_
  rw [vk, BIG.new_int_val, order_val, n_val]
  norm_num [BIG.val]

theorem validate_ok {w : List UInt8} {Q : G1} (h : Begins w Q) : public_key_validate w = some 0 := by
  suffices Wp (public_key_validate w) fun r => r = 0 by
    obtain ⟨r, e, rfl⟩ := this; exact e
  unfold public_key_validate
  refine Wp.bind (decode_wp h) fun W hW => ?_
  refine Wp.bind (ECP.is_infinity_wpY hW (by norm_num)) fun b hb' => ?_
  rw [if_neg (fun e => h.ne (hb'.1 e))]
  refine Wp.bind cofactor_wp ?_
  rintro _ rfl
  have hh : halve (BIG.new_int 1) W = some (BIG.new_int 1, W) := by
    rw [halve, if_neg (by decide)]; rfl
  refine Wp.bind (Wp.eq hh) ?_
  rintro _ rfl
  dsimp only
  rw [if_neg (by decide)]
  refine Wp.bind (ECP.mulY (a := 1) hW (BIG.new_int_nrm (by norm_num) (by norm_num)) (BIG.new_int_val _) prime_n.one_lt) ?_
  rintro V ⟨hV, -⟩
  rw [one_nsmul] at hV
  refine Wp.bind (ECP.is_infinity_wp hV (by norm_num)) fun b hb' => ?_
  rw [if_neg (fun e => h.ne (hb'.1 e))]
  exact Wp.ret rfl

theorem validate_bad {w : List UInt8} (hQ : ∀ Q, ¬ Begins w Q) (hb : ECP.frombytes w ≠ none) :
    public_key_validate w = some INVALID_PUBLIC_KEY := by
  suffices Wp (public_key_validate w) fun r => r = INVALID_PUBLIC_KEY by
    obtain ⟨r, e, rfl⟩ := this; exact e
  unfold public_key_validate
  refine Wp.bind (decode_inf hQ hb) fun W hW => ?_
  refine Wp.bind (ECP.is_infinity_wpY hW (by norm_num)) fun b hb' => ?_
  rw [if_pos (hb'.2 rfl)]
  exact Wp.ret rfl

end ecdh

end Amcl.Secp
