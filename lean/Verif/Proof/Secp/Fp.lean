import Verif.Proof.Secp.Dbig
import Verif.Spec.Secp.Field
import Verif.Model.Secp.Fp
/-!
# Correctness of `FP`: exact arithmetic in the prime field, no overflow
-/

set_option exponentiation.threshold 2000

namespace Amcl.Secp

open Spec.Secp

theorem modulus_val : rom.MODULUS.val = p := by
  norm_num [rom.MODULUS, BIG.val, p]

theorem modulus_nrm : rom.MODULUS.Nrm := by
  constructor <;> norm_num [rom.MODULUS]

theorem modulus_lim : rom.MODULUS.Lim (2 ^ 56) := by
  constructor <;> norm_num [rom.MODULUS]

theorem mconst_spec : (rom.MCONST * rom.MODULUS.w0 + 1) % 2 ^ 56 = 0 := by
  norm_num [rom.MCONST, rom.MODULUS]

theorem p_val : (p : Int) =
  115792089237316195423570985008687907853269984665640564039457584007908834671663 := rfl

theorem p_pos : (0 : Int) < p := by rw [p_val]; norm_num
theorem p_lt : (p : Int) < 2 ^ 256 := by rw [p_val]; norm_num

/-- The Montgomery radix in the field. -/
def Rm : Fp := 2 ^ 280

theorem Rm_ne : Rm ≠ 0 := by
  have h2 : ((2 : Nat) : Fp) ≠ 0 := by
    rw [Ne, ZMod.natCast_eq_zero_iff]
    intro h
    have := Nat.le_of_dvd (by norm_num) h
    norm_num [p] at this
  rw [Rm]; exact pow_ne_zero _ (by exact_mod_cast h2)

namespace FP

/-- The field element denoted by an `FP`. -/
def toF (f : FP) : Fp := (f.x.val : Fp) * Rm⁻¹

/-- `f` denotes `v`; limbs at most `L·2^56` (`L = 1` means normalised), excess at most `E`. -/
structure Ok (f : FP) (L E : Int) (v : Fp) : Prop where
  lim : f.x.Lim (L * 2 ^ 56)
  nrm : L = 1 → f.x.Nrm
  x1 : 1 ≤ f.xes
  xE : f.xes ≤ E
  v0 : 0 ≤ f.x.val
  v1 : f.x.val ≤ f.xes * p
  res : f.toF = v

/-- `f` is the canonical representation of `v`. -/
structure Can (f : FP) (v : Fp) : Prop where
  nrm : f.x.Nrm
  xes : f.xes = 1
  v0 : 0 ≤ f.x.val
  v1 : f.x.val < p
  res : f.toF = v

theorem Can.ok {f : FP} {v : Fp} (h : Can f v) : Ok f 1 1 v where
  lim := by rw [one_mul]; exact h.nrm.lim56 h.v0 (by have := h.v1; have := p_lt; omega)
  nrm _ := h.nrm
  x1 := h.xes.ge
  xE := h.xes.le
  v0 := h.v0
  v1 := by rw [h.xes, one_mul]; exact h.v1.le
  res := h.res

theorem Ok.mono {f : FP} {L E L' E' : Int} {v : Fp} (h : Ok f L E v) (h1 : 1 ≤ L ∧ L ≤ L' ∧ E ≤ E') :
    Ok f L' E' v where
  lim := h.lim.mono (by omega)
  nrm e := h.nrm (by omega)
  x1 := h.x1
  xE := by have := h.xE; omega
  v0 := h.v0
  v1 := h.v1
  res := h.res

theorem Ok.val_eq {f : FP} {L E : Int} {v : Fp} (h : Ok f L E v) : (f.x.val : Fp) = v * Rm := by
  rw [← h.res, toF, inv_mul_cancel_right₀ Rm_ne]

theorem Can.val_eq {f : FP} {v : Fp} (h : Can f v) : (f.x.val : Fp) = v * Rm := h.ok.val_eq

theorem toF_of_val {f : FP} {v : Fp} (h : (f.x.val : Fp) = v * Rm) : f.toF = v := by
  rw [toF, h, mul_inv_cancel_right₀ Rm_ne]

theorem Ok.valE {f : FP} {L E : Int} {v : Fp} (h : Ok f L E v) : f.x.val ≤ E * p :=
  h.v1.trans (mul_le_mul_of_nonneg_right h.xE p_pos.le)

theorem Ok.congr {f : FP} {L E : Int} {v w : Fp} (h : Ok f L E v) (e : v = w) : Ok f L E w := e ▸ h

theorem Ok.nrm1 {f : FP} {E : Int} {v : Fp} (h : Ok f 1 E v) : f.x.Nrm := h.nrm rfl

/-- Canonical representations are unique. -/
theorem Can.ext {f g : FP} {v : Fp} (hf : Can f v) (hg : Can g v) : f = g := by
  have e : (f.x.val : Fp) = (g.x.val : Fp) := by rw [hf.val_eq, hg.val_eq]
  rw [ZMod.intCast_eq_intCast_iff, Int.ModEq] at e
  rw [Int.emod_eq_of_lt hf.v0 hf.v1, Int.emod_eq_of_lt hg.v0 hg.v1] at e
  have h1 : f.x = g.x := hf.nrm.ext hg.nrm e
  exact FP.ext h1 (hf.xes.trans hg.xes.symm)

theorem Can.zero_iff {f : FP} {v : Fp} (hf : Can f v) : f.x.val = 0 ↔ v = 0 := by
  constructor
  · intro h
    have := hf.val_eq
    rw [h, Int.cast_zero] at this
    exact (mul_eq_zero.1 this.symm).resolve_right Rm_ne
  · intro h
    have := hf.val_eq
    rw [h, zero_mul, ZMod.intCast_zmod_eq_zero_iff_dvd] at this
    exact Int.eq_zero_of_dvd_of_nonneg_of_lt hf.v0 hf.v1 this |>.symm ▸ rfl

/-! ### Reduction -/

/-- Montgomery reduction of a number up to `c·2^280·p`. -/
theorem modulo_wpR {d : DBIG} {c : Int} (hd : d.Lim (2 ^ 62)) (h0 : 0 ≤ d.val)
    (h1 : d.val ≤ c * 2 ^ 280 * p) (hc : 0 ≤ c ∧ c ≤ 16) :
    Wp (modulo d) fun r => r.Nrm ∧ 0 ≤ r.val ∧ r.val ≤ (c + 1) * p ∧
      (r.val : Fp) * Rm = (d.val : Fp) ∧ r.val < 2 ^ 280 := by
  unfold modulo
  have hp := p_lt
  have hp0 := p_pos
  have hb2 : c * 2 ^ 280 * p ≤ 16 * 2 ^ 280 * 2 ^ 256 := by
    have h1 : c * p ≤ 16 * 2 ^ 256 := by nlinarith
    linarith
  refine (BIG.monty_wp modulus_lim mconst_spec hd.lo hd.hi (by rw [modulus_val]; omega) h0 ?_).mono ?_
  · rw [modulus_val]; omega
  · rintro r ⟨nr, t6, m, m0, m1, e⟩
    rw [modulus_val] at e
    have hmp : m * p ≤ 2 ^ 280 * p := mul_le_mul_of_nonneg_right m1.le hp0.le
    have hr0 : 0 ≤ r.val := by
      obtain ⟨a0, a1, a2, a3⟩ := nr
      simp only [BIG.val]; omega
    have hr1 : r.val < 2 ^ 280 := by
      obtain ⟨a0, a1, a2, a3⟩ := nr
      simp only [BIG.val]; omega
    refine ⟨nr, hr0, ?_, ?_, hr1⟩
    · have : r.val * 2 ^ 280 ≤ ((c + 1) * p) * 2 ^ 280 := by linarith
      exact le_of_mul_le_mul_right this (by norm_num)
    · have := congrArg (fun z : Int => (z : Fp)) e
      simp only [Int.cast_mul, Int.cast_add, Int.cast_pow, Int.cast_ofNat, Int.cast_natCast,
        ZMod.natCast_self, mul_zero, add_zero] at this
      exact this

theorem modulo_wp {d : DBIG} {c : Int} (hd : d.Lim (2 ^ 62)) (h0 : 0 ≤ d.val)
    (h1 : d.val ≤ c * 2 ^ 24 * (p * p)) (hc : 0 ≤ c ∧ c ≤ 16) :
    Wp (modulo d) fun r => r.Nrm ∧ 0 ≤ r.val ∧ r.val ≤ (c + 1) * p ∧
      (r.val : Fp) * Rm = (d.val : Fp) ∧ r.val < 2 ^ 280 := by
  have hp := p_lt
  have hp0 := p_pos
  have hpp : (p : Int) * p < 2 ^ 256 * p := by nlinarith
  have hb : c * 2 ^ 24 * (p * p) ≤ c * 2 ^ 280 * p := by
    have : c * 2 ^ 24 * (p * p) ≤ c * 2 ^ 24 * (2 ^ 256 * p) :=
      mul_le_mul_of_nonneg_left hpp.le (by omega)
    calc _ ≤ _ := this
      _ = _ := by ring
  exact modulo_wpR hd h0 (h1.trans hb) hc

theorem new_can : Can new 0 where
  nrm := BIG.new_nrm
  xes := rfl
  v0 := by rw [show new.x = BIG.new from rfl, BIG.new_val]
  v1 := by rw [show new.x = BIG.new from rfl, BIG.new_val]; exact p_pos
  res := by rw [toF, show new.x = BIG.new from rfl, BIG.new_val]; simp

theorem reduce_wp {f : FP} {L E : Int} {v : Fp} (hf : Ok f L E v) (h : L ≤ 16 ∧ E ≤ 2 ^ 26) :
    Wp (reduce f) fun r => Can r v := by
  unfold reduce
  have hE := hf.valE
  have hp0 := p_pos
  have hp := p_lt
  have h1 : f.x.val < 2 ^ 282 := by
    have : E * p ≤ 2 ^ 26 * p := mul_le_mul_of_nonneg_right h.2 hp0.le
    omega
  refine Wp.bind (BIG.rmod_wp (hf.lim.mono (by omega)) hf.v0 h1 modulus_nrm
    (by rw [modulus_val]; exact hp0)) ?_
  rintro r ⟨nr, vr⟩
  rw [modulus_val] at vr
  refine Wp.ret ⟨nr, rfl, ?_, ?_, toF_of_val ?_⟩
  · show 0 ≤ r.val
    rw [vr]; exact Int.emod_nonneg _ hp0.ne'
  · show r.val < p
    rw [vr]; exact Int.emod_lt_of_pos _ hp0
  · show (r.val : Fp) = _
    rw [vr, ← hf.val_eq, ZMod.intCast_mod]

theorem iszilch_wp {f : FP} {L E : Int} {v : Fp} (hf : Ok f L E v) (h : L ≤ 16 ∧ E ≤ 2 ^ 26) :
    Wp (iszilch f) fun r => (r.1 = true ↔ v = 0) ∧ Can r.2 v := by
  unfold iszilch
  refine Wp.bind (reduce_wp hf h) ?_
  intro g hg
  exact Wp.ret ⟨by rw [BIG.iszilch_spec hg.nrm, hg.zero_iff], hg⟩

theorem norm_wp {f : FP} {L E : Int} {v : Fp} (hf : Ok f L E v) (h : L ≤ 16 ∧ E ≤ 2 ^ 24) :
    Wp (norm f) fun r => Ok r 1 E v ∧ r.xes = f.xes ∧ r.x.val = f.x.val := by
  unfold norm
  refine Wp.bind (BIG.norm_wp (hf.lim.mono (by omega))) ?_
  rintro r ⟨nr, vr⟩
  have hE := hf.valE
  have hp := p_lt
  have : E * p ≤ 2 ^ 24 * p := mul_le_mul_of_nonneg_right h.2 p_pos.le
  refine Wp.ret ⟨⟨?_, fun _ => nr, hf.x1, hf.xE, ?_, ?_, ?_⟩, rfl, vr⟩
  · rw [one_mul]
    exact nr.lim56 (by rw [vr]; exact hf.v0) (by rw [vr]; omega)
  · show 0 ≤ r.val
    rw [vr]; exact hf.v0
  · show r.val ≤ _
    rw [vr]; exact hf.v1
  · apply toF_of_val
    show (r.val : Fp) = _
    rw [vr]; exact hf.val_eq

theorem xor32_sel {a b d : Int} (ha : 0 ≤ a ∧ a < 2 ^ 31) (hb : 0 ≤ b ∧ b < 2 ^ 31)
    (hd : d = 0 ∨ d = 1) : xor32 a (and32 (xor32 a b) (-d)) = if d = 0 then a else b :=
  select_eq (n := 32) (by norm_num) (by norm_num; omega) (by norm_num; omega) (by norm_num; omega)
    (by norm_num; omega) hd

theorem cmove_eq {f g : FP} {L E L' E' : Int} {v w : Fp} (hf : Ok f L E v) (hg : Ok g L' E' w)
    (h : L ≤ 16 ∧ L' ≤ 16 ∧ E ≤ 2 ^ 26 ∧ E' ≤ 2 ^ 26) {d : Int} (hd : d = 0 ∨ d = 1) :
    cmove f g d = if d = 0 then f else g := by
  have h1 := hf.x1
  have h2 := hf.xE
  have h3 := hg.x1
  have h4 := hg.xE
  rw [cmove, BIG.cmove_eq (hf.lim.mono (by omega)) (hg.lim.mono (by omega)) hd,
    xor32_sel (by omega) (by omega) hd]
  split <;> rfl

/-! ### Products -/

theorem prod_bound {x y a b : Int} (hx0 : 0 ≤ x) (hy0 : 0 ≤ y) (hx : x ≤ a * p) (hy : y ≤ b * p) :
    0 ≤ x * y ∧ x * y ≤ a * b * (p * p) := by
  refine ⟨mul_nonneg hx0 hy0, ?_⟩
  calc x * y ≤ (a * p) * (b * p) := mul_le_mul hx hy hy0 (hx0.trans hx)
    _ = _ := by ring

/-- `mul` and `sqr` after the reduction step. -/
theorem mulCore_wp {f b : FP} {L L' E E' : Int} {v w : Fp} {m : Option DBIG} (hf : Ok f L E v)
    (hb : Ok b L' E' w) (hE : f.xes * b.xes ≤ 2 ^ 24)
    (hm : (-2 ^ 566 ≤ f.x.val * b.x.val ∧ f.x.val * b.x.val ≤ 2 ^ 566) →
      Wp m fun d => d.Nrm ∧ d.val = f.x.val * b.x.val) :
    Wp (m >>= fun d => do return (⟨← modulo d, 2⟩ : FP)) fun r => Ok r 1 2 (v * w) := by
  obtain ⟨b0, b1⟩ := prod_bound hf.v0 hb.v0 hf.v1 hb.v1
  have hp := p_lt
  have hp0 := p_pos
  have hpp : (p : Int) * p ≤ 2 ^ 256 * 2 ^ 256 := mul_le_mul hp.le hp.le hp0.le (by norm_num)
  have hpp0 : (0 : Int) ≤ p * p := by positivity
  have b2 : f.x.val * b.x.val ≤ 2 ^ 24 * (p * p) :=
    b1.trans (mul_le_mul_of_nonneg_right hE hpp0)
  refine Wp.bind (hm ⟨by omega, by omega⟩) ?_
  rintro d ⟨nd, vd⟩
  refine Wp.bind (modulo_wp (c := 1) (nd.lim (B := 2 ^ 62) (by omega) (by omega) (by norm_num))
    (by omega) (by omega) (by norm_num)) ?_
  rintro r ⟨nr, r0, r1, er, rl⟩
  refine Wp.ret ⟨?_, fun _ => nr, by norm_num, le_refl _, r0, by simpa using r1, toF_of_val ?_⟩
  · rw [one_mul]; exact nr.lim56 r0 rl
  · show (r.val : Fp) = _
    have : (r.val : Fp) * Rm = (v * w * Rm) * Rm := by
      rw [er, vd, Int.cast_mul, hf.val_eq, hb.val_eq]; ring
    exact mul_right_cancel₀ Rm_ne this

theorem mul_wp {f b : FP} {L L' E E' : Int} {v w : Fp} (hf : Ok f L E v) (hb : Ok b L' E' w)
    (h : 1 ≤ L ∧ L ≤ 8 ∧ L' ≤ 8 ∧ E ≤ 2 ^ 24 ∧ E' ≤ 2 ^ 24) :
    Wp (mul f b) fun r => Ok r 1 2 (v * w) := by
  obtain ⟨h1, h2, h3, h4, h5⟩ := h
  have f1 := hf.x1
  have f2 := hf.xE
  have g1 := hb.x1
  have g2 := hb.xE
  have e1 : f.xes * b.xes ≤ 2 ^ 24 * 2 ^ 24 := mul_le_mul (by omega) (by omega) (by omega) (by norm_num)
  have e0 : 0 ≤ f.xes * b.xes := mul_nonneg (by omega) (by omega)
  unfold mul
  rw [i64_eq (by omega) (by omega), Option.bind_eq_bind, Option.bind_some]
  unfold reduceIf
  split
  · refine Wp.bind (reduce_wp hf (by omega)) ?_
    intro g hg
    refine mulCore_wp hg.ok hb (by rw [hg.xes, one_mul]; omega) fun hv => ?_
    exact BIG.mul_wp (hg.ok.lim.mono (by norm_num)) (hb.lim.mono (by omega)) hv
  · next hx =>
    refine Wp.bind (R := fun g => g = f) (Wp.pure rfl) ?_
    rintro _ rfl
    refine mulCore_wp hf hb (by rw [FEXCESS] at hx; omega) fun hv => ?_
    exact BIG.mul_wp (hf.lim.mono (by omega)) (hb.lim.mono (by omega)) hv

theorem sqr_wp {f : FP} {L E : Int} {v : Fp} (hf : Ok f L E v) (h : 1 ≤ L ∧ L ≤ 8 ∧ E ≤ 2 ^ 24) :
    Wp (sqr f) fun r => Ok r 1 2 (v * v) := by
  obtain ⟨h1, h2, h4⟩ := h
  have f1 := hf.x1
  have f2 := hf.xE
  have e1 : f.xes * f.xes ≤ 2 ^ 24 * 2 ^ 24 := mul_le_mul (by omega) (by omega) (by omega) (by norm_num)
  have e0 : 0 ≤ f.xes * f.xes := mul_nonneg (by omega) (by omega)
  unfold sqr
  rw [i64_eq (by omega) (by omega), Option.bind_eq_bind, Option.bind_some]
  unfold reduceIf
  split
  · refine Wp.bind (reduce_wp hf (by omega)) ?_
    intro g hg
    refine mulCore_wp hg.ok hg.ok (by rw [hg.xes]; norm_num) fun hv => ?_
    exact BIG.sqr_wp (hg.ok.lim.mono (by norm_num)) hv
  · next hx =>
    refine Wp.bind (R := fun g => g = f) (Wp.pure rfl) ?_
    rintro _ rfl
    refine mulCore_wp hf hf (by rw [FEXCESS] at hx; omega) fun hv => ?_
    exact BIG.sqr_wp (hf.lim.mono (by omega)) hv

theorem r2_val : (rom.R2MODP.val : Fp) = Rm * Rm := by
  have h : rom.R2MODP.val = ((2:Int) ^ 280 * 2 ^ 280) % p := by
    norm_num [rom.R2MODP, BIG.val, p]
  rw [h, ZMod.intCast_mod, Rm, Int.cast_mul, Int.cast_pow, Int.cast_ofNat]

theorem r2_bnd : rom.R2MODP.Lim (2 ^ 56) ∧ 0 ≤ rom.R2MODP.val ∧ rom.R2MODP.val ≤ p := by
  refine ⟨by constructor <;> norm_num [rom.R2MODP], ?_, ?_⟩ <;> norm_num [rom.R2MODP, BIG.val, p]

/-- Any number below `2^25·p` is read as its residue. -/
theorem nres_wp {x : BIG} (hx : x.Lim (2 ^ 61)) (h0 : 0 ≤ x.val) (h1 : x.val ≤ 2 ^ 24 * p) :
    Wp (nres x) fun f => Ok f 1 2 (x.val : Fp) := by
  unfold nres
  obtain ⟨rl, r0, r1⟩ := r2_bnd
  have hp := p_lt
  have hp0 := p_pos
  obtain ⟨b0, b1⟩ := prod_bound (a := 2 ^ 24) (b := 1) h0 r0 h1 (by omega)
  have hpp : (p : Int) * p ≤ 2 ^ 256 * 2 ^ 256 := mul_le_mul hp.le hp.le hp0.le (by norm_num)
  refine Wp.bind (BIG.mul_wp hx (rl.mono (by norm_num)) ⟨by omega, by omega⟩) ?_
  rintro d ⟨nd, vd⟩
  refine Wp.bind (modulo_wp (c := 1) (nd.lim (B := 2 ^ 62) (by omega) (by omega) (by norm_num))
    (by omega) (by omega) (by norm_num)) ?_
  rintro r ⟨nr, q0, q1, er, ql⟩
  refine Wp.ret ⟨?_, fun _ => nr, by norm_num, le_refl _, q0, by simpa using q1, toF_of_val ?_⟩
  · rw [one_mul]; exact nr.lim56 q0 ql
  · show (r.val : Fp) = _
    have : (r.val : Fp) * Rm = ((x.val : Fp) * Rm) * Rm := by
      rw [er, vd, Int.cast_mul, r2_val]; ring
    exact mul_right_cancel₀ Rm_ne this

theorem new_int_wp {a : Int} (h0 : 0 ≤ a) (h1 : a < 2 ^ 56) :
    Wp (new_int a) fun f => Ok f 1 2 (a : Fp) := by
  unfold new_int
  refine Wp.bind (BIG.inc_wp (x := a) (a := BIG.new)
    (by constructor <;> norm_num [BIG.new]) ⟨by omega, by omega⟩) ?_
  rintro r ⟨vr, lr, nr⟩
  have hn := nr BIG.new_nrm (by simpa [BIG.new] using h0) (by simpa [BIG.new] using h1)
  rw [BIG.new_val, zero_add] at vr
  have := nres_wp (x := r) ((hn.lim56 (by omega) (by omega)).mono (by norm_num)) (by omega)
    (by have := p_val; omega)
  rwa [vr] at this

theorem one_wp : Wp one fun f => Ok f 1 2 1 := by
  have := nres_wp (x := BIG.new_int 1) (by constructor <;> norm_num [BIG.new_int])
    (by rw [BIG.new_int_val]; norm_num) (by rw [BIG.new_int_val]; have := p_val; omega)
  rw [BIG.new_int_val, Int.cast_one] at this
  exact this

/-- `redc` leaves Montgomery form; the result is at most `p`, and equals `p` only for a non-zero
multiple of `p`. -/
theorem redc_wp {f : FP} {L E : Int} {v : Fp} (hf : Ok f L E v) (h : 1 ≤ L ∧ L ≤ 8 ∧ E ≤ 2 ^ 24) :
    Wp (redc f) fun r => r.Nrm ∧ 0 ≤ r.val ∧ r.val ≤ p ∧ (r.val : Fp) = v ∧
      (r.val = 0 ↔ f.x.val = 0) := by
  unfold redc modulo
  have hE := hf.valE
  have hp := p_lt
  have hp0 := p_pos
  have hEp : E * p ≤ 2 ^ 24 * p := mul_le_mul_of_nonneg_right h.2.2 hp0.le
  have hl := hf.lim
  have e : and64 f.x.w4 BMASK = f.x.w4 % 2 ^ 56 := by rw [BMASK_eq, and64_mask (by norm_num)]
  have e2 : DBIG.new_scopy f.x =
      ⟨{ f.x with w4 := f.x.w4 % 2 ^ 56 }, { BIG.new with w0 := f.x.w4 / 2 ^ 56 }⟩ := by
    rw [DBIG.new_scopy, e]; rfl
  rw [e2]
  have hlo : ({ f.x with w4 := f.x.w4 % 2 ^ 56 } : BIG).Lim (2 ^ 62) := by
    obtain ⟨l0, l1, l2, l3, l4⟩ := hl
    constructor <;> simp only <;> omega
  have hhi : ({ BIG.new with w0 := f.x.w4 / 2 ^ 56 } : BIG).Lim (2 ^ 62) := by
    obtain ⟨l0, l1, l2, l3, l4⟩ := hl
    constructor <;> simp only [BIG.new] <;> omega
  have hv : (⟨{ f.x with w4 := f.x.w4 % 2 ^ 56 }, { BIG.new with w0 := f.x.w4 / 2 ^ 56 }⟩ : DBIG).val
      = f.x.val := by
    simp only [DBIG.val, BIG.val, BIG.new]; omega
  have v0 := hf.v0
  refine (BIG.monty_wp modulus_lim mconst_spec hlo hhi (by rw [modulus_val]; omega)
    (by rw [hv]; exact v0) (by rw [hv, modulus_val]; omega)).mono ?_
  rintro r ⟨nr, t6, m, m0, m1, er⟩
  rw [hv, modulus_val] at er
  have hmp : m * p ≤ (2 ^ 280 - 1) * p := mul_le_mul_of_nonneg_right (by omega) hp0.le
  have hmp0 : 0 ≤ m * p := mul_nonneg m0 hp0.le
  have r0 : 0 ≤ r.val := by
    by_contra hneg
    have : r.val * 2 ^ 280 ≤ -1 * 2 ^ 280 := mul_le_mul_of_nonneg_right (by omega) (by norm_num)
    omega
  have r1 : r.val ≤ p := by
    by_contra hgt
    have : ((p : Int) + 1) * 2 ^ 280 ≤ r.val * 2 ^ 280 := mul_le_mul_of_nonneg_right (by omega) (by norm_num)
    have e3 : (2 ^ 280 - 1) * (p : Int) = 2 ^ 280 * p - p := by ring
    have e4 : ((p : Int) + 1) * 2 ^ 280 = 2 ^ 280 * p + 2 ^ 280 := by ring
    omega
  refine ⟨nr, r0, r1, ?_, ?_⟩
  · have := congrArg (fun z : Int => (z : Fp)) er
    simp only [Int.cast_mul, Int.cast_add, Int.cast_pow, Int.cast_ofNat, Int.cast_natCast,
      ZMod.natCast_self, mul_zero, add_zero] at this
    rw [hf.val_eq] at this
    exact mul_right_cancel₀ Rm_ne this
  · constructor
    · intro hz; rw [hz] at er; omega
    · intro hz
      rw [hz, zero_add] at er
      -- `m * p` is divisible by `2^280`, hence `m` is
      have hd : (2:Int) ^ 280 ∣ m * p := ⟨r.val, by linarith⟩
      have hco : IsCoprime ((2:Int) ^ 280) (p : Int) := by
        apply IsCoprime.pow_left
        rw [p_val]
        exact ⟨-57896044618658097711785492504343953926634992332820282019728792003954417335831, 1, by norm_num⟩
      have hdm := hco.dvd_of_dvd_mul_right hd
      have hm : m = 0 := Int.eq_zero_of_dvd_of_nonneg_of_lt m0 m1 hdm
      rw [hm] at er
      have : r.val * 2 ^ 280 = 0 := by linarith
      rcases mul_eq_zero.1 this with h | h
      · exact h
      · norm_num at h

/-- Montgomery reduction gives the number 0 only for the number 0, not for other multiples of `p`. -/
theorem modulo_zero_wp {d : DBIG} (hd : d.Lim (2 ^ 62)) (h0 : 0 ≤ d.val)
    (h1 : d.val ≤ 16 * 2 ^ 280 * p) : Wp (modulo d) fun r => r.val = 0 ↔ d.val = 0 := by
  unfold modulo
  have hp := p_lt
  have hp0 := p_pos
  have hb2 : 16 * 2 ^ 280 * (p : Int) ≤ 16 * 2 ^ 280 * 2 ^ 256 := by linarith
  refine (BIG.monty_wp modulus_lim mconst_spec hd.lo hd.hi (by rw [modulus_val]; omega) h0 ?_).mono ?_
  · rw [modulus_val]; omega
  · rintro r ⟨nr, t6, m, m0, m1, er⟩
    rw [modulus_val] at er
    have hmp0 : 0 ≤ m * p := mul_nonneg m0 hp0.le
    constructor
    · intro hz; rw [hz] at er; omega
    · intro hz
      rw [hz, zero_add] at er
      have hd : (2:Int) ^ 280 ∣ m * p := ⟨r.val, by linarith⟩
      have hco : IsCoprime ((2:Int) ^ 280) (p : Int) := by
        apply IsCoprime.pow_left
        rw [p_val]
        exact ⟨-57896044618658097711785492504343953926634992332820282019728792003954417335831, 1, by norm_num⟩
      have hdm := hco.dvd_of_dvd_mul_right hd
      have hm : m = 0 := Int.eq_zero_of_dvd_of_nonneg_of_lt m0 m1 hdm
      rw [hm] at er
      have : r.val * 2 ^ 280 = 0 := by linarith
      rcases mul_eq_zero.1 this with h | h
      · exact h
      · norm_num at h

/-- `nres` gives the number 0 only for the number 0. -/
theorem nres_zero_wp {x : BIG} (hx : x.Lim (2 ^ 61)) (h0 : 0 ≤ x.val) (h1 : x.val ≤ 2 ^ 24 * p) :
    Wp (nres x) fun f => f.x.val = 0 ↔ x.val = 0 := by
  unfold nres
  obtain ⟨rl, r0, r1⟩ := r2_bnd
  have hp := p_lt
  have hp0 := p_pos
  obtain ⟨b0, b1⟩ := prod_bound (a := 2 ^ 24) (b := 1) h0 r0 h1 (by omega)
  have hpp : (p : Int) * p ≤ 2 ^ 256 * p := mul_le_mul_of_nonneg_right hp.le hp0.le
  refine Wp.bind (BIG.mul_wp hx (rl.mono (by norm_num)) ⟨by omega, by omega⟩) ?_
  rintro d ⟨nd, vd⟩
  refine Wp.bind (modulo_zero_wp (nd.lim (B := 2 ^ 62) (by omega) (by omega) (by norm_num))
    (by omega) (by omega)) ?_
  intro r hr
  refine Wp.ret ?_
  show r.val = 0 ↔ _
  rw [hr, vd]
  have r2 : rom.R2MODP.val ≠ 0 := by norm_num [rom.R2MODP, BIG.val]
  simp [r2]

/-! ### Sums -/

theorem settle_wp {f : FP} {L E : Int} {v : Fp} (hf : Ok f L E v) (h : E ≤ 2 ^ 24) :
    settle f = some f := by
  rw [settle, if_neg]
  have := hf.xE
  rw [FEXCESS]; omega

theorem add_wp {f b : FP} {L L' E E' : Int} {v w : Fp} (hf : Ok f L E v) (hb : Ok b L' E' w)
    (h : 1 ≤ L ∧ 1 ≤ L' ∧ L + L' ≤ 16 ∧ E + E' ≤ 2 ^ 24) :
    Wp (add f b) fun r => Ok r (L + L') (E + E') (v + w) := by
  obtain ⟨h1, h2, h3, h4⟩ := h
  have f1 := hf.x1
  have f2 := hf.xE
  have g1 := hb.x1
  have g2 := hb.xE
  unfold add
  refine Wp.bind (BIG.add_wp hf.lim hb.lim (by omega)) ?_
  rintro x ⟨lx, vx⟩
  rw [i32_eq (by omega) (by omega), Option.bind_eq_bind, Option.bind_some]
  have v0 := hf.v0
  have w0 := hb.v0
  have v1 := hf.v1
  have w1 := hb.v1
  have ok : Ok (⟨x, f.xes + b.xes⟩ : FP) (L + L') (E + E') (v + w) := by
    refine ⟨by rw [add_mul]; exact lx, fun h => by omega, by show 1 ≤ f.xes + b.xes; omega,
      by show f.xes + b.xes ≤ _; omega, by show 0 ≤ x.val; omega, ?_, toF_of_val ?_⟩
    · show x.val ≤ (f.xes + b.xes) * p
      rw [vx, add_mul]; omega
    · show (x.val : Fp) = _
      rw [vx, Int.cast_add, hf.val_eq, hb.val_eq]; ring
  exact Wp.of_eq (settle_wp ok h4) ok

theorem dbl_wp {f : FP} {L E : Int} {v : Fp} (hf : Ok f L E v)
    (h : 1 ≤ L ∧ L + L ≤ 16 ∧ E + E ≤ 2 ^ 24) :
    Wp (dbl f) fun r => Ok r (L + L) (E + E) (v + v) :=
  add_wp hf hf (by omega)

/-! ### Negation -/

theorem smear_half {w v : UInt32} {n : Nat} {s : UInt32} (hs : s.toNat = n) (hn : n < 32)
    (h : ∀ i, v.toBitVec.getLsbD i = true ↔ ∃ j, i ≤ j ∧ j < i + n ∧ w.toBitVec.getLsbD j = true) (i : Nat) :
    (v ||| (v >>> s)).toBitVec.getLsbD i = true ↔
      ∃ j, i ≤ j ∧ j < i + (n + n) ∧ w.toBitVec.getLsbD j = true := by
  have e : (v >>> s).toBitVec.getLsbD i = v.toBitVec.getLsbD (i + n) := by
    rw [UInt32.toBitVec_shiftRight, BitVec.ushiftRight_eq', BitVec.getLsbD_ushiftRight]
    have : (s.toBitVec % 32).toNat = n := by
      rw [BitVec.toNat_umod]
      show s.toNat % 32 = n
      rw [hs, Nat.mod_eq_of_lt hn]
    rw [this, Nat.add_comm]
  rw [UInt32.toBitVec_or, BitVec.getLsbD_or, Bool.or_eq_true, e, h, h]
  constructor
  · rintro (⟨j, h1, h2, h3⟩ | ⟨j, h1, h2, h3⟩)
    · exact ⟨j, h1, by omega, h3⟩
    · exact ⟨j, by omega, by omega, h3⟩
  · rintro ⟨j, h1, h2, h3⟩
    by_cases hj : j < i + n
    · exact Or.inl ⟨j, h1, hj, h3⟩
    · exact Or.inr ⟨j, by omega, by omega, h3⟩

theorem smear_bit (w : UInt32) (i : Nat) :
    (smear w).toBitVec.getLsbD i = true ↔ ∃ j, i ≤ j ∧ j < i + 32 ∧ w.toBitVec.getLsbD j = true := by
  have h0 : ∀ i, w.toBitVec.getLsbD i = true ↔
      ∃ j, i ≤ j ∧ j < i + 1 ∧ w.toBitVec.getLsbD j = true := by
    intro i
    constructor
    · intro h; exact ⟨i, le_refl _, by omega, h⟩
    · rintro ⟨j, h1, h2, h3⟩
      have : j = i := by omega
      rwa [this] at h3
  exact smear_half (n := 16) (s := 16) rfl (by norm_num) (smear_half (n := 8) (s := 8) rfl (by norm_num)
    (smear_half (n := 4) (s := 4) rfl (by norm_num) (smear_half (n := 2) (s := 2) rfl (by norm_num)
      (smear_half (n := 1) (s := 1) rfl (by norm_num) h0)))) i

theorem smear_eq (w : UInt32) : smear w = UInt32.ofNat (2 ^ Nat.size w.toNat - 1) := by
  apply UInt32.toBitVec_inj.1
  apply BitVec.eq_of_getLsbD_eq
  intro i hi
  rw [Bool.eq_iff_iff, smear_bit]
  have hs : Nat.size w.toNat ≤ 32 := by rw [Nat.size_le]; exact w.toNat_lt
  have e : (UInt32.ofNat (2 ^ Nat.size w.toNat - 1)).toBitVec.getLsbD i = decide (i < Nat.size w.toNat) := by
    show (BitVec.ofNat 32 _).getLsbD i = _
    rw [BitVec.getLsbD_ofNat, Nat.testBit_two_pow_sub_one]
    simp [hi]
  rw [e, decide_eq_true_iff, Nat.lt_size]
  constructor
  · rintro ⟨j, h1, h2, h3⟩
    have : 2 ^ j ≤ w.toNat := Nat.ge_two_pow_of_testBit h3
    exact le_trans (Nat.pow_le_pow_right (by norm_num) h1) this
  · intro h
    obtain ⟨j, h1, h2⟩ := Nat.exists_ge_and_testBit_of_ge_two_pow h
    refine ⟨j, h1, ?_, h2⟩
    have h3 : 2 ^ j ≤ w.toNat := Nat.ge_two_pow_of_testBit h2
    have h4 := w.toNat_lt
    have : j < 32 := by
      by_contra hc
      have := Nat.pow_le_pow_right (show 0 < 2 by norm_num) (Nat.not_lt.1 hc)
      omega
    omega

theorem popcnt_ones : ∀ k, k ≤ 32 → (popcnt (UInt32.ofNat (2 ^ k - 1))).toNat = k := by decide

/-- `logb2` is the bit length. -/
theorem logb2_eq (w : UInt32) : logb2 w = Nat.size w.toNat := by
  rw [logb2, smear_eq]
  exact popcnt_ones _ (by rw [Nat.size_le]; exact w.toNat_lt)

theorem neg_full {f : FP} {L E : Int} {v : Fp} (hf : Ok f L E v)
    (h : 1 ≤ L ∧ L + 1 ≤ 16 ∧ E ≤ 2 ^ 24) :
    Wp (neg f) fun r => Ok r (L + 1) (2 * E) (-v) ∧ r.xes ≤ 2 ^ 24 := by
  obtain ⟨h1, h2, h3⟩ := h
  have f1 := hf.x1
  have f2 := hf.xE
  unfold neg
  rw [i32_eq (by omega) (by omega), Option.bind_eq_bind, Option.bind_some]
  rw [logb2_eq]
  have hn : (UInt32.ofNat ((f.xes - 1) % 2 ^ 32).toNat).toNat = (f.xes - 1).toNat := by
    rw [Int.emod_eq_of_lt (by omega) (by omega)]
    exact UInt32.toNat_ofNat_of_lt' (by
      show _ < 2 ^ 32
      omega)
  rw [hn]
  generalize hsb : Nat.size (f.xes - 1).toNat = sb
  have s1 : (f.xes - 1).toNat < 2 ^ sb := by rw [← hsb]; exact Nat.lt_size_self _
  have s2 : (2:Int) ^ sb ≤ 2 * f.xes := by
    rcases Nat.eq_zero_or_pos sb with h0 | h0
    · rw [h0]; norm_num; omega
    · have : sb - 1 < Nat.size (f.xes - 1).toNat := by omega
      rw [Nat.lt_size] at this
      have e : 2 ^ sb = 2 * 2 ^ (sb - 1) := by rw [← pow_succ']; congr 1; omega
      have e' : (2:Int) ^ sb = 2 * ((2 ^ (sb - 1) : Nat) : Int) := by
        push_cast; rw [← pow_succ']; congr 1; omega
      rw [e']
      omega
  have s1' : f.xes ≤ (2:Int) ^ sb := by
    have : ((f.xes - 1).toNat : Int) < ((2 ^ sb : Nat) : Int) := by exact_mod_cast s1
    push_cast at this
    omega
  have sb24 : sb ≤ 24 := by
    rw [← hsb, Nat.size_le]
    omega
  have m6 : 0 ≤ rom.MODULUS.w4 ∧ rom.MODULUS.w4 < 2 ^ 33 := by norm_num [rom.MODULUS]
  have hk : (2:Int) ^ sb ≤ 2 ^ 24 := pow_le_pow_right₀ (by norm_num) sb24
  have hk0 : (0:Int) < 2 ^ sb := by positivity
  have hp := p_lt
  have hp0 := p_pos
  refine Wp.bind (BIG.fshl_wp modulus_nrm (by omega) m6.1 (by nlinarith)) ?_
  rintro P ⟨nP, vP⟩
  rw [modulus_val] at vP
  have bP : (p : Int) * 2 ^ sb ≤ p * 2 ^ 24 := mul_le_mul_of_nonneg_left hk hp0.le
  have lP := nP.lim56 (by rw [vP]; positivity) (by omega)
  refine Wp.bind (BIG.rsub_wp hf.lim lP (by omega)) ?_
  rintro x ⟨lx, vx⟩
  rw [i32_eq (by omega) (by omega), Option.bind_some]
  rw [if_neg (by show ¬ ((2:Int) ^ sb > FEXCESS); rw [FEXCESS]; omega)]
  have v0 := hf.v0
  have v1 := hf.v1
  have hx : f.xes * p ≤ 2 ^ sb * p := mul_le_mul_of_nonneg_right s1' hp0.le
  refine Wp.ret ⟨⟨?_, fun h => by omega, ?_, ?_, ?_, ?_, toF_of_val ?_⟩, hk⟩
  · rw [add_mul, one_mul]; exact lx
  · show 1 ≤ (2:Int) ^ sb
    omega
  · show (2:Int) ^ sb ≤ 2 * E
    omega
  · show 0 ≤ x.val
    rw [vx, vP]; linarith
  · show x.val ≤ 2 ^ sb * p
    rw [vx, vP]; linarith
  · show (x.val : Fp) = _
    rw [vx, vP, Int.cast_sub, Int.cast_mul, hf.val_eq]
    simp

theorem neg_wp {f : FP} {L E : Int} {v : Fp} (hf : Ok f L E v)
    (h : 1 ≤ L ∧ L + 1 ≤ 16 ∧ E ≤ 2 ^ 24) :
    Wp (neg f) fun r => Ok r (L + 1) (2 * E) (-v) :=
  (neg_full hf (by omega)).mono fun _ h => h.1

theorem sub_wp {f b : FP} {L L' E E' : Int} {v w : Fp} (hf : Ok f L E v) (hb : Ok b L' E' w)
    (h : 1 ≤ L ∧ 1 ≤ L' ∧ L + (L' + 1) ≤ 16 ∧ E + 2 * E' ≤ 2 ^ 24 ∧ 0 ≤ E) :
    Wp (sub f b) fun r => Ok r (L + (L' + 1)) (E + 2 * E') (v - w) := by
  unfold sub
  refine Wp.bind (neg_wp hb (by omega)) ?_
  intro n hn
  rw [sub_eq_add_neg]
  exact add_wp hf hn (by omega)

theorem rsub_wp {f b : FP} {L L' E E' : Int} {v w : Fp} (hf : Ok f L E v) (hb : Ok b L' E' w)
    (h : 1 ≤ L ∧ 1 ≤ L' ∧ L' + (L + 1) ≤ 16 ∧ E' + 2 * E ≤ 2 ^ 24 ∧ 0 ≤ E') :
    Wp (rsub f b) fun r => Ok r (L' + (L + 1)) (E' + 2 * E) (w - v) := by
  unfold rsub
  refine Wp.bind (neg_wp hf (by omega)) ?_
  intro n hn
  rw [sub_eq_add_neg, add_comm w, add_comm L', add_comm E']
  exact add_wp hn hb (by omega)

theorem imul_wp {f : FP} {L E c : Int} {v : Fp} (hf : Ok f L E v)
    (h : 1 ≤ L ∧ L ≤ 16 ∧ 0 < c ∧ c < 2 ^ 20 ∧ E * c ≤ 2 ^ 24) :
    Wp (imul f c) fun r => Ok r 1 (E * c) (v * (c : Fp)) := by
  obtain ⟨h1, h2, h3, h4, h5⟩ := h
  have f1 := hf.x1
  have f2 := hf.xE
  unfold imul
  rw [if_neg (by omega), Option.bind_eq_bind, Option.bind_some]
  dsimp only
  rw [as32_eq (by omega) (by omega)]
  have b1 : f.xes * c ≤ E * c := mul_le_mul_of_nonneg_right f2 h3.le
  have b0 : 1 * 1 ≤ f.xes * c := mul_le_mul f1 h3 (by norm_num) (by omega)
  rw [i32_eq (by omega) (by omega), Option.bind_some, if_pos (by rw [FEXCESS]; omega)]
  have hp := p_lt
  have hp0 := p_pos
  have v0 := hf.v0
  have v1 := hf.v1
  have k0 : 0 ≤ f.x.val * c := mul_nonneg v0 h3.le
  have k1 : f.x.val * c ≤ (f.xes * c) * p := by
    calc f.x.val * c ≤ (f.xes * p) * c := mul_le_mul_of_nonneg_right v1 h3.le
      _ = _ := by ring
  have k2 : (f.xes * c) * p ≤ 2 ^ 24 * p := mul_le_mul_of_nonneg_right (by omega) hp0.le
  refine Wp.bind (BIG.pmul_wp (hf.lim.mono (by omega)) ⟨by omega, by omega⟩ k0 (by omega)) ?_
  rintro x ⟨nx, vx⟩
  refine Wp.bind (R := fun g : FP => Ok g 1 (E * c) (v * (c : Fp))) ?_ ?_
  · refine Wp.ret ⟨?_, fun _ => nx, by show 1 ≤ f.xes * c; omega, b1, ?_, ?_, toF_of_val ?_⟩
    · rw [one_mul]; exact nx.lim56 (by omega) (by omega)
    · show 0 ≤ x.val
      omega
    · show x.val ≤ (f.xes * c) * p
      omega
    · show (x.val : Fp) = _
      rw [vx, Int.cast_mul, hf.val_eq]; ring
  · intro g hg
    rw [if_neg (by omega)]
    exact Wp.ret hg

theorem two_ne : (2 : Fp) ≠ 0 := by
  have h2 : ((2 : Nat) : Fp) ≠ 0 := by
    rw [Ne, ZMod.natCast_eq_zero_iff]
    intro h
    have := Nat.le_of_dvd (by norm_num) h
    norm_num [p] at this
  exact_mod_cast h2

/-- Halving. The new excess is the old one, which bounds `(x+p)/2` as well. -/
theorem div2_wp {f : FP} {E : Int} {v : Fp} (hf : Ok f 1 E v) (h : E ≤ 2 ^ 24) :
    Wp (div2 f) fun r => Ok r 1 E (v / 2) := by
  unfold div2
  have nf := hf.nrm1
  have f1 := hf.x1
  have f2 := hf.xE
  have v0 := hf.v0
  have v1 := hf.v1
  have hp := p_lt
  have hp0 := p_pos
  have hE : f.xes * p ≤ 2 ^ 24 * p := mul_le_mul_of_nonneg_right (by omega) hp0.le
  have hE1 : 1 * (p : Int) ≤ f.xes * p := mul_le_mul_of_nonneg_right f1 hp0.le
  have fin : ∀ (x : BIG), x.Nrm → x.val * 2 = f.x.val ∨ x.val * 2 = f.x.val + p →
      Ok (⟨x, f.xes⟩ : FP) 1 E (v / 2) := by
    intro x nx hx
    have x0 : 0 ≤ x.val := by omega
    have x1 : x.val ≤ f.xes * p := by omega
    refine ⟨?_, fun _ => nx, f1, f2, x0, x1, toF_of_val ?_⟩
    · rw [one_mul]; exact nx.lim56 x0 (by omega)
    · show (x.val : Fp) = _
      have : (x.val : Fp) * 2 = v * Rm := by
        rw [← hf.val_eq]
        rcases hx with hx | hx
        · have := congrArg (fun z : Int => (z : Fp)) hx
          simpa using this
        · have := congrArg (fun z : Int => (z : Fp)) hx
          simpa using this
      field_simp [two_ne]
      linear_combination this
  rw [BIG.parity_spec nf]
  split
  · next hpar =>
    refine Wp.bind (BIG.fshr_wp nf (by norm_num)) ?_
    rintro x ⟨nx, vx⟩
    exact Wp.ret (fin x nx (Or.inl (by omega)))
  · next hpar =>
    refine Wp.bind (BIG.add_wp hf.lim (modulus_lim.mono (le_refl _)) (by norm_num)) ?_
    rintro y ⟨ly, vy⟩
    rw [modulus_val] at vy
    refine Wp.bind (BIG.norm_wp (ly.mono (by norm_num))) ?_
    rintro z ⟨nz, vz⟩
    refine Wp.bind (BIG.fshr_wp nz (by norm_num)) ?_
    rintro x ⟨nx, vx⟩
    have podd : (p : Int) % 2 = 1 := by rw [p_val]; norm_num
    exact Wp.ret (fin x nx (Or.inr (by omega)))

theorem equals_wp {f g : FP} {L E L' E' : Int} {v w : Fp} (hf : Ok f L E v) (hg : Ok g L' E' w)
    (h : L ≤ 16 ∧ E ≤ 2 ^ 26 ∧ L' ≤ 16 ∧ E' ≤ 2 ^ 26) :
    Wp (equals f g) fun r => (r.1 = true ↔ v = w) ∧ Can r.2.1 v ∧ Can r.2.2 w := by
  unfold equals
  refine Wp.bind (reduce_wp hg (by omega)) ?_
  intro a ha
  refine Wp.bind (reduce_wp hf (by omega)) ?_
  intro b hb
  refine Wp.ret ⟨?_, hb, ha⟩
  rw [beq_iff_eq, BIG.comp_eq_zero ha.nrm hb.nrm]
  constructor
  · intro e
    rw [← ha.res, ← hb.res, toF, toF, e]
  · intro e
    subst e
    rw [ha.ext hb]

/-! ### Powers -/

theorem as8_digit {x : Int} (h0 : 0 ≤ x) (h1 : x < 16) : as8 x = x := as8_eq (by omega) (by omega)

theorem powDigits_wp (n : Nat) : ∀ t : BIG, t.Nrm → 0 ≤ t.val → t.val < 2 ^ 280 →
    Wp (powDigits n t) fun ws => ws.length = n ∧ (∀ w ∈ ws, 0 ≤ w ∧ w < 16) ∧
      ws.foldr (fun w a => w + 16 * a) 0 = t.val % 16 ^ n := by
  induction n with
  | zero => intro t _ _ _; exact Wp.pure ⟨rfl, by simp, by simp⟩
  | succ n ih =>
    intro t nt h0 h1
    rw [powDigits]
    refine Wp.bind (BIG.lastbits_wp (nt.lim56 h0 h1 |>.mono (by norm_num)) (n := 4) (by norm_num)) ?_
    rintro ⟨l, t1⟩ ⟨hl, nt1, vt1⟩
    simp only at hl nt1 vt1 ⊢
    have l0 : 0 ≤ l ∧ l < 16 := by omega
    refine Wp.bind (BIG.dec_wp (x := l) (nt1.lim56 (by omega) (by omega) |>.mono (by norm_num))
      ⟨by omega, by omega⟩) ?_
    rintro t2 ⟨vt2, lt2, nt2⟩
    have e0 := nt1.w0_eq
    have nt2 := nt2 nt1 (by omega) (by omega)
    refine Wp.bind (BIG.norm_wp (nt2.lim56 (by omega) (by omega) |>.mono (by norm_num))) ?_
    rintro t3 ⟨nt3, vt3⟩
    refine Wp.bind (BIG.fshr_wp nt3 (by norm_num)) ?_
    rintro t4 ⟨nt4, vt4⟩
    refine Wp.bind (ih t4 nt4 (by omega) (by omega)) ?_
    rintro ws ⟨w1, w2, w3⟩
    rw [as8_digit l0.1 l0.2]
    refine Wp.ret ⟨by simp [w1], ?_, ?_⟩
    · intro w hw
      rcases List.mem_cons.1 hw with rfl | hw
      · exact l0
      · exact w2 w hw
    · rw [List.foldr_cons, w3, pow_succ, mul_comm (16 ^ n : Int) 16]
      have h4 : t4.val = t.val / 16 := by omega
      have hk : (0:Int) < 16 ^ n := by positivity
      rw [h4, Int.emod_def t.val (16 * 16 ^ n), ← Int.ediv_ediv_of_nonneg (by norm_num), Int.emod_def]
      have : l = t.val - 16 * (t.val / 16) := by omega
      rw [this]; ring

theorem powTable_wp {s : FP} {E : Int} {v : Fp} (hs : Ok s 1 E v) (hE : E ≤ 2 ^ 24) (n : Nat) :
    ∀ (c : FP) (k : Nat) (E' : Int), Ok c 1 E' (v ^ k) → E' ≤ 2 ^ 24 →
      Wp (powTable s n c) fun l => l.length = n ∧
        ∀ (i : Nat) (x : FP), l[i]? = some x → Ok x 1 2 (v ^ (k + i + 1)) := by
  induction n with
  | zero => intro c k E' _ _; exact Wp.pure ⟨rfl, by simp⟩
  | succ n ih =>
    intro c k E' hc hE'
    rw [powTable]
    refine Wp.bind (mul_wp hc hs (by omega)) ?_
    intro c' hc'
    rw [← pow_succ] at hc'
    refine Wp.bind (ih c' (k + 1) 2 hc' (by norm_num)) ?_
    rintro l ⟨hl, hx⟩
    refine Wp.ret ⟨by simp [hl], ?_⟩
    intro i x hi
    rcases i with _ | i
    · simp at hi; subst hi; exact hc'
    · simp at hi
      have := hx i x hi
      rwa [show k + (i + 1) + 1 = k + 1 + i + 1 by ring]

/-- The window table: entry `i` is `v^i`. -/
def TableOk (tb : List FP) (v : Fp) : Prop :=
  ∀ w : Int, 0 ≤ w → w < 16 → ∃ x, tb[w.toNat]? = some x ∧ Ok x 1 (2 ^ 24) (v ^ w.toNat)

theorem powStep_wp {tb : List FP} {v u : Fp} {r : FP} (ht : TableOk tb v) (hr : Ok r 1 (2 ^ 24) u)
    {w : Int} (h0 : 0 ≤ w) (h1 : w < 16) :
    Wp (powStep tb r w) fun r' => Ok r' 1 (2 ^ 24) (u ^ 16 * v ^ w.toNat) := by
  unfold powStep
  refine Wp.bind (sqr_wp hr (by norm_num)) fun a ha => ?_
  refine Wp.bind (sqr_wp ha (by norm_num)) fun b hb => ?_
  refine Wp.bind (sqr_wp hb (by norm_num)) fun c hc => ?_
  refine Wp.bind (sqr_wp hc (by norm_num)) fun d hd => ?_
  obtain ⟨x, ex, hx⟩ := ht w h0 h1
  rw [ex, Option.bind_eq_bind, Option.bind_some]
  refine (mul_wp hd hx (by norm_num)).mono fun r' hr' => ?_
  refine (hr'.mono (by norm_num)).congr ?_
  ring

theorem powFold_wp {tb : List FP} {v : Fp} (ht : TableOk tb v) (ws : List Int) :
    ∀ (r : FP) (k : Nat), (∀ w ∈ ws, 0 ≤ w ∧ w < 16) → Ok r 1 (2 ^ 24) (v ^ k) →
      Wp (ws.foldlM (powStep tb) r) fun r' =>
        Ok r' 1 (2 ^ 24) (v ^ (ws.foldl (fun a w => 16 * a + w.toNat) k)) := by
  induction ws with
  | nil => intro r k _ hr; exact Wp.ret hr
  | cons w ws ih =>
    intro r k hw hr
    rw [List.foldlM_cons]
    have h := hw w (by simp)
    refine Wp.bind (powStep_wp ht hr h.1 h.2) fun r' hr' => ?_
    rw [← pow_mul, ← pow_add, mul_comm k 16] at hr'
    exact ih r' _ (fun w hw' => hw w (by simp [hw'])) hr'

theorem foldl_digits (ws : List Int) (hw : ∀ w ∈ ws, 0 ≤ w ∧ w < 16) :
    ((ws.reverse.foldl (fun a w => 16 * a + w.toNat) 0 : Nat) : Int)
      = ws.foldr (fun w a => w + 16 * a) 0 := by
  induction ws with
  | nil => rfl
  | cons w ws ih =>
    have h := hw w (by simp)
    rw [List.reverse_cons, List.foldl_append, List.foldr_cons, ← ih (fun w hw' => hw w (by simp [hw']))]
    simp only [List.foldl_cons, List.foldl_nil]
    push_cast
    rw [Int.toNat_of_nonneg h.1]; ring

theorem pow_wp {f : FP} {L E : Int} {v : Fp} {e : BIG} (hf : Ok f L E v)
    (h : 1 ≤ L ∧ L ≤ 16 ∧ E ≤ 2 ^ 24) (he : e.Nrm) (he0 : 0 ≤ e.val) (he1 : e.val < 2 ^ 276) :
    Wp (pow f e) fun r => Can r.1 (v ^ e.val.toNat) ∧ Ok r.2 1 E v := by
  unfold pow
  refine Wp.bind (norm_wp hf (by omega)) ?_
  rintro g ⟨hg, -, -⟩
  refine Wp.bind (BIG.norm_wp (he.lim56 he0 (by omega) |>.mono (by norm_num))) ?_
  rintro t ⟨nt, vt⟩
  have lt := (nt.lim56 (by omega) (by omega)).mono (show (2:Int) ^ 56 ≤ 2 ^ 62 by norm_num)
  refine Wp.bind (BIG.nbits_wp lt (by omega)) ?_
  rintro _ rfl
  generalize hS : Nat.size t.val.toNat = S
  have hS1 : S ≤ 276 := by rw [← hS, Nat.size_le]; omega
  have hS2 : t.val.toNat < 2 ^ S := by rw [← hS]; exact Nat.lt_size_self _
  dsimp only
  rw [if_neg (by omega)]
  generalize hnb : 1 + (S + 3) / 4 = nb
  refine Wp.bind (powDigits_wp nb t nt (by omega) (by omega)) ?_
  rintro ws ⟨w1, w2, w3⟩
  have hlt : t.val < 16 ^ nb := by
    have h1 : 2 ^ S ≤ 2 ^ (4 * nb) := Nat.pow_le_pow_right (by norm_num) (by omega)
    have h2 : (16:Int) ^ nb = ((2 ^ (4 * nb) : Nat) : Int) := by
      rw [pow_mul]; push_cast; norm_num
    rw [h2]
    omega
  rw [Int.emod_eq_of_lt (by omega) hlt] at w3
  refine Wp.bind one_wp fun o ho => ?_
  refine Wp.bind (powTable_wp hg h.2.2 14 g 1 E (by simpa using hg) h.2.2) ?_
  rintro tbs ⟨tl, tx⟩
  have ht : TableOk (o :: g :: tbs) v := by
    intro w w0 w1
    obtain ⟨n, rfl⟩ := Int.eq_ofNat_of_zero_le w0
    rw [Int.toNat_natCast]
    rcases n with _ | _ | n
    · exact ⟨o, rfl, by simpa using ho.mono (by norm_num)⟩
    · exact ⟨g, rfl, by simpa using hg.mono (by omega)⟩
    · have hn : n < tbs.length := by omega
      refine ⟨tbs[n], by simp [hn], ?_⟩
      have := tx n tbs[n] (by simp [hn])
      rw [show n + 1 + 1 = 1 + n + 1 by ring]
      exact this.mono (by norm_num)
  have hlen : ws.reverse.length = nb := by simp [w1]
  have hfold := foldl_digits ws w2
  have hw2 : ∀ w ∈ ws.reverse, 0 ≤ w ∧ w < 16 := fun w hw => w2 w (by simpa using hw)
  generalize ws.reverse = rv at *
  rcases rv with _ | ⟨w, rest⟩
  · simp at hlen; omega
  · have hw := hw2 w (by simp)
    obtain ⟨x, ex, hx⟩ := ht w hw.1 hw.2
    simp only [ex]
    refine Wp.bind (R := fun y => y = x) (Wp.pure rfl) ?_
    rintro _ rfl
    refine Wp.bind (powFold_wp ht rest _ w.toNat (fun w hw => hw2 w (by simp [hw])) hx) ?_
    intro r hr
    refine Wp.bind (reduce_wp hr (by norm_num)) ?_
    intro q hq
    refine Wp.ret ⟨?_, hg⟩
    have : rest.foldl (fun a w => 16 * a + w.toNat) w.toNat = e.val.toNat := by
      rw [w3, List.foldl_cons] at hfold
      simp only [mul_zero, zero_add] at hfold
      omega
    rwa [this] at hq

theorem p_nat : p = 115792089237316195423570985008687907853269984665640564039457584007908834671663 := rfl

theorem inverse_wp {f : FP} {L E : Int} {v : Fp} (hf : Ok f L E v)
    (h : 1 ≤ L ∧ L ≤ 16 ∧ E ≤ 2 ^ 24) : Wp (inverse f) fun r => Can r v⁻¹ := by
  unfold inverse
  refine Wp.bind (BIG.dec_wp (x := 2) (modulus_lim.mono (by norm_num)) ⟨by norm_num, by norm_num⟩) ?_
  rintro m ⟨vm, lm, nm⟩
  have nm := nm modulus_nrm (by norm_num [rom.MODULUS]) (by norm_num [rom.MODULUS])
  rw [modulus_val] at vm
  have hp := p_lt
  have hpv := p_val
  refine Wp.bind (BIG.norm_wp ((nm.lim56 (by omega) (by omega)).mono (by norm_num))) ?_
  rintro m' ⟨nm', vm'⟩
  refine Wp.bind (pow_wp hf h nm' (by omega) (by omega)) ?_
  rintro ⟨a, b⟩ ⟨ha, hb⟩
  refine Wp.ret ?_
  have e : m'.val.toNat = p - 2 := by omega
  simp only [e] at ha
  have : v ^ (p - 2) = v⁻¹ := by
    by_cases hv : v = 0
    · rw [hv, inv_zero, zero_pow]; have := p_nat; omega
    · apply eq_inv_of_mul_eq_one_left
      rw [← pow_succ, show p - 2 + 1 = p - 1 by have := p_nat; omega]
      exact ZMod.pow_card_sub_one_eq_one hv
  rwa [this] at ha

theorem sqrt_wp {f : FP} {L E : Int} {v : Fp} (hf : Ok f L E v)
    (h : 1 ≤ L ∧ L ≤ 16 ∧ E ≤ 2 ^ 24) :
    Wp (sqrt f) fun r => Can r.1 (v ^ ((p + 1) / 4)) ∧ Ok r.2 1 1 v := by
  unfold sqrt
  refine Wp.bind (reduce_wp hf (by omega)) fun g hg => ?_
  refine Wp.bind (BIG.inc_wp (x := 1) (modulus_lim.mono (by norm_num)) ⟨by norm_num, by norm_num⟩) ?_
  rintro m ⟨vm, lm, nm⟩
  have nm := nm modulus_nrm (by norm_num [rom.MODULUS]) (by norm_num [rom.MODULUS])
  rw [modulus_val] at vm
  have hp := p_lt
  have hpv := p_val
  refine Wp.bind (BIG.norm_wp ((nm.lim56 (by omega) (by omega)).mono (by norm_num))) ?_
  rintro m' ⟨nm', vm'⟩
  refine Wp.bind (BIG.shr_wp nm' (by norm_num)) ?_
  rintro q ⟨nq, vq⟩
  refine (pow_wp hg.ok (by norm_num) nq (by omega) (by omega)).mono ?_
  rintro ⟨a, b⟩ ⟨ha, hb⟩
  have e : q.val.toNat = (p + 1) / 4 := by omega
  rw [e] at ha
  exact ⟨ha, hb⟩

end FP
end Amcl.Secp
