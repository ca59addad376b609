import Verif.Spec.HashToCurve
import Verif.Proof.Wide
import Verif.Proof.Aggregate
import Verif.Proof.Stepanov
/-!
# Hashing to the second group
-/

set_option exponentiation.threshold 2000

namespace Spec

theorem usable_iff {x : Fp2} : Usable x ↔
    IsSquare (x ^ 3 + b2) ∧ ((x ^ 3 + b2).im = 0 → IsSquare (x ^ 3 + b2).re) := by
  have h2 := fp_two_ne
  constructor
  · rintro ⟨y, hy, hr⟩
    rw [← hy]
    refine ⟨⟨y, pow_two y⟩, fun h => ?_⟩
    rw [pow_two, QuadraticAlgebra.im_mul] at h
    have h' : y.re * y.im * 2 = 0 := by linear_combination h
    have him : y.im = 0 := by
      rcases mul_eq_zero.1 h' with h' | h'
      · exact (mul_eq_zero.1 h').resolve_left hr
      · exact absurd h' h2
    exact ⟨y.re, by rw [pow_two, QuadraticAlgebra.re_mul, him]; ring⟩
  · rintro ⟨⟨y, hy⟩, hs⟩
    refine ⟨y, by rw [hy, pow_two], fun hr => ?_⟩
    have hy0 : y ≠ 0 := Pt.y_ne (b := b2) (x := x) (by rw [hy, pow_two])
    have him : y.im ≠ 0 := fun h => hy0 (by ext <;> simp [hr, h])
    have h1 : (x ^ 3 + b2).im = 0 := by rw [hy, QuadraticAlgebra.im_mul, hr]; ring
    have := hs h1
    rw [hy, QuadraticAlgebra.re_mul, hr] at this
    refine Amcl.FP2.neg_sq_nonsquare him ?_
    convert this using 1
    ring

theorem isSquare_mul_of_not {a b : Fp} (ha : ¬ IsSquare a) (hb : ¬ IsSquare b) : IsSquare (a * b) := by
  have ha0 : a ≠ 0 := fun h => ha ⟨0, by rw [h, mul_zero]⟩
  have hb0 : b ≠ 0 := fun h => hb ⟨0, by rw [h, mul_zero]⟩
  have h := mul_ne_zero ha0 hb0
  rw [ZMod.euler_criterion p ha0] at ha
  rw [ZMod.euler_criterion p hb0] at hb
  rw [ZMod.euler_criterion p h]
  have h1 := ZMod.pow_div_two_eq_neg_one_or_one p ha0
  have h2 := ZMod.pow_div_two_eq_neg_one_or_one p hb0
  generalize p / 2 = m at *
  rw [mul_pow, h1.resolve_left ha, h2.resolve_left hb]
  ring

/-- An element of square norm and non-zero imaginary part is a square. -/
theorem isSquare_of_norm {v : Fp2} (hi : v.im ≠ 0) (hn : IsSquare (v.re ^ 2 + v.im ^ 2)) : IsSquare v := by
  have h2 := fp_two_ne
  obtain ⟨s, hs⟩ := hn
  have main : ∀ w : Fp, w * w = (v.re + s) * 2⁻¹ ∨ w * w = (v.re - s) * 2⁻¹ → IsSquare v := by
    intro w hw
    have e : (w * w) * (w * w) - v.re * (w * w) = v.im ^ 2 * (2⁻¹ * 2⁻¹) := by
      rcases hw with hw | hw <;> rw [hw] <;> field_simp <;> linear_combination -hs
    have hw0 : w ≠ 0 := by
      rintro rfl
      apply hi
      have : v.im ^ 2 * (2⁻¹ * 2⁻¹) = 0 := by rw [← e]; ring
      have h4 : (2⁻¹ * 2⁻¹ : Fp) ≠ 0 := mul_ne_zero (inv_ne_zero h2) (inv_ne_zero h2)
      exact pow_eq_zero_iff (two_ne_zero) |>.1 ((mul_eq_zero.1 this).resolve_right h4)
    refine ⟨⟨w, v.im * (2 * w)⁻¹⟩, ?_⟩
    ext
    · rw [QuadraticAlgebra.re_mul]
      field_simp
      field_simp at e
      linear_combination -e
    · rw [QuadraticAlgebra.im_mul]
      field_simp
      ring
  have hprod : ((v.re + s) * 2⁻¹) * ((v.re - s) * 2⁻¹) = -((v.im * 2⁻¹) * (v.im * 2⁻¹)) := by
    linear_combination (2⁻¹ * 2⁻¹ : Fp) * hs
  have hnon : ¬ IsSquare (((v.re + s) * 2⁻¹) * ((v.re - s) * 2⁻¹)) := by
    rw [hprod]
    exact Amcl.FP2.neg_sq_nonsquare (mul_ne_zero hi (inv_ne_zero h2))
  by_cases h1 : IsSquare ((v.re + s) * 2⁻¹)
  · obtain ⟨w, hw⟩ := h1
    exact main w (.inl hw.symm)
  · have : IsSquare ((v.re - s) * 2⁻¹) := by
      by_contra h2'
      exact hnon (isSquare_mul_of_not h1 h2')
    obtain ⟨w, hw⟩ := this
    exact main w (.inr hw.symm)

theorem cube_add_b2 (x : Fp2) : (x ^ 3 + b2).re = x.re ^ 3 - 3 * x.im ^ 2 * x.re + 4 ∧
    (x ^ 3 + b2).im = 3 * x.im * x.re ^ 2 + (4 - x.im ^ 3) := by
  rw [b2, pow_succ, pow_two]
  constructor
  · simp [i, show (4 : Fp2).re = 4 from rfl, show (4 : Fp2).im = 0 from rfl,
      QuadraticAlgebra.re_one, QuadraticAlgebra.im_one]
    ring
  · simp [i, show (4 : Fp2).re = 4 from rfl, show (4 : Fp2).im = 0 from rfl,
      QuadraticAlgebra.re_one, QuadraticAlgebra.im_one]
    ring

/-- The search always succeeds. -/
theorem exists_usable (x : Fp2) : ∃ k : Nat, Usable (x + k) := by
  obtain ⟨t, hc, hf⟩ := Stepanov.exists_good (q := p) (n := p / 2) (by norm_num [p]) (by norm_num [p]) x.im
  refine ⟨(t - x.re).val, ?_⟩
  have e : x + (((t - x.re).val : Nat) : Fp2) = ⟨t, x.im⟩ := by
    ext
    · rw [QuadraticAlgebra.re_add, QuadraticAlgebra.re_natCast, ZMod.natCast_zmod_val]
      ring
    · rw [QuadraticAlgebra.im_add, QuadraticAlgebra.im_natCast, add_zero]
  rw [e, usable_iff]
  obtain ⟨e1, e2⟩ := cube_add_b2 ⟨t, x.im⟩
  dsimp only at e1 e2
  rw [← e2] at hc
  rw [← e1, ← e2] at hf
  refine ⟨isSquare_of_norm hc ?_, fun h => absurd h hc⟩
  by_cases h0 : ((⟨t, x.im⟩ : Fp2) ^ 3 + b2).re ^ 2 + ((⟨t, x.im⟩ : Fp2) ^ 3 + b2).im ^ 2 = 0
  · rw [h0]
    exact ⟨0, by ring⟩
  · rw [ZMod.euler_criterion p h0]
    have h1 := ZMod.pow_div_two_eq_neg_one_or_one p h0
    generalize p / 2 = m at *
    exact h1.resolve_right hf

/-- The image is determined by `x`. -/
theorem MapsTo.unique {x : Fp2} {g g' : G2} (h : MapsTo x g) (h' : MapsTo x g') : g = g' := by
  obtain ⟨k, y, e, hn, hu, hL, hg⟩ := h
  obtain ⟨k', y', e', hn', hu', hL', hg'⟩ := h'
  have hk : k = k' := by
    rcases lt_trichotomy k k' with h | h | h
    · exact absurd hu (hn' k h)
    · exact h
    · exact absurd hu' (hn k' h)
  subst hk
  have hy : y = y' := by
    have : (y - y') * (y + y') = 0 := by linear_combination e - e'
    rcases mul_eq_zero.1 this with h | h
    · linear_combination h
    · exfalso
      have hy : y' = -y := by linear_combination h
      subst hy
      rcases hL with ⟨h1, h2⟩ | ⟨h1, h2⟩
      · rcases hL' with ⟨h3, h4⟩ | ⟨h3, h4⟩
        · rw [QuadraticAlgebra.im_neg, neg_neg] at h4
          omega
        · rw [QuadraticAlgebra.im_neg, neg_eq_zero] at h3
          exact h1 h3
      · rcases hL' with ⟨h3, h4⟩ | ⟨h3, h4⟩
        · rw [QuadraticAlgebra.im_neg, h1, neg_zero] at h3
          exact h3 rfl
        · rw [QuadraticAlgebra.re_neg] at h4
          have := isSquare_mul_of_not h2 h4
          rw [mul_neg] at this
          refine Amcl.FP2.neg_sq_nonsquare (t := y.re) ?_ this
          intro h0
          exact h2 ⟨0, by rw [h0, mul_zero]⟩
  subst hy
  rw [hg, hg']

end Spec

namespace Amcl

open Spec

/-- The coordinate invariant of the search loop. -/
structure LoopInv (x : FP2) (v : Fp2) : Prop where
  ok : FP2.Ok x 2 (2 ^ 25) v
  re : 2 * x.a.x.val ≤ (x.a.xes + 2) * p
  im : x.b.x.val ≤ 2 * p

theorem FP2.one_exact : Wp FP2.one fun o => FP2.Ok o 1 2 1 ∧ o.a.xes = 2 ∧ o.a.x.val ≤ p ∧ o.b.x.val = 0 := by
  refine FP2.one_wp.and ?_
  have h : ∃ o, FP2.one = some o ∧ o.a.xes = 2 ∧ o.a.x.val ≤ p ∧ o.b.x.val = 0 := by
    have e : (FP2.one.any fun o => decide (o.a.xes = 2 ∧ o.a.x.val ≤ (p : Int) ∧ o.b.x.val = 0)) = true := by decide +kernel
    cases h : FP2.one with
    | none => rw [h] at e; cases e
    | some o => rw [h] at e; exact ⟨o, rfl, by simpa using e⟩
  exact h

theorem LoopInv.next {x one : FP2} {v : Fp2} (h : FP2.Ok x 1 (2 ^ 25) v)
    (hr : 2 * x.a.x.val ≤ (x.a.xes + 2) * p) (hi : x.b.x.val ≤ 2 * p)
    (ho : FP2.Ok one 1 2 1 ∧ one.a.xes = 2 ∧ one.a.x.val ≤ p ∧ one.b.x.val = 0) :
    Wp (x.add one) fun r => LoopInv r (v + 1) := by
  have hV : ∀ {g : FP} {u : Fp} {K : Int}, FP.Ok g K (2 ^ 25) u → FP.OkV g K (2 ^ 25) u := fun h => ⟨h, h.valE⟩
  obtain ⟨ho, o1, o2, o3⟩ := ho
  have ho' := ho.mono (L' := 1) (E' := 2 ^ 25) (by norm_num)
  unfold FP2.add
  have hp := p_pos
  refine Wp.bind (FP.add_wpV (hV h.a) (hV ho'.a) (by norm_num)) ?_
  rintro a ⟨ha, ea, la⟩
  refine Wp.bind (FP.add_wpV (hV h.b) (hV ho'.b) (by norm_num)) ?_
  rintro b ⟨hb, -, lb⟩
  refine Wp.ret ⟨⟨ha.1, hb.1⟩, ?_, ?_⟩
  · show 2 * a.x.val ≤ (a.xes + 2) * p
    rcases ea with ⟨-, e1, e2⟩ | ⟨-, e1, e2⟩
    · rw [e1, o1, e2]
      rw [show (x.a.xes + 2 + 2) * (p : Int) = (x.a.xes + 2) * p + 2 * p by ring]
      omega
    · rw [e1]
      omega
  · show b.x.val ≤ 2 * p
    omega

theorem LoopInv.norm {x : FP2} {v : Fp2} (hx : LoopInv x v) : Wp (FP2.norm x) fun r =>
    FP2.OkV r 1 (2 ^ 24 + 2 ^ 20) v ∧ 2 * r.a.x.val ≤ (r.a.xes + 2) * p ∧ r.b.x.val ≤ 2 * p := by
  have h1 := hx.re
  have h2 := hx.ok.a.xE
  have h3 := hx.im
  have hp := p_pos
  have h4 : (x.a.xes + 2) * p ≤ (2 ^ 25 + 2) * p := mul_le_mul_of_nonneg_right (by omega) hp.le
  unfold FP2.norm
  refine Wp.bind (FP.norm_wp hx.ok.a (by norm_num)) ?_
  rintro a ⟨ha, xa, va⟩
  refine Wp.bind (FP.norm_wp hx.ok.b (by norm_num)) ?_
  rintro b ⟨hb, xb, vb⟩
  refine Wp.ret ⟨⟨⟨ha, hb⟩, ?_⟩, ?_, ?_⟩ <;> dsimp only
  · omega
  · rw [xa, va]; exact h1
  · omega

open utils in
/-- The loop ends at the first usable abscissa. -/
theorem mapLoop_wp {one : FP2} (ho : FP2.Ok one 1 2 1 ∧ one.a.xes = 2 ∧ one.a.x.val ≤ p ∧ one.b.x.val = 0) :
    ∀ (k : Nat) {x : FP2} {v : Fp2}, LoopInv x v → (∀ j < k, ¬ Usable (v + j)) → Usable (v + k) →
    Wp (mapLoop one x) fun P => ∃ y h, ECP2.Wide P 2 (Pt.mk (v + k) y h) ∧ P.z.toF = 1 ∧
      FP2.Ok P.y 1 2 y ∧ IsSquare y.re ∧ (y.im = 0 → P.y.b.x.val = 0) := by
  intro k
  induction k with
  | zero =>
    intro x v hx _ hu
    rw [Nat.cast_zero, add_zero]
    rw [Nat.cast_zero, add_zero, usable_iff] at hu
    rw [mapLoop.eq_def]
    refine Wp.bind hx.norm ?_
    rintro x' ⟨hx', -, -⟩
    refine Wp.bind (ECP2.new_fp2_wpV hx') ?_
    rintro P ⟨hP, -⟩
    obtain ⟨y, h, hP⟩ := hP hu
    refine Wp.bind (ECP2.is_infinity_wp (hP.1.ok (by norm_num)) (by norm_num)) fun e he => ?_
    rw [if_neg (fun h' => Pt.mk_ne h (he.1 h'))]
    exact Wp.ret ⟨y, h, hP⟩
  | succ k ih =>
    intro x v hx hn hu
    have h0 := hn 0 (by omega)
    rw [Nat.cast_zero, add_zero, usable_iff] at h0
    rw [mapLoop.eq_def]
    refine Wp.bind hx.norm ?_
    rintro x' ⟨hx', h1, h2⟩
    refine Wp.bind (ECP2.new_fp2_wpV hx') ?_
    rintro P ⟨-, hP⟩
    refine Wp.bind (ECP2.is_infinity_wp (hP h0) (by norm_num)) fun e he => ?_
    rw [if_pos (he.2 rfl)]
    refine Wp.bind (LoopInv.next hx'.ok h1 h2 ho) fun x'' hx'' => ?_
    have e : ∀ j : Nat, v + 1 + (j : Fp2) = v + ((j + 1 : Nat) : Fp2) := fun j => by push_cast; ring
    have := ih hx'' (fun j hj => by rw [e]; exact hn (j + 1) (by omega)) (by rw [e]; exact hu)
    rw [e] at this
    exact this

/-- What `redc` returns. -/
theorem redc_val {f : FP} {L E : Int} {v : Fp} (hf : FP.Ok f L E v) (h : 1 ≤ L ∧ L ≤ 8 ∧ E ≤ 2 ^ 25) :
    Wp (FP.redc f) fun r => r.Nrm ∧ (v ≠ 0 → r.val = v.val) ∧
      (v = 0 → r.val = if f.x.val = 0 then 0 else (p : Int)) := by
  refine (FP.redc_wp hf h).mono ?_
  rintro r ⟨n, r0, r1, rv, rz⟩
  obtain ⟨m, hm⟩ := Int.eq_ofNat_of_zero_le r0
  rw [hm, Int.cast_natCast] at rv
  have hmp : m ≤ p := by omega
  refine ⟨n, fun h0 => ?_, fun h0 => ?_⟩
  · have : m ≠ p := by
      rintro rfl
      rw [CharP.cast_eq_zero (Fp) p] at rv
      exact h0 rv.symm
    rw [hm, ← rv, ZMod.val_natCast, Nat.mod_eq_of_lt (by omega)]
  · split
    · exact rz.2 (by assumption)
    · have : m ≠ 0 := fun h => by
        rw [h] at hm
        exact absurd (rz.1 hm) (by assumption)
      rw [h0, ZMod.natCast_eq_zero_iff] at rv
      have := Nat.le_of_dvd (by omega) rv
      omega

theorem val_neg_add {v : Fp} (hv : v ≠ 0) : (-v).val + v.val = p ∧ (-v).val ≠ v.val := by
  have h : (-v).val = p - v.val := by
    have : NeZero v := ⟨hv⟩
    exact ZMod.val_neg_of_ne_zero v
  have h' := ZMod.val_lt v
  refine ⟨by omega, fun e => ?_⟩
  have : 2 * v.val = p := by omega
  have h2 : p % 2 = 1 := by norm_num [p]
  omega

/-- `neg` never stores the number 0 as the imaginary part of an element with non-zero real part. -/
theorem neg_im_stored {f : FP2} {v : Fp2} (hf : FP2.Ok f 1 2 v) (ha : v.re ≠ 0) :
    Wp (FP2.neg f) fun r => r.b.x.val ≠ 0 := by
  have hV : ∀ {g : FP} {u : Fp} {K E : Int}, FP.Ok g K E u → 1 ≤ K → E ≤ 2 ^ 25 → FP.OkV g K (2 ^ 25) u := by
    intro g u K E h h1 h2
    have h' := h.mono (L' := K) (E' := 2 ^ 25) (by omega)
    exact ⟨h', h'.valE⟩
  have h0 : f.a.x.val ≠ 0 := by
    intro h
    have := hf.a.val_eq
    rw [h, Int.cast_zero] at this
    exact ha ((mul_eq_zero.1 this.symm).resolve_right Rm_ne)
  unfold FP2.neg
  refine Wp.bind (FP.add_wp hf.a hf.b (by norm_num)) fun m hm => ?_
  refine Wp.bind (FP.neg_wp hm (by norm_num)) fun m' hm' => ?_
  refine Wp.bind (FP.add_wp hm' hf.b (by norm_num)) fun t ht => ?_
  refine Wp.bind (FP.add_wpV (hV hm' (by norm_num) (by norm_num)) (hV hf.a (by norm_num) (by norm_num)) (by norm_num)) ?_
  rintro b ⟨-, eb, -⟩
  refine Wp.ret ?_
  show b.x.val ≠ 0
  have x1 := hm'.xE
  have x2 := hf.a.xE
  have v1 := hm'.v0
  have v2 := hf.a.v0
  rcases eb with ⟨-, -, e⟩ | ⟨h, -⟩
  · omega
  · omega

open utils in
theorem chooseY_wp {P : ECP2} {x y : Fp2} {h : y ^ 2 = x ^ 3 + b2} (hP : ECP2.Wide P 2 (Pt.mk x y h))
    (hy : FP2.Ok P.y 1 2 y) (hs : IsSquare y.re) (hz : y.im = 0 → P.y.b.x.val = 0) :
    Wp (chooseY P) fun r => ∃ w h', (w = y ∨ w = -y) ∧ Larger w ∧ ECP2.Wide r 10 (Pt.mk x w h') := by
  have hy0 : y ≠ 0 := Pt.y_ne (b := b2) (x := x) h
  have h' : (-y) ^ 2 = x ^ 3 + b2 := by rw [neg_sq, h]
  unfold chooseY
  have key : Wp P.y.neg fun n => FP2.Ok n 4 10 (-y) ∧ (y.im = 0 → n.b.x.val ≠ 0) := by
    by_cases hi : y.im = 0
    · have hr : y.re ≠ 0 := fun hr => hy0 (by ext <;> simp [hr, hi])
      exact (FP2.neg_wp hy (by norm_num)).and ((neg_im_stored hy hr).mono fun _ h _ => h)
    · exact (FP2.neg_wp hy (by norm_num)).mono fun r hr => ⟨hr, fun h => absurd h hi⟩
  refine Wp.bind key ?_
  rintro n ⟨hn, hn0⟩
  have hneg : Wp P.neg fun r => ECP2.Wide r 10 (Pt.mk x (-y) h') := by
    refine (ECP2.neg_wpV hP (by norm_num)).mono fun r hr => ?_
    rw [Pt.neg_mk] at hr
    exact hr
  unfold cmp_fp2
  by_cases hi : y.im = 0
  · have hr : y.re ≠ 0 := fun hr => hy0 (by ext <;> simp [hr, hi])
    have hL : Larger (-y) := by
      refine .inr ⟨by simp [hi], ?_⟩
      obtain ⟨s, hs⟩ := hs
      rw [QuadraticAlgebra.re_neg, hs]
      refine FP2.neg_sq_nonsquare fun h => hr ?_
      rw [hs, h, mul_zero]
    refine Wp.bind (R := fun t : Int => t < 0) ?_ ?_
    · refine Wp.bind (redc_val hy.b (by norm_num)) ?_
      rintro c1 ⟨n1, -, e1⟩
      refine Wp.bind (redc_val hn.b (by norm_num)) ?_
      rintro c2 ⟨n2, -, e2⟩
      have e1 := e1 hi
      have e2 := e2 (by simp [hi])
      rw [if_pos (hz hi)] at e1
      rw [if_neg (hn0 hi)] at e2
      have hp := p_pos
      have hlt := (BIG.comp_lt n1 n2).2 (by rw [e1, e2]; exact hp)
      rw [if_neg (by omega)]
      exact Wp.ret hlt
    · intro t ht
      rw [if_pos ht]
      exact hneg.mono fun r hr => ⟨-y, h', .inr rfl, hL, hr⟩
  · obtain ⟨s1, s2⟩ := val_neg_add hi
    refine Wp.bind (R := fun t : Int => t < 0 ↔ y.im.val < (-y.im).val) ?_ ?_
    · refine Wp.bind (redc_val hy.b (by norm_num)) ?_
      rintro c1 ⟨n1, e1, -⟩
      refine Wp.bind (redc_val hn.b (by norm_num)) ?_
      rintro c2 ⟨n2, e2, -⟩
      have e1 := e1 hi
      have e2 := e2 (by simpa using hi)
      rw [QuadraticAlgebra.im_neg] at e2
      rw [if_neg (by rw [BIG.comp_eq_zero n1 n2, e1, e2]; omega)]
      exact Wp.ret (by rw [BIG.comp_lt n1 n2, e1, e2]; omega)
    · intro t ht
      split
      · rename_i hc
        refine hneg.mono fun r hr => ⟨-y, h', .inr rfl, .inl ⟨by simpa using hi, ?_⟩, hr⟩
        rw [QuadraticAlgebra.im_neg, neg_neg]
        exact ht.1 hc
      · rename_i hc
        refine Wp.ret ⟨y, h, .inl rfl, .inl ⟨hi, ?_⟩, hP.mono (by norm_num)⟩
        have := mt ht.2 hc
        omega

open utils in
theorem multiply_cofactor_wp {P : ECP2} {g : G2} (hP : ECP2.Wide P (2 ^ 10) g) :
    Wp (multiply_cofactor P) fun r => ECP2.Ok r 32 (h2 • g) := by
  unfold multiply_cofactor
  refine Wp.bind (ECP2.mul_wpV hP (e := G2_COFACTOR_HIGH) (by constructor <;> norm_num [G2_COFACTOR_HIGH])
    (by norm_num [G2_COFACTOR_HIGH, BIG.val]) (by norm_num [G2_COFACTOR_HIGH, BIG.val])) fun a ha => ?_
  refine Wp.bind (ECP2.mul_wpV ha (e := G2_COFACTOR_SHIFT) (by constructor <;> norm_num [G2_COFACTOR_SHIFT])
    (by norm_num [G2_COFACTOR_SHIFT, BIG.val]) (by norm_num [G2_COFACTOR_SHIFT, BIG.val])) fun b hb => ?_
  refine Wp.bind (ECP2.mul_wpV hP (e := G2_COFACTOR_LOW) (by constructor <;> norm_num [G2_COFACTOR_LOW])
    (by norm_num [G2_COFACTOR_LOW, BIG.val]) (by norm_num [G2_COFACTOR_LOW, BIG.val])) fun c hc => ?_
  refine (ECP2.add_wpV (hb.mono (by norm_num)) (hc.mono (by norm_num))).mono fun r hr => ?_
  rw [smul_smul, ← add_smul] at hr
  have : (G2_COFACTOR_SHIFT.val * G2_COFACTOR_HIGH.val + G2_COFACTOR_LOW.val : Int) = ((h2 : Nat) : Int) := by
    norm_num [G2_COFACTOR_SHIFT, G2_COFACTOR_HIGH, G2_COFACTOR_LOW, BIG.val, h2]
  rw [this, natCast_zsmul] at hr
  exact hr

open utils in
/-- `map_to_g2` once the search is known to succeed. -/
theorem map_to_g2_wp {re im : List UInt8} (hr : 48 ≤ re.length) (hi : 48 ≤ im.length) {k : Nat}
    (hn : ∀ j < k, ¬ Usable ((⟨(beNat (re.take 48) : Fp), (beNat (im.take 48) : Fp)⟩ : Fp2) + j))
    (hu : Usable ((⟨(beNat (re.take 48) : Fp), (beNat (im.take 48) : Fp)⟩ : Fp2) + k)) :
    Wp (map_to_g2 re im) fun P => ∃ g,
      MapsTo ⟨(beNat (re.take 48) : Fp), (beNat (im.take 48) : Fp)⟩ g ∧ ECP2.Ok P 32 g := by
  unfold map_to_g2
  have hp := p_pos
  have mod : ∀ {b : BIG} {n : Nat}, b.Nrm ∧ b.val = n → n < 2 ^ 384 →
      Wp (b.rmod rom.MODULUS) fun r => r.Nrm ∧ 0 ≤ r.val ∧ r.val < p ∧ ((r.val : Int) : Fp) = (n : Fp) := by
    rintro b n ⟨nb, vb⟩ hn
    refine (BIG.rmod_wp ((nb.lim58 (by omega) (by omega)).mono (by norm_num)) (by omega) (by omega)
      modulus_nrm (by rw [modulus_val]; exact hp)).mono ?_
    rintro r ⟨nr, vr⟩
    rw [modulus_val, vb] at vr
    refine ⟨nr, by rw [vr]; exact Int.emod_nonneg _ hp.ne', by rw [vr]; exact Int.emod_lt_of_pos _ hp, ?_⟩
    rw [vr, ← Int.natCast_mod, Int.cast_natCast, ZMod.natCast_mod]
  have l1 := beNat_lt48 (b := re.take 48) (by simp; omega)
  have l2 := beNat_lt48 (b := im.take 48) (by simp; omega)
  refine Wp.bind (BIG.frombytes_wp hr) fun a ha => ?_
  refine Wp.bind (BIG.frombytes_wp hi) fun b hb => ?_
  refine Wp.bind (mod ha l1) ?_
  rintro a' ⟨na, a0, a1, ea⟩
  refine Wp.bind (mod hb l2) ?_
  rintro b' ⟨nb, b0, b1, eb⟩
  have hpl := p_lt
  refine Wp.bind (FP2.new_bigs_wp ((na.lim58 a0 (by omega)).mono (by norm_num))
    ((nb.lim58 b0 (by omega)).mono (by norm_num)) a0 b0 (by omega) (by omega)) ?_
  rintro x ⟨hx, -, -⟩
  rw [ea, eb] at hx
  generalize (⟨(beNat (re.take 48) : Fp), (beNat (im.take 48) : Fp)⟩ : Fp2) = v at *
  refine Wp.bind FP2.one_exact fun one ho => ?_
  have inv : LoopInv x v := by
    refine ⟨hx.mono (by norm_num), ?_, ?_⟩
    · have h1 := hx.a.v1
      have h2 := hx.a.xE
      have h3 : x.a.xes * p ≤ 2 * p := mul_le_mul_of_nonneg_right h2 hp.le
      rw [add_mul]
      omega
    · exact hx.b.valE
  refine Wp.bind (mapLoop_wp ho k inv hn hu) ?_
  rintro P ⟨y, h, hP, -, hy, hs, hz⟩
  refine Wp.bind (chooseY_wp hP hy hs hz) ?_
  rintro Q ⟨w, h', -, hL, hQ⟩
  refine (multiply_cofactor_wp (hQ.mono (by norm_num))).mono fun r hr => ?_
  exact ⟨_, ⟨k, w, h', hn, hu, hL, rfl⟩, hr⟩

theorem map_to_g2_total {re im : List UInt8} (hr : 48 ≤ re.length) (hi : 48 ≤ im.length) :
    Wp (utils.map_to_g2 re im) fun P => ∃ g,
      MapsTo ⟨(beNat (re.take 48) : Fp), (beNat (im.take 48) : Fp)⟩ g ∧ ECP2.Ok P 32 g := by
  classical
  have h := exists_usable ⟨(beNat (re.take 48) : Fp), (beNat (im.take 48) : Fp)⟩
  exact map_to_g2_wp hr hi (fun j hj => Nat.find_min h hj) (Nat.find_spec h)

theorem beNat_zeros (n : Nat) (l : List UInt8) : beNat (List.replicate n 0 ++ l) = beNat l := by
  have : beNat (List.replicate n 0) = 0 := by
    induction n with
    | zero => rfl
    | succ n ih => rw [List.replicate_succ, beNat_cons, ih]; simp
  rw [beNat_append, this, mul_zero, zero_add]

theorem be64_eq (d : UInt64) : utils.be64 d = toBE 8 d.toNat := by
  have h : ∀ i, i < 8 → (d >>> (8 * (7 - i)).toUInt64).toUInt8 = UInt8.ofNat (d.toNat / 256 ^ (7 - i) % 256) := by
    intro i hi
    apply UInt8.toNat_inj.1
    have h8 : (8 * (7 - i)).toUInt64.toNat = 8 * (7 - i) := by
      show (UInt64.ofNat _).toNat = _
      rw [UInt64.toNat_ofNat']
      omega
    rw [UInt64.toNat_toUInt8, UInt64.toNat_shiftRight, h8, Nat.shiftRight_eq_div_pow, UInt8.toNat_ofNat',
      Nat.mod_mod, Nat.mod_eq_of_lt (a := 8 * (7 - i)) (by omega), pow_mul]
    norm_num
  simp only [utils.be64, List.range, List.range.loop, List.map_cons, List.map_nil]
  rw [h 0 (by norm_num), h 1 (by norm_num), h 2 (by norm_num), h 3 (by norm_num), h 4 (by norm_num),
    h 5 (by norm_num), h 6 (by norm_num), h 7 (by norm_num)]
  simp only [toBE, List.nil_append, List.cons_append, Nat.div_div_eq_div_mul]
  norm_num

theorem hash_on_g2_wp (H : Keccak) (msg : List UInt8) (d : UInt64) :
    Wp (utils.hash_on_g2 H msg d) fun P => ∃ g,
      MapsTo (hashX (fun m => (H m).toList) msg d.toNat) g ∧ ECP2.Ok P 32 g := by
  unfold utils.hash_on_g2
  rw [be64_eq]
  have l : ∀ v : Vector UInt8 32, (List.replicate 16 0 ++ v.toList).length = 48 := by simp
  have h := map_to_g2_total (l (H (msg ++ toBE 8 d.toNat ++ [1]))).ge (l (H (msg ++ toBE 8 d.toNat ++ [2]))).ge
  rw [List.take_of_length_le (l _).le, List.take_of_length_le (l _).le, beNat_zeros, beNat_zeros] at h
  exact h

end Amcl
