import Verif.Proof.B383.Fp2
/-!
# `FP2::sqrt`

It answers `true` exactly for squares whose real part is a square in `Fp` when the imaginary part
vanishes, and then returns a root.
-/

set_option exponentiation.threshold 2000

namespace Amcl.B383

open Spec Spec.B383 QuadraticAlgebra

namespace FP2

theorem neg_sq_nonsquare {t : Fp} (ht : t ≠ 0) : ¬ IsSquare (-(t * t)) := by
  rintro ⟨s, hs⟩
  apply neg_one_nonsquare
  refine ⟨s * t⁻¹, ?_⟩
  have h1 : t * t⁻¹ = 1 := mul_inv_cancel₀ ht
  linear_combination (t * t⁻¹ + 1) * h1 + (t⁻¹ * t⁻¹) * hs

/-- What the real part of a root satisfies. -/
theorem root_of_half {v : Fp2} {n s : Fp} (hn : n * n = v.re * v.re + v.im * v.im)
    (hs : s * s = (v.re + n) / 2) (h0 : s ≠ 0) :
    (⟨s, v.im * (s + s)⁻¹⟩ : Fp2) * ⟨s, v.im * (s + s)⁻¹⟩ = v := by
  have h2 := FP.two_ne
  have hi : (s + s)⁻¹ = (2 * s)⁻¹ := by rw [two_mul]
  have e1 : 2 * s * (2 * s)⁻¹ = 1 := mul_inv_cancel₀ (mul_ne_zero h2 h0)
  have e2 : 2 * (s * s) = v.re + n := by rw [hs]; field_simp
  generalize (2 * s)⁻¹ = t at *
  rw [hi]
  have hb : s * (v.im * t) * 2 = v.im := by linear_combination v.im * e1
  ext
  · rw [re_mul]
    dsimp only
    apply mul_left_cancel₀ (mul_ne_zero h2 (mul_ne_zero h0 h0))
    apply mul_left_cancel₀ h2
    linear_combination (2 * (s * s) + n + v.re - 2 * v.re) * e2 + hn - (s * (v.im * t) * 2 + v.im) * hb
  · rw [im_mul]
    dsimp only
    linear_combination hb

theorem sq_norm {w : Fp2} : (w.re * w.re + w.im * w.im) * (w.re * w.re + w.im * w.im) =
    (w * w).re * (w * w).re + (w * w).im * (w * w).im := by
  rw [re_mul, im_mul]; ring

theorem norm_zero {v : Fp2} (h : v.re * v.re + v.im * v.im = 0) : v = 0 := by
  by_cases hb : v.im = 0
  · rw [hb, mul_zero, add_zero] at h
    ext
    · exact mul_self_eq_zero.1 h
    · exact hb
  · exact absurd ⟨v.re, by linear_combination -h⟩ (neg_sq_nonsquare hb)

/-- A product with the canonical 0 is the number 0. -/
theorem mul_zero_wp {f b : FP} {w : Fp} (hf : FP.Can f 0) (hb : FP.Can b w) :
    Wp (f.mul b) fun r => r.x.val = 0 := by
  unfold FP.mul
  have e0 := hf.zero_iff.2 rfl
  rw [hf.xes, hb.xes, i64_eq (by norm_num) (by norm_num), Option.bind_eq_bind, Option.bind_some]
  unfold FP.reduceIf
  rw [if_neg (by norm_num [FEXCESS])]
  refine Wp.bind (R := fun g => g = f) (Wp.pure rfl) ?_
  rintro _ rfl
  refine Wp.bind (BIG.mul_wp (hf.ok.lim.mono (by norm_num)) (hb.ok.lim.mono (by norm_num))
    (by rw [e0, zero_mul]; norm_num)) ?_
  rintro d ⟨nd, vd⟩
  rw [e0, zero_mul] at vd
  have hp := p_pos
  refine Wp.bind (FP.modulo_zero_wp (nd.lim (B := 2 ^ 62) (by omega) (by omega) (by norm_num))
    (by omega) (by rw [vd]; positivity)) fun r hr => ?_
  exact Wp.ret (hr.2 vd)

theorem sqrtTail_wp {f : FP2} {w : FP} {v : Fp2} {n : Fp} {E : Int} (hf : Can f v)
    (hw : FP.Ok w 1 E ((v.re + n) / 2)) (hE : E ≤ 2 ^ 23)
    (hn : n * n = v.re * v.re + v.im * v.im) (h0 : (v.re + n) / 2 ≠ 0) (hs : IsSquare ((v.re + n) / 2)) :
    Wp (sqrt.sqrtTail f w) fun r => r.1 = true ∧ ∃ u, Ok r.2 1 2 u ∧ u * u = v ∧ IsSquare u.re ∧
      (u.im = 0 → r.2.b.x.val = 0) := by
  unfold sqrt.sqrtTail
  refine Wp.bind (FP.sqrt_wp hw (by omega)) ?_
  rintro ⟨s, w'⟩ ⟨cs, -⟩
  dsimp only at cs ⊢
  have hq := FP.sqrt_pow hs
  have hqs : IsSquare (((v.re + n) / 2) ^ ((p + 1) / 4)) := hs.pow _
  generalize ((v.re + n) / 2) ^ ((p + 1) / 4) = q at cs hq hqs
  refine Wp.bind (FP.dbl_wp cs.ok (by norm_num)) fun d hd => ?_
  refine Wp.bind (FP.inverse_wp hd (by norm_num)) fun t ht => ?_
  have hz : Wp (f.b.mul t) fun r => v.im = 0 → r.x.val = 0 := by
    by_cases hv : v.im = 0
    · exact (mul_zero_wp (hv ▸ hf.b) ht).mono fun _ h _ => h
    · exact (FP.mul_wp hf.b.ok ht.ok (by norm_num)).mono fun _ _ h => absurd h hv
  refine Wp.bind ((FP.mul_wp hf.b.ok ht.ok (by norm_num)).and hz) ?_
  rintro b ⟨hb, hbz⟩
  rw [sq] at hq
  have hq0 : q ≠ 0 := by
    rintro rfl
    rw [mul_zero] at hq
    exact h0 hq.symm
  refine Wp.ret ⟨rfl, ⟨q, v.im * (q + q)⁻¹⟩, ⟨cs.ok.mono (by norm_num), hb⟩, root_of_half hn hq hq0,
    hqs, fun h => hbz ?_⟩
  rcases mul_eq_zero.1 h with h | h
  · exact h
  · rw [inv_eq_zero, ← two_mul] at h
    exact absurd h (mul_ne_zero FP.two_ne hq0)

theorem sqrt_wp {f : FP2} {L E : Int} {v : Fp2} (hf : Ok f L E v) (h : L ≤ 16 ∧ E ≤ 2 ^ 25) :
    Wp (sqrt f) fun r => (r.1 = true ↔ IsSquare v ∧ (v.im = 0 → IsSquare v.re)) ∧
      (r.1 = true → ∃ w, Ok r.2 1 2 w ∧ w * w = v ∧ IsSquare w.re ∧ (w.im = 0 → r.2.b.x.val = 0)) := by
  unfold sqrt
  refine Wp.bind (iszilch_wp hf h) ?_
  clear hf
  rintro ⟨z, g⟩ ⟨hz, hg⟩
  dsimp only at hz hg ⊢
  split
  · next h =>
    have hv := hz.1 h
    subst hv
    refine Wp.ret ⟨?_, fun _ => ⟨0, hg.ok.mono (by norm_num), by simp, ⟨0, by simp⟩,
      fun _ => hg.b.zero_iff.2 rfl⟩⟩
    simp
  · next h =>
    have hv : v ≠ 0 := fun e => h (hz.2 e)
    refine Wp.bind (FP.sqr_wp hg.b.ok (by norm_num)) fun w1 h1 => ?_
    refine Wp.bind (FP.sqr_wp hg.a.ok (by norm_num)) fun w2 h2 => ?_
    refine Wp.bind (FP.add_wp h1 h2 (by norm_num)) fun w3 h3 => ?_
    have hN0 : v.im * v.im + v.re * v.re ≠ 0 := by
      intro e
      exact hv (norm_zero (by rw [add_comm]; exact e))
    refine Wp.bind (FP.jacobi_one h3 (by norm_num)) fun j hj => ?_
    split
    · next hj1 =>
      refine Wp.ret ⟨⟨fun e => (by cases e), ?_⟩, fun e => (by cases e)⟩
      rintro ⟨⟨w, rfl⟩, -⟩
      refine absurd (hj.2 ⟨hN0, w.re * w.re + w.im * w.im, ?_⟩) hj1
      rw [sq_norm]; ring
    · next hj1 =>
      have hsq := (hj.1 (not_not.1 hj1)).2
      refine Wp.bind (FP.sqrt_wp h3 (by norm_num)) ?_
      rintro ⟨m, m'⟩ ⟨cm, -⟩
      dsimp only at cm ⊢
      have hq := FP.sqrt_pow hsq
      have hqs : IsSquare ((v.im * v.im + v.re * v.re) ^ ((p + 1) / 4)) := hsq.pow _
      generalize (v.im * v.im + v.re * v.re) ^ ((p + 1) / 4) = n at cm hq hqs
      rw [sq, add_comm] at hq
      refine Wp.bind (FP.add_wp hg.a.ok cm.ok (by norm_num)) fun a ha => ?_
      refine Wp.bind (FP.norm_wp ha (by norm_num)) ?_
      rintro a' ⟨ha', -, -⟩
      refine Wp.bind (FP.div2_wp ha' (by norm_num)) fun c hc => ?_
      refine Wp.bind (FP.jacobi_one hc (by norm_num)) fun k hk => ?_
      have real : ∀ w : Fp2, w * w = v → v.im = 0 → IsSquare v.re → n = v.re := by
        intro w hw hi hr
        rw [hi, mul_zero, add_zero] at hq
        rcases mul_self_eq_mul_self_iff.1 hq with e | e
        · exact e
        · exfalso
          obtain ⟨t, ht⟩ := hr
          have ht0 : t ≠ 0 := by
            rintro rfl
            apply hv
            ext
            · rw [ht]; simp
            · exact hi
          refine neg_sq_nonsquare ht0 ?_
          rw [← ht, ← e]; exact hqs
      have h2 := FP.two_ne
      have sub1 : ∀ w : Fp2, w * w = v → (n = w.re * w.re + w.im * w.im) ∨
          (n = -(w.re * w.re + w.im * w.im)) := by
        intro w hw
        rw [← hw, ← sq_norm] at hq
        exact mul_self_eq_mul_self_iff.1 hq
      split
      · next hk1 =>
        obtain ⟨k0, k1⟩ := hk.1 hk1
        refine (sqrtTail_wp hg hc (by norm_num) hq k0 k1).mono ?_
        rintro ⟨r, u⟩ ⟨e, w, hw, ew, ws, wz⟩
        dsimp only at e hw ⊢
        refine ⟨⟨fun _ => ⟨⟨w, ew.symm⟩, ?_⟩, fun _ => e⟩, fun _ => ⟨w, hw, ew, ws, wz⟩⟩
        intro hi
        rw [hi, mul_zero, add_zero] at hq
        rcases mul_self_eq_mul_self_iff.1 hq with e | e
        · rw [← e]; exact hqs
        · rw [e] at k0; simp at k0
      · next hk1 =>
        refine Wp.bind (FP.sub_wp hg.a.ok cm.ok (by norm_num)) fun a ha => ?_
        refine Wp.bind (FP.norm_wp ha (by norm_num)) ?_
        rintro a' ⟨ha', -, -⟩
        refine Wp.bind (FP.div2_wp ha' (by norm_num)) fun c hc => ?_
        refine Wp.bind (FP.jacobi_one hc (by norm_num)) fun k hk' => ?_
        split
        · next hk2 =>
          obtain ⟨k0, k1⟩ := hk'.1 hk2
          rw [sub_eq_add_neg] at hc k0 k1
          refine (sqrtTail_wp hg hc (by norm_num) (by rw [neg_mul_neg]; exact hq) k0 k1).mono ?_
          rintro ⟨r, u⟩ ⟨e, w, hw, ew, ws, wz⟩
          dsimp only at e hw ⊢
          refine ⟨⟨fun _ => ⟨⟨w, ew.symm⟩, ?_⟩, fun _ => e⟩, fun _ => ⟨w, hw, ew, ws, wz⟩⟩
          intro hi
          rw [hi, mul_zero, add_zero] at hq
          rcases mul_self_eq_mul_self_iff.1 hq with e | e
          · rw [e] at k0; simp at k0
          · rw [e, neg_neg, ← two_mul, mul_div_cancel_left₀ _ h2] at k1; exact k1
        · next hk2 =>
          refine Wp.ret ⟨⟨fun e => (by cases e), ?_⟩, fun e => (by cases e)⟩
          rintro ⟨⟨w, hw⟩, hr⟩
          exfalso
          have hre : v.re = w.re * w.re - w.im * w.im := by rw [hw, re_mul]; ring
          have him : v.im = 2 * (w.re * w.im) := by rw [hw, im_mul]; ring
          have key : w.re = 0 → False := by
            intro h0
            have hi : v.im = 0 := by rw [him, h0]; ring
            have hn := real w hw.symm hi (hr hi)
            refine hk1 (hk.2 ⟨?_, ?_⟩)
            · rw [hn, ← two_mul, mul_div_cancel_left₀ _ h2]
              intro h0'
              apply hv
              ext
              · exact h0'
              · exact hi
            · rw [hn, ← two_mul, mul_div_cancel_left₀ _ h2]
              exact hr hi
          have key2 : w.re * w.re ≠ 0 := fun e => key (mul_self_eq_zero.1 e)
          rcases sub1 w hw.symm with e | e
          · have e' : (v.re + n) / 2 = w.re * w.re := by rw [hre, e]; field_simp; ring
            exact hk1 (hk.2 ⟨by rw [e']; exact key2, by rw [e']; exact ⟨_, rfl⟩⟩)
          · have e' : (v.re - n) / 2 = w.re * w.re := by rw [hre, e]; field_simp; ring
            exact hk2 (hk'.2 ⟨by rw [e']; exact key2, by rw [e']; exact ⟨_, rfl⟩⟩)

/-- A real non-square is a square in `Fp2` that `sqrt` rejects; non-squares exist. -/
example : IsSquare (-1 : Fp2) ∧ ¬ IsSquare (-1 : Fp2).re :=
  ⟨⟨i, by rw [← sq, i_sq]⟩, by simpa using neg_one_nonsquare⟩

end FP2

end Amcl.B383
