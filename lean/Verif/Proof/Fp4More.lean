import Verif.Proof.Fp4
import Verif.Proof.Fp2Sqrt
import Verif.Proof.BigArith
import Verif.Model.Fp4More
/-!
# The remaining functions of `fp2.rs` and `fp4.rs`
-/

set_option exponentiation.threshold 2000

namespace Amcl

open Spec QuadraticAlgebra

namespace FP2

theorem one_add_i_ne : (1 + i : Fp2) ≠ 0 := by
  intro h
  have := congrArg re h
  simp [i, re_one] at this

theorem div_ip_val (v : Fp2) : (⟨v.re + v.im, v.im - v.re⟩ : Fp2) = 2 * v / (1 + i) := by
  rw [eq_div_iff one_add_i_ne]
  ext
  · simp [i, re_one, im_one]; ring
  · simp [i, re_one, im_one]; ring

theorem div_ip2_wp {f : FP2} {L E : Int} {v : Fp2} (hf : Ok f L E v) (h : L ≤ 16 ∧ 1 ≤ E ∧ E ≤ 2 ^ 22) :
    Wp (div_ip2 f) fun r => Ok r 1 (3 * E) (2 * v / (1 + i)) := by
  unfold div_ip2
  refine Wp.bind (norm_wp hf (by omega)) ?_
  rintro g ⟨hg, -, -⟩
  refine Wp.bind (FP.add_wp hg.a hg.b (by omega)) fun a ha => ?_
  refine Wp.bind (FP.sub_wp hg.b hg.a (by omega)) fun b hb => ?_
  rw [← div_ip_val]
  refine (norm_wp (L := 3) (E := 3 * E) ⟨ha.mono (by omega), hb.mono (by omega)⟩ (by omega)).mono fun r hr => hr.1

theorem div_ip_wp {f : FP2} {L E : Int} {v : Fp2} (hf : Ok f L E v) (h : L ≤ 16 ∧ 1 ≤ E ∧ E ≤ 2 ^ 22) :
    Wp (div_ip f) fun r => Ok r 1 (3 * E) (v / (1 + i)) := by
  unfold div_ip
  refine Wp.bind (div_ip2_wp hf h) fun t ht => ?_
  refine (div2_wp ht (by omega)).mono fun r hr => hr.congr ?_
  have := two_ne
  field_simp

theorem sqrtTail_true {f g : FP2} {w : FP} {b : Bool} (h : sqrt.sqrtTail f w = some (b, g)) : b = true := by
  unfold sqrt.sqrtTail at h
  simp only [Option.bind_eq_bind, Option.bind_eq_some_iff] at h
  obtain ⟨_, -, _, -, _, -, _, -, h⟩ := h
  cases h
  rfl

/-- What `sqrt` leaves when it fails. -/
theorem sqrt_false {f g : FP2} (h : sqrt f = some (false, g)) : g = new := by
  unfold sqrt at h
  obtain ⟨⟨z, f'⟩, -, h⟩ := Option.bind_eq_some_iff.1 h
  dsimp only at h
  split at h
  · cases h
  obtain ⟨_, -, h⟩ := Option.bind_eq_some_iff.1 h
  obtain ⟨_, -, h⟩ := Option.bind_eq_some_iff.1 h
  obtain ⟨_, -, h⟩ := Option.bind_eq_some_iff.1 h
  obtain ⟨_, -, h⟩ := Option.bind_eq_some_iff.1 h
  split at h
  · cases h; rfl
  obtain ⟨_, -, h⟩ := Option.bind_eq_some_iff.1 h
  obtain ⟨_, -, h⟩ := Option.bind_eq_some_iff.1 h
  obtain ⟨_, -, h⟩ := Option.bind_eq_some_iff.1 h
  obtain ⟨_, -, h⟩ := Option.bind_eq_some_iff.1 h
  obtain ⟨_, -, h⟩ := Option.bind_eq_some_iff.1 h
  split at h
  · exact absurd (sqrtTail_true h) (by simp)
  obtain ⟨_, -, h⟩ := Option.bind_eq_some_iff.1 h
  obtain ⟨_, -, h⟩ := Option.bind_eq_some_iff.1 h
  obtain ⟨_, -, h⟩ := Option.bind_eq_some_iff.1 h
  obtain ⟨_, -, h⟩ := Option.bind_eq_some_iff.1 h
  split at h
  · exact absurd (sqrtTail_true h) (by simp)
  · cases h; rfl

/-- Root of 0. -/
theorem sqrt_new : Wp (sqrt new) fun r => r.1 = true ∧ Ok r.2 1 2 0 := by
  refine (sqrt_wp new_can.ok (by norm_num)).mono ?_
  rintro ⟨b, g⟩ ⟨h1, h2⟩
  have hb : b = true := h1.2 ⟨⟨0, by simp⟩, fun _ => ⟨0, by simp⟩⟩
  obtain ⟨w, hw, e, -⟩ := h2 hb
  rw [mul_self_eq_zero] at e
  exact ⟨hb, e ▸ hw⟩

end FP2

namespace FP4

theorem iszilch_wp {f : FP4} {L E : Int} {v : Fp4} (hf : Ok f L E v) (h : L ≤ 16 ∧ E ≤ 2 ^ 27) :
    Wp (iszilch f) fun r => (r.1 = true ↔ v = 0) ∧ Can r.2 v := by
  unfold iszilch
  refine Wp.bind (reduce_wp hf h) fun g hg => ?_
  refine Wp.bind (FP2.iszilch_wp hg.a.ok (by norm_num)) ?_
  rintro ⟨za, a⟩ ⟨ha, ca⟩
  dsimp only at ha ca ⊢
  split
  · next hz =>
    refine Wp.bind (FP2.iszilch_wp hg.b.ok (by norm_num)) ?_
    rintro ⟨zb, b⟩ ⟨hb, cb⟩
    dsimp only at hb cb ⊢
    refine Wp.ret ⟨?_, ca, cb⟩
    dsimp only
    rw [hb]
    exact ⟨fun h => QuadraticAlgebra.ext (ha.1 hz) h, fun h => by rw [h]; rfl⟩
  · next hz =>
    exact Wp.ret ⟨⟨fun h => (by cases h), fun h => absurd (ha.2 (by rw [h]; rfl)) hz⟩, ca, hg.b⟩

theorem isreal_wp {f : FP4} {L E : Int} {v : Fp4} (hf : Ok f L E v) (h : 1 ≤ L ∧ L ≤ 16 ∧ 1 ≤ E ∧ E ≤ 2 ^ 27) :
    Wp (isreal f) fun r => (r.1 = true ↔ v.im = 0) ∧ Ok r.2 L E v := by
  unfold isreal
  refine Wp.bind (FP2.iszilch_wp hf.b (by omega)) ?_
  rintro ⟨zb, b⟩ ⟨hb, cb⟩
  exact Wp.ret ⟨hb, hf.a, cb.ok.mono (by omega)⟩

theorem isunity_wp {f : FP4} {L E : Int} {v : Fp4} (hf : Ok f L E v) (h : 1 ≤ L ∧ L ≤ 16 ∧ 1 ≤ E ∧ E ≤ 2 ^ 27) :
    Wp (isunity f) fun r => (r.1 = true ↔ v = 1) ∧ Ok r.2 L E v := by
  unfold isunity
  refine Wp.bind (FP2.new_int_wp (a := 1) (by norm_num) (by norm_num)) fun o ho => ?_
  refine Wp.bind (FP2.equals_wp hf.a ho (by omega)) ?_
  rintro ⟨ea, a, o'⟩ ⟨ha, ca, -, -⟩
  dsimp only at ha ca ⊢
  rw [Int.cast_one] at ha
  split
  · next hz =>
    refine Wp.bind (FP2.iszilch_wp hf.b (by omega)) ?_
    rintro ⟨zb, b⟩ ⟨hb, cb⟩
    dsimp only at hb cb ⊢
    refine Wp.ret ⟨?_, ca, cb.ok.mono (by omega)⟩
    dsimp only
    rw [hb]
    exact ⟨fun h => QuadraticAlgebra.ext (ha.1 hz) h, fun h => by rw [h]; rfl⟩
  · next hz =>
    exact Wp.ret ⟨⟨fun h => (by cases h), fun h => absurd (ha.2 (by rw [h]; rfl)) hz⟩, ca, hf.b⟩

theorem padd_wp {f : FP4} {x : FP2} {L L' E E' : Int} {v : Fp4} {w : Fp2} (hf : Ok f L E v) (hx : FP2.Ok x L' E' w)
    (h : 1 ≤ L ∧ 1 ≤ L' ∧ L + L' ≤ 16 ∧ E + E' ≤ 2 ^ 25 ∧ 0 ≤ E') :
    Wp (padd f x) fun r => Ok r (L + L') (E + E') (v + algebraMap Fp2 Fp4 w) := by
  unfold padd
  refine Wp.bind (FP2.add_wp hf.a hx (by omega)) fun a ha => ?_
  exact Wp.ret ⟨ha.congr (by simp), (hf.b.mono (by omega)).congr (by simp)⟩

theorem rsub_wp {f b : FP4} {L L' E E' : Int} {v w : Fp4} (hf : Ok f L E v) (hb : Ok b L' E' w)
    (h : L ≤ 16 ∧ 1 ≤ L' ∧ L' + 1 ≤ 16 ∧ 1 ≤ E ∧ E' + 11 * E ≤ 2 ^ 24 ∧ 1 ≤ E') :
    Wp (rsub f b) fun r => Ok r (L' + 1) (E' + 11 * E) (w - v) := by
  unfold rsub
  refine Wp.bind (neg_wp hf (by omega)) fun n hn => ?_
  rw [sub_eq_add_neg, add_comm w, add_comm L', add_comm E']
  exact add_wp hn hb (by omega)

theorem qmul_wp {f : FP4} {s : FP} {L L' E E' : Int} {v : Fp4} {w : Fp} (hf : Ok f L E v) (hs : FP.Ok s L' E' w)
    (h : 1 ≤ L ∧ L ≤ 8 ∧ L' ≤ 8 ∧ E ≤ 2 ^ 25 ∧ E' ≤ 2 ^ 25) :
    Wp (qmul f s) fun r => Ok r 1 2 (v * algebraMap Fp2 Fp4 (algebraMap Fp Fp2 w)) := by
  unfold qmul
  refine Wp.bind (FP2.pmul_wp hf.a hs h) fun a ha => ?_
  refine Wp.bind (FP2.pmul_wp hf.b hs h) fun b hb => ?_
  exact Wp.ret ⟨ha.congr (by simp), hb.congr (by simp)⟩

theorem two_ne : (2 : Fp4) ≠ 0 := by
  intro h
  have := congrArg QuadraticAlgebra.re h
  simp at this
  exact FP2.two_ne this

theorem half_eq (v : Fp4) : v / 2 = ⟨v.re / 2, v.im / 2⟩ := by
  have h2 := FP2.two_ne
  rw [div_eq_iff two_ne]
  ext1
  · simp [div_mul_cancel₀ _ h2]
  · simp [div_mul_cancel₀ _ h2]

theorem div2_wp {f : FP4} {E : Int} {v : Fp4} (hf : Ok f 1 E v) (h : E ≤ 2 ^ 24) :
    Wp (div2 f) fun r => Ok r 1 E (v / 2) := by
  unfold div2
  refine Wp.bind (FP2.div2_wp hf.a h) fun x hx => ?_
  refine Wp.bind (FP2.div2_wp hf.b h) fun y hy => ?_
  rw [half_eq]
  exact Wp.ret ⟨hx, hy⟩

theorem V_ne : V ≠ 0 := by
  intro h
  have := congrArg im h
  simp [V] at this

theorem div_V (v : Fp4) : v / V = ⟨v.im, v.re / (1 + i)⟩ := by
  have h2 := FP2.one_add_i_ne
  rw [div_eq_iff V_ne]
  ext1
  · simp [V]
    field_simp
  · simp [V]

theorem div_i_wp {f : FP4} {L E : Int} {v : Fp4} (hf : Ok f L E v) (h : 1 ≤ L ∧ L ≤ 16 ∧ 1 ≤ E ∧ E ≤ 2 ^ 22) :
    Wp (div_i f) fun r => Ok r L (3 * E) (v / V) := by
  unfold div_i
  refine Wp.bind (FP2.div_ip_wp hf.a (by omega)) fun u hu => ?_
  rw [div_V]
  exact Wp.ret ⟨hf.b.mono (by omega), hu.mono (by omega)⟩

theorem div_2i_wp {f : FP4} {L E : Int} {v : Fp4} (hf : Ok f L E v) (h : 1 ≤ L ∧ L ≤ 8 ∧ 1 ≤ E ∧ E ≤ 2 ^ 22) :
    Wp (div_2i f) fun r => Ok r 1 (3 * E) (2 * v / V) := by
  unfold div_2i
  refine Wp.bind (FP2.div_ip2_wp hf.a (by omega)) fun u hu => ?_
  refine Wp.bind (FP2.dbl_wp hf.b (by omega)) fun d hd => ?_
  refine Wp.bind (FP2.norm_wp hd (by omega)) ?_
  rintro d' ⟨hd', -, -⟩
  rw [div_V]
  refine Wp.ret ⟨(hd'.mono (by omega)).congr ?_, hu.congr ?_⟩
  · simp [two_mul]
  · simp [two_mul]

/-! ### Powers -/

theorem powMul_wp {r w : FP4} {a b : Fp4} {z : Int} (hr : Ok r 1 63 a) (hw : Ok w 1 (2 ^ 20) b) (hz : z = 0 ∨ z = 1) :
    Wp (powMul z r w) fun t => Ok t 1 63 (a * b ^ z.toNat) := by
  unfold powMul
  rcases hz with rfl | rfl
  · rw [if_neg (by norm_num)]
    exact Wp.ret (hr.congr (by simp))
  · rw [if_pos rfl]
    exact (mul_wp hr hw (by norm_num)).mono fun t ht => (ht.mono (by norm_num)).congr (by simp)

theorem powLoop_wp (j : Nat) : ∀ (r : FP4) (z : BIG) (w : FP4) (a b : Fp4), Ok r 1 63 a → z.Nrm → 0 ≤ z.val → z.val < 2 ^ (j + 1) →
    Ok w 1 (2 ^ 20) b → Wp (powLoop r z w) fun t => Ok t 1 63 (a * b ^ z.val.toNat) := by
  induction j with
  | zero =>
    intro r z w a b hr hz z0 z1 hw
    rw [powLoop, BIG.parity_spec hz]
    refine Wp.bind (BIG.fshr_wp hz (by norm_num)) ?_
    rintro z' ⟨nz, vz⟩
    refine Wp.bind (powMul_wp hr hw (by omega)) fun t ht => ?_
    rw [if_pos (by rw [BIG.iszilch_spec nz]; omega)]
    exact Wp.ret (by rwa [show z.val % 2 = z.val by omega] at ht)
  | succ j ih =>
    intro r z w a b hr hz z0 z1 hw
    rw [powLoop, BIG.parity_spec hz]
    refine Wp.bind (BIG.fshr_wp hz (by norm_num)) ?_
    rintro z' ⟨nz, vz⟩
    refine Wp.bind (powMul_wp hr hw (by omega)) fun t ht => ?_
    split
    · next h =>
      rw [BIG.iszilch_spec nz] at h
      exact Wp.ret (by rwa [show z.val % 2 = z.val by omega] at ht)
    · refine Wp.bind (sqr_wp hw (by norm_num)) fun s hs => ?_
      refine (ih t z' s _ _ ht nz (by omega) (by rw [pow_succ] at z1; omega) (hs.mono (by norm_num))).mono fun q hq => hq.congr ?_
      have e : z.val.toNat = (z.val % 2).toNat + 2 * z'.val.toNat := by omega
      rw [e, pow_add, pow_mul, ← mul_assoc, ← pow_two]

theorem pow_wp {f : FP4} {L E : Int} {v : Fp4} {e : BIG} (hf : Ok f L E v) (h : L ≤ 16 ∧ E ≤ 2 ^ 20) (hL : 1 ≤ L) (he : e.Lim (2 ^ 62))
    (e0 : 0 ≤ e.val) : Wp (pow f e) fun r => Can r (v ^ e.val.toNat) := by
  unfold pow
  refine Wp.bind (norm_wp hf (by omega)) fun w hw => ?_
  refine Wp.bind (BIG.norm_wp he) ?_
  rintro z ⟨nz, vz⟩
  refine Wp.bind (new_int_wp (a := 1) (by norm_num) (by norm_num)) fun r hr => ?_
  have hb : e.val < 2 ^ (411 + 1) := by
    obtain ⟨l0, l1, l2, l3, l4, l5, l6⟩ := he
    simp only [BIG.val]; omega
  refine Wp.bind (powLoop_wp 411 r z w _ _ (hr.mono (by norm_num)) nz (by omega) (by omega) (hw.mono (by omega))) fun t ht => ?_
  refine (reduce_wp ht (by norm_num)).mono fun q hq => ?_
  rwa [Int.cast_one, one_mul, vz] at hq

/-! ### Square roots -/

/-- What `FP2::sqrt` accepts. -/
def Acc (v : Fp2) : Prop := IsSquare v ∧ (v.im = 0 → IsSquare v.re)

theorem root_of_half {v : Fp4} {n s : Fp2} (hn : n * n = v.re * v.re - (1 + i) * (v.im * v.im))
    (hs : s * s = (v.re + n) / 2) (h0 : s ≠ 0) :
    (⟨s, v.im * (s + s)⁻¹⟩ : Fp4) * ⟨s, v.im * (s + s)⁻¹⟩ = v := by
  have h2 := FP2.two_ne
  have hi : (s + s)⁻¹ = (2 * s)⁻¹ := by rw [two_mul]
  have e1 : 2 * s * (2 * s)⁻¹ = 1 := mul_inv_cancel₀ (mul_ne_zero h2 h0)
  have e2 : 2 * (s * s) = v.re + n := by rw [hs]; field_simp
  generalize (2 * s)⁻¹ = t at *
  rw [hi]
  have hb : s * (v.im * t) * 2 = v.im := by linear_combination v.im * e1
  ext1
  · rw [re_mul]
    dsimp only
    apply mul_left_cancel₀ (mul_ne_zero h2 (mul_ne_zero h0 h0))
    apply mul_left_cancel₀ h2
    linear_combination (2 * (s * s) + n + v.re - 2 * v.re) * e2 + hn + (1 + i) * (s * (v.im * t) * 2 + v.im) * hb
  · rw [im_mul]
    dsimp only
    linear_combination hb

theorem sqrtTail_wp {f : FP4} {a : FP2} {v : Fp4} {n w : Fp2} (hf : Can f v) (ha : FP2.Ok a 1 2 w)
    (hn : n * n = v.re * v.re - (1 + i) * (v.im * v.im)) (hw : w * w = (v.re + n) / 2) (h0 : w ≠ 0) :
    Wp (sqrtTail f a) fun r => r.1 = true ∧ ∃ u, Ok r.2 1 3 u ∧ u * u = v := by
  unfold sqrtTail
  refine Wp.bind (FP2.add_wp ha ha (by norm_num)) fun s hs => ?_
  refine Wp.bind (FP2.inverse_wp hs (by norm_num)) fun s' hs' => ?_
  refine Wp.bind (FP2.mul_wp hf.b.ok hs' (by norm_num)) fun t ht => ?_
  exact Wp.ret ⟨rfl, ⟨w, v.im * (w + w)⁻¹⟩, ⟨ha.mono (by norm_num), ht⟩, root_of_half hn hw h0⟩

/-- `sqrt` on elements of `Fp2`: it always says `true`, but the result is 0 if `FP2::sqrt` fails. -/
theorem sqrt_real {f : FP4} {L E : Int} {v : Fp4} (hf : Ok f L E v) (h : L ≤ 16 ∧ E ≤ 2 ^ 27) (hv : v.im = 0) :
    Wp (sqrt f) fun r => r.1 = true ∧ (Acc v.re → ∃ u, Ok r.2 1 3 u ∧ u * u = v) ∧ (¬ Acc v.re → Ok r.2 1 3 0) := by
  unfold sqrt
  refine Wp.bind (iszilch_wp hf h) ?_
  rintro ⟨z, g⟩ ⟨hz, hg⟩
  dsimp only at hz hg ⊢
  split
  · next h =>
    obtain rfl := hz.1 h
    exact Wp.ret ⟨rfl, fun _ => ⟨0, hg.ok.mono (by norm_num), by simp⟩, fun _ => hg.ok.mono (by norm_num)⟩
  refine Wp.bind (FP2.iszilch_wp hg.b.ok (by norm_num)) ?_
  rintro ⟨zs, s⟩ ⟨hzs, -⟩
  dsimp only at hzs ⊢
  rw [if_pos (hzs.2 hv)]
  obtain ⟨⟨b, t⟩, eq, h1, h2⟩ := FP2.sqrt_wp hg.a.ok (by norm_num)
  dsimp only at h1 h2
  refine Wp.bind (R := fun c => c = (b, t)) ⟨_, eq, rfl⟩ ?_
  rintro _ rfl
  dsimp only
  have new2 : ∀ E : Int, 1 ≤ E → FP2.Ok FP2.new 1 E 0 := fun E hE => FP2.new_can.ok.mono (by omega)
  split
  · next hb =>
    obtain ⟨w, hw, e, -⟩ := h2 hb
    refine Wp.ret ⟨rfl, fun _ => ⟨⟨w, 0⟩, ⟨hw.mono (by norm_num), new2 _ (by norm_num)⟩, ?_⟩, fun hn => absurd (h1.1 hb) hn⟩
    ext1
    · simp [e]
    · simp [hv]
  · next hb =>
    have hb' : b = false := by simpa using hb
    subst hb'
    obtain rfl := FP2.sqrt_false eq
    refine Wp.bind (FP2.div_ip_wp (new2 1 (by norm_num)) (by norm_num)) fun t ht => ?_
    rw [zero_div] at ht
    refine Wp.bind (FP2.sqrt_wp ht (by norm_num)) ?_
    rintro ⟨b', t'⟩ ⟨h1', h2'⟩
    dsimp only at h1' h2' ⊢
    have hb' : b' = true := h1'.2 ⟨⟨0, by simp⟩, fun _ => ⟨0, by simp⟩⟩
    obtain ⟨w, hw, e, -⟩ := h2' hb'
    rw [mul_self_eq_zero] at e
    subst e
    exact Wp.ret ⟨rfl, fun hA => absurd (h1.2 hA) hb, fun _ => ⟨new2 _ (by norm_num), hw.mono (by norm_num)⟩⟩

/-- `sqrt` outside `Fp2`. -/
theorem sqrt_wp {f : FP4} {L E : Int} {v : Fp4} (hf : Ok f L E v) (h : L ≤ 16 ∧ E ≤ 2 ^ 27) (hv : v.im ≠ 0) :
    Wp (sqrt f) fun r =>
      (r.1 = true → ∃ u, Ok r.2 1 3 u ∧ u * u = v) ∧
      (r.1 = true ↔ Acc (v.re * v.re - (1 + i) * (v.im * v.im)) ∧
        ∃ n, n * n = v.re * v.re - (1 + i) * (v.im * v.im) ∧ Acc ((v.re + n) / 2)) ∧
      (r.1 = false → Can r.2 v) := by
  unfold sqrt
  refine Wp.bind (iszilch_wp hf h) ?_
  rintro ⟨z, g⟩ ⟨hz, hg⟩
  dsimp only at hz hg ⊢
  rw [if_neg (fun h => hv (by rw [hz.1 h]; rfl))]
  refine Wp.bind (FP2.iszilch_wp hg.b.ok (by norm_num)) ?_
  rintro ⟨zs, s⟩ ⟨hzs, hs⟩
  dsimp only at hzs hs ⊢
  rw [if_neg (fun h => hv (hzs.1 h))]
  refine Wp.bind (FP2.sqr_wp hs.ok (by norm_num)) fun s1 h1 => ?_
  refine Wp.bind (FP2.sqr_wp hg.a.ok (by norm_num)) fun a1 ha1 => ?_
  refine Wp.bind (FP2.mul_ip_wp h1 (by norm_num)) fun s2 h2 => ?_
  refine Wp.bind (FP2.norm_wp h2 (by norm_num)) ?_
  rintro s3 ⟨h3, -, -⟩
  refine Wp.bind (FP2.sub_wp ha1 h3 (by norm_num)) fun a2 ha2 => ?_
  rw [mul_comm (v.im * v.im)] at ha2
  refine Wp.bind (FP2.sqrt_wp ha2 (by norm_num)) ?_
  rintro ⟨b, s4⟩ ⟨hb, h4⟩
  dsimp only at hb h4 ⊢
  by_cases hbt : b = true
  swap
  · rw [if_neg hbt]
    exact Wp.ret ⟨fun e => (by cases e), ⟨fun e => (by cases e), fun e => absurd (hb.2 e.1) hbt⟩, fun _ => hg⟩
  rw [if_pos hbt]
  obtain ⟨n, hn, en, -⟩ := h4 hbt
  have hN := hb.1 hbt
  have n0 : ∀ m : Fp2, m * m = v.re * v.re - (1 + i) * (v.im * v.im) → (v.re + m) / 2 ≠ 0 := by
    intro m hm h0
    rw [div_eq_zero_iff] at h0
    rcases h0 with h0 | h0
    · have : (1 + i) * (v.im * v.im) = 0 := by linear_combination (v.re - m) * h0 + hm
      rcases mul_eq_zero.1 this with h' | h'
      · exact FP2.one_add_i_ne h'
      · exact hv (mul_self_eq_zero.1 h')
    · exact FP2.two_ne h0
  have fin : ∀ (a : FP2) (m w : Fp2), m * m = v.re * v.re - (1 + i) * (v.im * v.im) → FP2.Ok a 1 2 w → w * w = (v.re + m) / 2 →
      Acc ((v.re + m) / 2) → Wp (sqrtTail g a) fun r =>
      (r.1 = true → ∃ u, Ok r.2 1 3 u ∧ u * u = v) ∧
      (r.1 = true ↔ Acc (v.re * v.re - (1 + i) * (v.im * v.im)) ∧
        ∃ n, n * n = v.re * v.re - (1 + i) * (v.im * v.im) ∧ Acc ((v.re + n) / 2)) ∧
      (r.1 = false → Can r.2 v) := by
    intro a m w hm ha hw hA
    refine (sqrtTail_wp hg ha hm hw (fun e => n0 m hm (by rw [← hw, e, mul_zero]))).mono ?_
    rintro ⟨b, q⟩ ⟨e1, h1⟩
    dsimp only at e1 h1 ⊢
    exact ⟨fun _ => h1, ⟨fun _ => ⟨hN, m, hm, hA⟩, fun _ => e1⟩, fun e => absurd (e.symm.trans e1) (by simp)⟩
  refine Wp.bind (FP2.add_wp hg.a.ok hn (by norm_num)) fun a3 h5 => ?_
  refine Wp.bind (FP2.norm_wp h5 (by norm_num)) ?_
  rintro a4 ⟨h6, -, -⟩
  refine Wp.bind (FP2.div2_wp h6 (by norm_num)) fun a5 h7 => ?_
  refine Wp.bind (FP2.sqrt_wp h7 (by norm_num)) ?_
  rintro ⟨b', a6⟩ ⟨hb', h8⟩
  dsimp only at hb' h8 ⊢
  by_cases hbt' : b' = true
  · rw [if_pos hbt']
    obtain ⟨w, hw, ew, -⟩ := h8 hbt'
    exact fin a6 n w en hw ew (hb'.1 hbt')
  rw [if_neg hbt']
  refine Wp.bind (FP2.sub_wp hg.a.ok hn (by norm_num)) fun a3 h5 => ?_
  refine Wp.bind (FP2.norm_wp h5 (by norm_num)) ?_
  rintro a4 ⟨h6, -, -⟩
  rw [sub_eq_add_neg] at h6
  refine Wp.bind (FP2.div2_wp h6 (by norm_num)) fun a5 h7 => ?_
  refine Wp.bind (FP2.sqrt_wp h7 (by norm_num)) ?_
  rintro ⟨b'', a6⟩ ⟨hb'', h8⟩
  dsimp only at hb'' h8 ⊢
  by_cases hbt'' : b'' = true
  · rw [if_pos hbt'']
    obtain ⟨w, hw, ew, -⟩ := h8 hbt''
    exact fin a6 (-n) w (by rw [neg_mul_neg, en]) hw ew (hb''.1 hbt'')
  rw [if_neg hbt'']
  refine Wp.ret ⟨fun e => (by cases e), ⟨fun e => (by cases e), ?_⟩, fun _ => hg⟩
  rintro ⟨-, m, hm, hA⟩
  rcases mul_self_eq_mul_self_iff.1 (hm.trans en.symm) with e | e
  · rw [e] at hA
    exact absurd (hb'.2 hA) hbt'
  · rw [e] at hA
    exact absurd (hb''.2 hA) hbt''

end FP4

end Amcl
