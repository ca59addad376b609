import Verif.Proof.Big
/-!
# Correctness of `BIG::mul`, `BIG::sqr` and `BIG::monty`

The proofs follow the unrolled code line by line: every 128-bit step is shown not to overflow, and
the column sums are added up at the end.
-/

set_option exponentiation.threshold 2000
set_option maxRecDepth 4000

namespace Amcl

/-- `x` is at most `B` in absolute value. -/
abbrev Bd (B x : Int) : Prop := -B ≤ x ∧ x ≤ B

theorem Bd.zero : Bd 0 0 := ⟨by norm_num, by norm_num⟩

theorem Bd.mul {A B x y : Int} (hx : Bd A x) (hy : Bd B y) : Bd (A * B) (x * y) := by
  have h := abs_mul x y
  have h1 := abs_le.2 hx
  have h2 := abs_le.2 hy
  have h3 : |x| * |y| ≤ A * B := mul_le_mul h1 h2 (abs_nonneg _) ((abs_nonneg _).trans h1)
  rw [← h] at h3
  exact abs_le.1 h3

section steps
variable {α : Type} {k : Int → Option α} {Q : α → Prop}

theorem i128_step {A x : Int} (hx : Bd A x) (h : A < 2 ^ 127)
    (hk : ∀ r, r = x → Bd A r → Wp (k r) Q) : Wp (i128 x >>= k) Q :=
  Wp.bind (R := fun r => r = x) (Wp.of_eq (i128_eq (by linarith [hx.1]) (by linarith [hx.2])) rfl)
    fun r hr => hk r hr (hr ▸ hx)

theorem mul_step {A B x y : Int} (hx : Bd A x) (hy : Bd B y) (h : A * B < 2 ^ 127)
    (hk : ∀ r, r = x * y → Bd (A * B) r → Wp (k r) Q) : Wp (i128 (x * y) >>= k) Q :=
  i128_step (hx.mul hy) h hk

theorem add_step {A B x y : Int} (hx : Bd A x) (hy : Bd B y) (h : A + B < 2 ^ 127)
    (hk : ∀ r, r = x + y → Bd (A + B) r → Wp (k r) Q) : Wp (i128 (x + y) >>= k) Q :=
  i128_step ⟨by linarith [hx.1, hy.1], by linarith [hx.2, hy.2]⟩ h hk

theorem sub_step {A B x y : Int} (hx : Bd A x) (hy : Bd B y) (h : A + B < 2 ^ 127)
    (hk : ∀ r, r = x - y → Bd (A + B) r → Wp (k r) Q) : Wp (i128 (x - y) >>= k) Q :=
  i128_step ⟨by linarith [hx.1, hy.2], by linarith [hx.2, hy.1]⟩ h hk

theorem mad_step {A B C t x y : Int} (ht : Bd C t) (hx : Bd A x) (hy : Bd B y)
    (h : A * B < 2 ^ 127 ∧ C + A * B < 2 ^ 127)
    (hk : ∀ r, r = t + x * y → Bd (C + A * B) r → Wp (k r) Q) : Wp (BIG.mad t x y >>= k) Q := by
  refine Wp.bind (R := fun r => r = t + x * y ∧ Bd (C + A * B) r) ?_ fun r hr => hk r hr.1 hr.2
  unfold BIG.mad
  refine mul_step hx hy h.1 fun z hz bz => ?_
  subst hz
  have b : Bd (C + A * B) (t + x * y) := ⟨by linarith [ht.1, bz.1], by linarith [ht.2, bz.2]⟩
  exact Wp.of_eq (i128_eq (by linarith [b.1]) (by linarith [b.2])) ⟨rfl, b⟩

theorem mac_step {A B C D E t x y z w : Int} (ht : Bd E t) (hx : Bd A x) (hy : Bd B y)
    (hz : Bd C z) (hw : Bd D w)
    (h : A + B < 2 ^ 63 ∧ C + D < 2 ^ 63 ∧ (A + B) * (C + D) < 2 ^ 127 ∧
      E + (A + B) * (C + D) < 2 ^ 127)
    (hk : ∀ r, r = t + (x - y) * (z - w) → Bd (E + (A + B) * (C + D)) r → Wp (k r) Q) :
    Wp (BIG.mac t x y z w >>= k) Q := by
  refine Wp.bind (R := fun r => r = t + (x - y) * (z - w) ∧ Bd (E + (A + B) * (C + D)) r) ?_
    fun r hr => hk r hr.1 hr.2
  unfold BIG.mac
  have b1 : Bd (A + B) (x - y) := ⟨by linarith [hx.1, hy.2], by linarith [hx.2, hy.1]⟩
  have b2 : Bd (C + D) (z - w) := ⟨by linarith [hz.1, hw.2], by linarith [hz.2, hw.1]⟩
  rw [sub64_eq (by linarith [b1.1]) (by linarith [b1.2]),
    sub64_eq (by linarith [b2.1]) (by linarith [b2.2])]
  refine mul_step b1 b2 h.2.2.1 fun z hz bz => ?_
  subst hz
  have b : Bd (E + (A + B) * (C + D)) (t + (x - y) * (z - w)) :=
    ⟨by linarith [ht.1, bz.1], by linarith [ht.2, bz.2]⟩
  exact Wp.of_eq (i128_eq (by linarith [b.1]) (by linarith [b.2])) ⟨rfl, b⟩

end steps

theorem low_eq (t : Int) : BIG.low t = t % 2 ^ 58 := by
  rw [BIG.low, BMASK_eq, and128_mask (by norm_num), as64_eq] <;> omega

/-- Splitting a column into digit and carry. -/
theorem split_lem {t B : Int} (ht : Bd B t) (hB : B < 2 ^ 127) : ∃ c q, BIG.low t = c ∧
    sar t 58 = q ∧ t = q * 2 ^ 58 + c ∧ (0 ≤ c ∧ c < 2 ^ 58) ∧ Bd (2 ^ 70) q := by
  refine ⟨t % 2 ^ 58, t / 2 ^ 58, low_eq t, rfl, ?_, ?_, ?_⟩
  · omega
  · omega
  · exact ⟨by omega, by omega⟩

/-- The Montgomery digit `v` makes `t + v*m0` divisible by `2^58`. -/
theorem montyV_lem {t mc m0 : Int} (h : (mc * m0 + 1) % 2 ^ 58 = 0) : ∃ v, BIG.montyV t mc = v ∧
    (0 ≤ v ∧ v < 2 ^ 58) ∧ Bd (2 ^ 58) v ∧ (t + v * m0) % 2 ^ 58 = 0 := by
  refine ⟨(t * mc) % 2 ^ 58, ?_, by omega, ⟨by omega, by omega⟩, ?_⟩
  · rw [BIG.montyV, low_eq, BMASK_eq, and64_mask (by norm_num), wmul64]
    have h1 : (Int.bmod (t % 2 ^ 58 * mc) (2 ^ 64)) % 2 ^ 58 = (t % 2 ^ 58 * mc) % 2 ^ 58 := by
      have h2 := Int.emod_emod_of_dvd (Int.bmod (t % 2 ^ 58 * mc) (2 ^ 64)) (show (2:Int) ^ 58 ∣ ((2 ^ 64 : Nat) : Int) by norm_num)
      rw [← h2, Int.bmod_emod, Int.emod_emod_of_dvd _ (show (2:Int) ^ 58 ∣ ((2 ^ 64 : Nat) : Int) by norm_num)]
    rw [h1, Int.mul_emod, Int.emod_emod, ← Int.mul_emod]
  · have h1 : (t + t * mc % 2 ^ 58 * m0) % 2 ^ 58 = (t + t * mc * m0) % 2 ^ 58 := by
      rw [Int.add_emod, Int.mul_emod, Int.emod_emod, ← Int.mul_emod, ← Int.add_emod]
    rw [h1, show t + t * mc * m0 = t * (mc * m0 + 1) by ring, Int.mul_emod, h, mul_zero]; rfl

theorem exact_lem {t B : Int} (h : t % 2 ^ 58 = 0) (ht : Bd B t) (hB : B < 2 ^ 127) :
    ∃ q, sar t 58 = q ∧ t = q * 2 ^ 58 ∧ Bd (2 ^ 70) q := by
  refine ⟨t / 2 ^ 58, rfl, by omega, ⟨by omega, by omega⟩⟩

local macro "lim" : tactic => `(tactic| first | assumption | exact Bd.zero)

/-- The integer denoted by the 14 limbs. -/
def DBIG.val (d : DBIG) : Int := d.lo.val + d.hi.val * 2 ^ 406

/-- Limbs 0-12 are digits. -/
structure DBIG.Nrm (d : DBIG) : Prop where
  lo : d.lo.Nrm
  l6 : 0 ≤ d.lo.w6 ∧ d.lo.w6 < 2 ^ 58
  hi : d.hi.Nrm

namespace BIG

/-- `BIG::mul` is exact for limbs up to `2^61` when the product fits. -/
theorem mul_wp {a b : BIG} (ha : Lim a (2 ^ 61)) (hb : Lim b (2 ^ 61))
    (hv : -2 ^ 816 ≤ a.val * b.val ∧ a.val * b.val ≤ 2 ^ 816) :
    Wp (mul a b) fun d => d.Nrm ∧ d.val = a.val * b.val := by
  obtain ⟨a0, a1, a2, a3, a4, a5, a6⟩ := ha
  obtain ⟨b0, b1, b2, b3, b4, b5, b6⟩ := hb
  unfold mul
  dsimp only
  refine mul_step (by lim) (by lim) (by norm_num) fun r1 er1 br1 => ?_
  refine mul_step (by lim) (by lim) (by norm_num) fun r2 er2 br2 => ?_
  refine mul_step (by lim) (by lim) (by norm_num) fun r3 er3 br3 => ?_
  refine mul_step (by lim) (by lim) (by norm_num) fun r4 er4 br4 => ?_
  refine mul_step (by lim) (by lim) (by norm_num) fun r5 er5 br5 => ?_
  refine mul_step (by lim) (by lim) (by norm_num) fun r6 er6 br6 => ?_
  refine mul_step (by lim) (by lim) (by norm_num) fun r7 er7 br7 => ?_
  obtain ⟨c0, qc0, lc0, sc0, ec0, nc0, bc0⟩ := split_lem (t := r1) (by lim) (by norm_num)
  simp only [lc0, sc0]
  refine add_step (by lim) (by lim) (by norm_num) fun r8 er8 br8 => ?_
  refine add_step (by lim) (by lim) (by norm_num) fun r9 er9 br9 => ?_
  refine mac_step (by lim) (by lim) (by lim) (by lim) (by lim) (by norm_num) fun r10 er10 br10 => ?_
  obtain ⟨c1, qc1, lc1, sc1, ec1, nc1, bc1⟩ := split_lem (t := r10) (by lim) (by norm_num)
  simp only [lc1, sc1]
  refine add_step (by lim) (by lim) (by norm_num) fun r11 er11 br11 => ?_
  refine add_step (by lim) (by lim) (by norm_num) fun r12 er12 br12 => ?_
  refine mac_step (by lim) (by lim) (by lim) (by lim) (by lim) (by norm_num) fun r13 er13 br13 => ?_
  obtain ⟨c2, qc2, lc2, sc2, ec2, nc2, bc2⟩ := split_lem (t := r13) (by lim) (by norm_num)
  simp only [lc2, sc2]
  refine add_step (by lim) (by lim) (by norm_num) fun r14 er14 br14 => ?_
  refine add_step (by lim) (by lim) (by norm_num) fun r15 er15 br15 => ?_
  refine mac_step (by lim) (by lim) (by lim) (by lim) (by lim) (by norm_num) fun r16 er16 br16 => ?_
  refine mac_step (by lim) (by lim) (by lim) (by lim) (by lim) (by norm_num) fun r17 er17 br17 => ?_
  obtain ⟨c3, qc3, lc3, sc3, ec3, nc3, bc3⟩ := split_lem (t := r17) (by lim) (by norm_num)
  simp only [lc3, sc3]
  refine add_step (by lim) (by lim) (by norm_num) fun r18 er18 br18 => ?_
  refine add_step (by lim) (by lim) (by norm_num) fun r19 er19 br19 => ?_
  refine mac_step (by lim) (by lim) (by lim) (by lim) (by lim) (by norm_num) fun r20 er20 br20 => ?_
  refine mac_step (by lim) (by lim) (by lim) (by lim) (by lim) (by norm_num) fun r21 er21 br21 => ?_
  obtain ⟨c4, qc4, lc4, sc4, ec4, nc4, bc4⟩ := split_lem (t := r21) (by lim) (by norm_num)
  simp only [lc4, sc4]
  refine add_step (by lim) (by lim) (by norm_num) fun r22 er22 br22 => ?_
  refine add_step (by lim) (by lim) (by norm_num) fun r23 er23 br23 => ?_
  refine mac_step (by lim) (by lim) (by lim) (by lim) (by lim) (by norm_num) fun r24 er24 br24 => ?_
  refine mac_step (by lim) (by lim) (by lim) (by lim) (by lim) (by norm_num) fun r25 er25 br25 => ?_
  refine mac_step (by lim) (by lim) (by lim) (by lim) (by lim) (by norm_num) fun r26 er26 br26 => ?_
  obtain ⟨c5, qc5, lc5, sc5, ec5, nc5, bc5⟩ := split_lem (t := r26) (by lim) (by norm_num)
  simp only [lc5, sc5]
  refine add_step (by lim) (by lim) (by norm_num) fun r27 er27 br27 => ?_
  refine add_step (by lim) (by lim) (by norm_num) fun r28 er28 br28 => ?_
  refine mac_step (by lim) (by lim) (by lim) (by lim) (by lim) (by norm_num) fun r29 er29 br29 => ?_
  refine mac_step (by lim) (by lim) (by lim) (by lim) (by lim) (by norm_num) fun r30 er30 br30 => ?_
  refine mac_step (by lim) (by lim) (by lim) (by lim) (by lim) (by norm_num) fun r31 er31 br31 => ?_
  obtain ⟨c6, qc6, lc6, sc6, ec6, nc6, bc6⟩ := split_lem (t := r31) (by lim) (by norm_num)
  simp only [lc6, sc6]
  refine sub_step (by lim) (by lim) (by norm_num) fun r32 er32 br32 => ?_
  refine add_step (by lim) (by lim) (by norm_num) fun r33 er33 br33 => ?_
  refine mac_step (by lim) (by lim) (by lim) (by lim) (by lim) (by norm_num) fun r34 er34 br34 => ?_
  refine mac_step (by lim) (by lim) (by lim) (by lim) (by lim) (by norm_num) fun r35 er35 br35 => ?_
  refine mac_step (by lim) (by lim) (by lim) (by lim) (by lim) (by norm_num) fun r36 er36 br36 => ?_
  obtain ⟨c7, qc7, lc7, sc7, ec7, nc7, bc7⟩ := split_lem (t := r36) (by lim) (by norm_num)
  simp only [lc7, sc7]
  refine sub_step (by lim) (by lim) (by norm_num) fun r37 er37 br37 => ?_
  refine add_step (by lim) (by lim) (by norm_num) fun r38 er38 br38 => ?_
  refine mac_step (by lim) (by lim) (by lim) (by lim) (by lim) (by norm_num) fun r39 er39 br39 => ?_
  refine mac_step (by lim) (by lim) (by lim) (by lim) (by lim) (by norm_num) fun r40 er40 br40 => ?_
  obtain ⟨c8, qc8, lc8, sc8, ec8, nc8, bc8⟩ := split_lem (t := r40) (by lim) (by norm_num)
  simp only [lc8, sc8]
  refine sub_step (by lim) (by lim) (by norm_num) fun r41 er41 br41 => ?_
  refine add_step (by lim) (by lim) (by norm_num) fun r42 er42 br42 => ?_
  refine mac_step (by lim) (by lim) (by lim) (by lim) (by lim) (by norm_num) fun r43 er43 br43 => ?_
  refine mac_step (by lim) (by lim) (by lim) (by lim) (by lim) (by norm_num) fun r44 er44 br44 => ?_
  obtain ⟨c9, qc9, lc9, sc9, ec9, nc9, bc9⟩ := split_lem (t := r44) (by lim) (by norm_num)
  simp only [lc9, sc9]
  refine sub_step (by lim) (by lim) (by norm_num) fun r45 er45 br45 => ?_
  refine add_step (by lim) (by lim) (by norm_num) fun r46 er46 br46 => ?_
  refine mac_step (by lim) (by lim) (by lim) (by lim) (by lim) (by norm_num) fun r47 er47 br47 => ?_
  obtain ⟨c10, qc10, lc10, sc10, ec10, nc10, bc10⟩ := split_lem (t := r47) (by lim) (by norm_num)
  simp only [lc10, sc10]
  refine sub_step (by lim) (by lim) (by norm_num) fun r48 er48 br48 => ?_
  refine add_step (by lim) (by lim) (by norm_num) fun r49 er49 br49 => ?_
  refine mac_step (by lim) (by lim) (by lim) (by lim) (by lim) (by norm_num) fun r50 er50 br50 => ?_
  obtain ⟨c11, qc11, lc11, sc11, ec11, nc11, bc11⟩ := split_lem (t := r50) (by lim) (by norm_num)
  simp only [lc11, sc11]
  refine sub_step (by lim) (by lim) (by norm_num) fun r51 er51 br51 => ?_
  refine add_step (by lim) (by lim) (by norm_num) fun r52 er52 br52 => ?_
  obtain ⟨c12, qc12, lc12, sc12, ec12, nc12, bc12⟩ := split_lem (t := r52) (by lim) (by norm_num)
  simp only [lc12, sc12]
  subst er1 er2 er3 er4 er5 er6 er7 er8 er9 er10 er11 er12 er13 er14 er15 er16 er17 er18 er19 er20 er21 er22 er23 er24 er25 er26 er27 er28 er29 er30 er31 er32 er33 er34 er35 er36 er37 er38 er39 er40 er41 er42 er43 er44 er45 er46 er47 er48 er49 er50 er51 er52
  have key : c0 + c1 * 2 ^ 58 + c2 * 2 ^ 116 + c3 * 2 ^ 174 + c4 * 2 ^ 232 + c5 * 2 ^ 290
      + c6 * 2 ^ 348 + (c7 + c8 * 2 ^ 58 + c9 * 2 ^ 116 + c10 * 2 ^ 174 + c11 * 2 ^ 232
      + c12 * 2 ^ 290 + qc12 * 2 ^ 348) * 2 ^ 406 = a.val * b.val := by
    simp only [val]
    linear_combination (-1) * (2 ^ 0 * ec0 + 2 ^ 58 * ec1 + 2 ^ 116 * ec2 + 2 ^ 174 * ec3 + 2 ^ 232 * ec4 + 2 ^ 290 * ec5 + 2 ^ 348 * ec6 + 2 ^ 406 * ec7 + 2 ^ 464 * ec8 + 2 ^ 522 * ec9 + 2 ^ 580 * ec10 + 2 ^ 638 * ec11 + 2 ^ 696 * ec12)
  rw [as64_eq (x := qc12)]
  · exact Wp.ret ⟨⟨⟨nc0, nc1, nc2, nc3, nc4, nc5⟩, nc6, ⟨nc7, nc8, nc9, nc10, nc11, nc12⟩⟩, key⟩
  · clear ec0 ec1 ec2 ec3 ec4 ec5 ec6 ec7 ec8 ec9 ec10 ec11 ec12
    have := hv.1
    rw [← key] at this
    omega
  · clear ec0 ec1 ec2 ec3 ec4 ec5 ec6 ec7 ec8 ec9 ec10 ec11 ec12
    have := hv.2
    rw [← key] at this
    omega

/-- `BIG::sqr` is exact for limbs up to `2^61` when the square fits. -/
theorem sqr_wp {a : BIG} (ha : Lim a (2 ^ 61))
    (hv : -2 ^ 816 ≤ a.val * a.val ∧ a.val * a.val ≤ 2 ^ 816) :
    Wp (sqr a) fun d => d.Nrm ∧ d.val = a.val * a.val := by
  obtain ⟨a0, a1, a2, a3, a4, a5, a6⟩ := ha
  unfold sqr
  dsimp only
  refine mul_step (by lim) (by lim) (by norm_num) fun r1 er1 br1 => ?_
  obtain ⟨c0, qc0, lc0, sc0, ec0, nc0, bc0⟩ := split_lem (t := r1) (by lim) (by norm_num)
  simp only [lc0, sc0]
  refine mul_step (by lim) (by lim) (by norm_num) fun r2 er2 br2 => ?_
  refine add_step (by lim) (by lim) (by norm_num) fun r3 er3 br3 => ?_
  refine add_step (by lim) (by lim) (by norm_num) fun r4 er4 br4 => ?_
  obtain ⟨c1, qc1, lc1, sc1, ec1, nc1, bc1⟩ := split_lem (t := r4) (by lim) (by norm_num)
  simp only [lc1, sc1]
  refine mul_step (by lim) (by lim) (by norm_num) fun r5 er5 br5 => ?_
  refine add_step (by lim) (by lim) (by norm_num) fun r6 er6 br6 => ?_
  refine add_step (by lim) (by lim) (by norm_num) fun r7 er7 br7 => ?_
  refine mad_step (by lim) (by lim) (by lim) (by norm_num) fun r8 er8 br8 => ?_
  obtain ⟨c2, qc2, lc2, sc2, ec2, nc2, bc2⟩ := split_lem (t := r8) (by lim) (by norm_num)
  simp only [lc2, sc2]
  refine mul_step (by lim) (by lim) (by norm_num) fun r9 er9 br9 => ?_
  refine mad_step (by lim) (by lim) (by lim) (by norm_num) fun r10 er10 br10 => ?_
  refine add_step (by lim) (by lim) (by norm_num) fun r11 er11 br11 => ?_
  refine add_step (by lim) (by lim) (by norm_num) fun r12 er12 br12 => ?_
  obtain ⟨c3, qc3, lc3, sc3, ec3, nc3, bc3⟩ := split_lem (t := r12) (by lim) (by norm_num)
  simp only [lc3, sc3]
  refine mul_step (by lim) (by lim) (by norm_num) fun r13 er13 br13 => ?_
  refine mad_step (by lim) (by lim) (by lim) (by norm_num) fun r14 er14 br14 => ?_
  refine add_step (by lim) (by lim) (by norm_num) fun r15 er15 br15 => ?_
  refine add_step (by lim) (by lim) (by norm_num) fun r16 er16 br16 => ?_
  refine mad_step (by lim) (by lim) (by lim) (by norm_num) fun r17 er17 br17 => ?_
  obtain ⟨c4, qc4, lc4, sc4, ec4, nc4, bc4⟩ := split_lem (t := r17) (by lim) (by norm_num)
  simp only [lc4, sc4]
  refine mul_step (by lim) (by lim) (by norm_num) fun r18 er18 br18 => ?_
  refine mad_step (by lim) (by lim) (by lim) (by norm_num) fun r19 er19 br19 => ?_
  refine mad_step (by lim) (by lim) (by lim) (by norm_num) fun r20 er20 br20 => ?_
  refine add_step (by lim) (by lim) (by norm_num) fun r21 er21 br21 => ?_
  refine add_step (by lim) (by lim) (by norm_num) fun r22 er22 br22 => ?_
  obtain ⟨c5, qc5, lc5, sc5, ec5, nc5, bc5⟩ := split_lem (t := r22) (by lim) (by norm_num)
  simp only [lc5, sc5]
  refine mul_step (by lim) (by lim) (by norm_num) fun r23 er23 br23 => ?_
  refine mad_step (by lim) (by lim) (by lim) (by norm_num) fun r24 er24 br24 => ?_
  refine mad_step (by lim) (by lim) (by lim) (by norm_num) fun r25 er25 br25 => ?_
  refine add_step (by lim) (by lim) (by norm_num) fun r26 er26 br26 => ?_
  refine add_step (by lim) (by lim) (by norm_num) fun r27 er27 br27 => ?_
  refine mad_step (by lim) (by lim) (by lim) (by norm_num) fun r28 er28 br28 => ?_
  obtain ⟨c6, qc6, lc6, sc6, ec6, nc6, bc6⟩ := split_lem (t := r28) (by lim) (by norm_num)
  simp only [lc6, sc6]
  refine mul_step (by lim) (by lim) (by norm_num) fun r29 er29 br29 => ?_
  refine mad_step (by lim) (by lim) (by lim) (by norm_num) fun r30 er30 br30 => ?_
  refine mad_step (by lim) (by lim) (by lim) (by norm_num) fun r31 er31 br31 => ?_
  refine add_step (by lim) (by lim) (by norm_num) fun r32 er32 br32 => ?_
  refine add_step (by lim) (by lim) (by norm_num) fun r33 er33 br33 => ?_
  obtain ⟨c7, qc7, lc7, sc7, ec7, nc7, bc7⟩ := split_lem (t := r33) (by lim) (by norm_num)
  simp only [lc7, sc7]
  refine mul_step (by lim) (by lim) (by norm_num) fun r34 er34 br34 => ?_
  refine mad_step (by lim) (by lim) (by lim) (by norm_num) fun r35 er35 br35 => ?_
  refine add_step (by lim) (by lim) (by norm_num) fun r36 er36 br36 => ?_
  refine add_step (by lim) (by lim) (by norm_num) fun r37 er37 br37 => ?_
  refine mad_step (by lim) (by lim) (by lim) (by norm_num) fun r38 er38 br38 => ?_
  obtain ⟨c8, qc8, lc8, sc8, ec8, nc8, bc8⟩ := split_lem (t := r38) (by lim) (by norm_num)
  simp only [lc8, sc8]
  refine mul_step (by lim) (by lim) (by norm_num) fun r39 er39 br39 => ?_
  refine mad_step (by lim) (by lim) (by lim) (by norm_num) fun r40 er40 br40 => ?_
  refine add_step (by lim) (by lim) (by norm_num) fun r41 er41 br41 => ?_
  refine add_step (by lim) (by lim) (by norm_num) fun r42 er42 br42 => ?_
  obtain ⟨c9, qc9, lc9, sc9, ec9, nc9, bc9⟩ := split_lem (t := r42) (by lim) (by norm_num)
  simp only [lc9, sc9]
  refine mul_step (by lim) (by lim) (by norm_num) fun r43 er43 br43 => ?_
  refine add_step (by lim) (by lim) (by norm_num) fun r44 er44 br44 => ?_
  refine add_step (by lim) (by lim) (by norm_num) fun r45 er45 br45 => ?_
  refine mad_step (by lim) (by lim) (by lim) (by norm_num) fun r46 er46 br46 => ?_
  obtain ⟨c10, qc10, lc10, sc10, ec10, nc10, bc10⟩ := split_lem (t := r46) (by lim) (by norm_num)
  simp only [lc10, sc10]
  refine mul_step (by lim) (by lim) (by norm_num) fun r47 er47 br47 => ?_
  refine add_step (by lim) (by lim) (by norm_num) fun r48 er48 br48 => ?_
  refine add_step (by lim) (by lim) (by norm_num) fun r49 er49 br49 => ?_
  obtain ⟨c11, qc11, lc11, sc11, ec11, nc11, bc11⟩ := split_lem (t := r49) (by lim) (by norm_num)
  simp only [lc11, sc11]
  refine mul_step (by lim) (by lim) (by norm_num) fun r50 er50 br50 => ?_
  refine add_step (by lim) (by lim) (by norm_num) fun r51 er51 br51 => ?_
  obtain ⟨c12, qc12, lc12, sc12, ec12, nc12, bc12⟩ := split_lem (t := r51) (by lim) (by norm_num)
  simp only [lc12, sc12]
  subst er1 er2 er3 er4 er5 er6 er7 er8 er9 er10 er11 er12 er13 er14 er15 er16 er17 er18 er19 er20 er21 er22 er23 er24 er25 er26 er27 er28 er29 er30 er31 er32 er33 er34 er35 er36 er37 er38 er39 er40 er41 er42 er43 er44 er45 er46 er47 er48 er49 er50 er51
  have key : c0 + c1 * 2 ^ 58 + c2 * 2 ^ 116 + c3 * 2 ^ 174 + c4 * 2 ^ 232 + c5 * 2 ^ 290
      + c6 * 2 ^ 348 + (c7 + c8 * 2 ^ 58 + c9 * 2 ^ 116 + c10 * 2 ^ 174 + c11 * 2 ^ 232
      + c12 * 2 ^ 290 + qc12 * 2 ^ 348) * 2 ^ 406 = a.val * a.val := by
    simp only [val]
    linear_combination (-1) * (2 ^ 0 * ec0 + 2 ^ 58 * ec1 + 2 ^ 116 * ec2 + 2 ^ 174 * ec3 + 2 ^ 232 * ec4 + 2 ^ 290 * ec5 + 2 ^ 348 * ec6 + 2 ^ 406 * ec7 + 2 ^ 464 * ec8 + 2 ^ 522 * ec9 + 2 ^ 580 * ec10 + 2 ^ 638 * ec11 + 2 ^ 696 * ec12)
  rw [as64_eq (x := qc12)]
  · exact Wp.ret ⟨⟨⟨nc0, nc1, nc2, nc3, nc4, nc5⟩, nc6, ⟨nc7, nc8, nc9, nc10, nc11, nc12⟩⟩, key⟩
  · clear ec0 ec1 ec2 ec3 ec4 ec5 ec6 ec7 ec8 ec9 ec10 ec11 ec12
    have := hv.1
    rw [← key] at this
    omega
  · clear ec0 ec1 ec2 ec3 ec4 ec5 ec6 ec7 ec8 ec9 ec10 ec11 ec12
    have := hv.2
    rw [← key] at this
    omega

/-- `BIG::monty`: exact division by `2^406` of `d` plus a multiple of the modulus. -/
theorem monty_wp {md : BIG} {mc : Int} {d : DBIG} (hm : Lim md (2 ^ 58)) (hmc : (mc * md.w0 + 1) % 2 ^ 58 = 0)
    (hlo : Lim d.lo (2 ^ 62)) (hhi : Lim d.hi (2 ^ 62)) (hm0 : 0 ≤ md.val) (hd : 0 ≤ d.val)
    (hv : d.val + 2 ^ 406 * md.val < 2 ^ 812) :
    Wp (monty md mc d) fun r => Nrm r ∧ (0 ≤ r.w6 ∧ r.w6 < 2 ^ 58) ∧
      ∃ m, 0 ≤ m ∧ m < 2 ^ 406 ∧ r.val * 2 ^ 406 = d.val + m * md.val := by
  obtain ⟨m0, m1, m2, m3, m4, m5, m6⟩ := hm
  obtain ⟨a0, a1, a2, a3, a4, a5, a6⟩ := hlo
  obtain ⟨h0, h1, h2, h3, h4, h5, h6⟩ := hhi
  unfold monty
  dsimp only
  obtain ⟨v0, hv0, nv0, bv0, dv0⟩ := montyV_lem (t := d.lo.w0) hmc
  simp only [hv0]
  refine mad_step (by lim) (by lim) (by lim) (by norm_num) fun r1 er1 br1 => ?_
  obtain ⟨qv0, sv0, ev0, fv0⟩ := exact_lem (t := r1) (by rw [er1]; exact dv0) (by lim) (by norm_num)
  simp only [sv0]
  refine add_step (by lim) (by lim) (by norm_num) fun r2 er2 br2 => ?_
  refine add_step (by lim) (by lim) (by norm_num) fun r3 er3 br3 => ?_
  refine mad_step (by lim) (by lim) (by lim) (by norm_num) fun r4 er4 br4 => ?_
  obtain ⟨v1, hv1, nv1, bv1, dv1⟩ := montyV_lem (t := r4) hmc
  simp only [hv1]
  refine mad_step (by lim) (by lim) (by lim) (by norm_num) fun r5 er5 br5 => ?_
  obtain ⟨qv1, sv1, ev1, fv1⟩ := exact_lem (t := r5) (by rw [er5]; exact dv1) (by lim) (by norm_num)
  simp only [sv1]
  refine add_step (by lim) (by lim) (by norm_num) fun r6 er6 br6 => ?_
  refine mul_step (by lim) (by lim) (by norm_num) fun r7 er7 br7 => ?_
  refine add_step (by lim) (by lim) (by norm_num) fun r8 er8 br8 => ?_
  refine add_step (by lim) (by lim) (by norm_num) fun r9 er9 br9 => ?_
  refine mad_step (by lim) (by lim) (by lim) (by norm_num) fun r10 er10 br10 => ?_
  obtain ⟨v2, hv2, nv2, bv2, dv2⟩ := montyV_lem (t := r10) hmc
  simp only [hv2]
  refine mad_step (by lim) (by lim) (by lim) (by norm_num) fun r11 er11 br11 => ?_
  obtain ⟨qv2, sv2, ev2, fv2⟩ := exact_lem (t := r11) (by rw [er11]; exact dv2) (by lim) (by norm_num)
  simp only [sv2]
  refine add_step (by lim) (by lim) (by norm_num) fun r12 er12 br12 => ?_
  refine mul_step (by lim) (by lim) (by norm_num) fun r13 er13 br13 => ?_
  refine add_step (by lim) (by lim) (by norm_num) fun r14 er14 br14 => ?_
  refine add_step (by lim) (by lim) (by norm_num) fun r15 er15 br15 => ?_
  refine mad_step (by lim) (by lim) (by lim) (by norm_num) fun r16 er16 br16 => ?_
  refine mac_step (by lim) (by lim) (by lim) (by lim) (by lim) (by norm_num) fun r17 er17 br17 => ?_
  obtain ⟨v3, hv3, nv3, bv3, dv3⟩ := montyV_lem (t := r17) hmc
  simp only [hv3]
  refine mad_step (by lim) (by lim) (by lim) (by norm_num) fun r18 er18 br18 => ?_
  obtain ⟨qv3, sv3, ev3, fv3⟩ := exact_lem (t := r18) (by rw [er18]; exact dv3) (by lim) (by norm_num)
  simp only [sv3]
  refine add_step (by lim) (by lim) (by norm_num) fun r19 er19 br19 => ?_
  refine mul_step (by lim) (by lim) (by norm_num) fun r20 er20 br20 => ?_
  refine add_step (by lim) (by lim) (by norm_num) fun r21 er21 br21 => ?_
  refine add_step (by lim) (by lim) (by norm_num) fun r22 er22 br22 => ?_
  refine mad_step (by lim) (by lim) (by lim) (by norm_num) fun r23 er23 br23 => ?_
  refine mac_step (by lim) (by lim) (by lim) (by lim) (by lim) (by norm_num) fun r24 er24 br24 => ?_
  obtain ⟨v4, hv4, nv4, bv4, dv4⟩ := montyV_lem (t := r24) hmc
  simp only [hv4]
  refine mad_step (by lim) (by lim) (by lim) (by norm_num) fun r25 er25 br25 => ?_
  obtain ⟨qv4, sv4, ev4, fv4⟩ := exact_lem (t := r25) (by rw [er25]; exact dv4) (by lim) (by norm_num)
  simp only [sv4]
  refine add_step (by lim) (by lim) (by norm_num) fun r26 er26 br26 => ?_
  refine mul_step (by lim) (by lim) (by norm_num) fun r27 er27 br27 => ?_
  refine add_step (by lim) (by lim) (by norm_num) fun r28 er28 br28 => ?_
  refine add_step (by lim) (by lim) (by norm_num) fun r29 er29 br29 => ?_
  refine mad_step (by lim) (by lim) (by lim) (by norm_num) fun r30 er30 br30 => ?_
  refine mac_step (by lim) (by lim) (by lim) (by lim) (by lim) (by norm_num) fun r31 er31 br31 => ?_
  refine mac_step (by lim) (by lim) (by lim) (by lim) (by lim) (by norm_num) fun r32 er32 br32 => ?_
  obtain ⟨v5, hv5, nv5, bv5, dv5⟩ := montyV_lem (t := r32) hmc
  simp only [hv5]
  refine mad_step (by lim) (by lim) (by lim) (by norm_num) fun r33 er33 br33 => ?_
  obtain ⟨qv5, sv5, ev5, fv5⟩ := exact_lem (t := r33) (by rw [er33]; exact dv5) (by lim) (by norm_num)
  simp only [sv5]
  refine add_step (by lim) (by lim) (by norm_num) fun r34 er34 br34 => ?_
  refine mul_step (by lim) (by lim) (by norm_num) fun r35 er35 br35 => ?_
  refine add_step (by lim) (by lim) (by norm_num) fun r36 er36 br36 => ?_
  refine add_step (by lim) (by lim) (by norm_num) fun r37 er37 br37 => ?_
  refine mad_step (by lim) (by lim) (by lim) (by norm_num) fun r38 er38 br38 => ?_
  refine mac_step (by lim) (by lim) (by lim) (by lim) (by lim) (by norm_num) fun r39 er39 br39 => ?_
  refine mac_step (by lim) (by lim) (by lim) (by lim) (by lim) (by norm_num) fun r40 er40 br40 => ?_
  obtain ⟨v6, hv6, nv6, bv6, dv6⟩ := montyV_lem (t := r40) hmc
  simp only [hv6]
  refine mad_step (by lim) (by lim) (by lim) (by norm_num) fun r41 er41 br41 => ?_
  obtain ⟨qv6, sv6, ev6, fv6⟩ := exact_lem (t := r41) (by rw [er41]; exact dv6) (by lim) (by norm_num)
  simp only [sv6]
  refine add_step (by lim) (by lim) (by norm_num) fun r42 er42 br42 => ?_
  refine mul_step (by lim) (by lim) (by norm_num) fun r43 er43 br43 => ?_
  refine add_step (by lim) (by lim) (by norm_num) fun r44 er44 br44 => ?_
  refine add_step (by lim) (by lim) (by norm_num) fun r45 er45 br45 => ?_
  refine mac_step (by lim) (by lim) (by lim) (by lim) (by lim) (by norm_num) fun r46 er46 br46 => ?_
  refine mac_step (by lim) (by lim) (by lim) (by lim) (by lim) (by norm_num) fun r47 er47 br47 => ?_
  refine mac_step (by lim) (by lim) (by lim) (by lim) (by lim) (by norm_num) fun r48 er48 br48 => ?_
  obtain ⟨b0, qb0, lb0, sb0, eb0, nb0, bb0⟩ := split_lem (t := r48) (by lim) (by norm_num)
  simp only [lb0, sb0]
  refine add_step (by lim) (by lim) (by norm_num) fun r49 er49 br49 => ?_
  refine sub_step (by lim) (by lim) (by norm_num) fun r50 er50 br50 => ?_
  refine add_step (by lim) (by lim) (by norm_num) fun r51 er51 br51 => ?_
  refine mac_step (by lim) (by lim) (by lim) (by lim) (by lim) (by norm_num) fun r52 er52 br52 => ?_
  refine mac_step (by lim) (by lim) (by lim) (by lim) (by lim) (by norm_num) fun r53 er53 br53 => ?_
  obtain ⟨b1, qb1, lb1, sb1, eb1, nb1, bb1⟩ := split_lem (t := r53) (by lim) (by norm_num)
  simp only [lb1, sb1]
  refine add_step (by lim) (by lim) (by norm_num) fun r54 er54 br54 => ?_
  refine sub_step (by lim) (by lim) (by norm_num) fun r55 er55 br55 => ?_
  refine add_step (by lim) (by lim) (by norm_num) fun r56 er56 br56 => ?_
  refine mac_step (by lim) (by lim) (by lim) (by lim) (by lim) (by norm_num) fun r57 er57 br57 => ?_
  refine mac_step (by lim) (by lim) (by lim) (by lim) (by lim) (by norm_num) fun r58 er58 br58 => ?_
  obtain ⟨b2, qb2, lb2, sb2, eb2, nb2, bb2⟩ := split_lem (t := r58) (by lim) (by norm_num)
  simp only [lb2, sb2]
  refine add_step (by lim) (by lim) (by norm_num) fun r59 er59 br59 => ?_
  refine sub_step (by lim) (by lim) (by norm_num) fun r60 er60 br60 => ?_
  refine add_step (by lim) (by lim) (by norm_num) fun r61 er61 br61 => ?_
  refine mac_step (by lim) (by lim) (by lim) (by lim) (by lim) (by norm_num) fun r62 er62 br62 => ?_
  obtain ⟨b3, qb3, lb3, sb3, eb3, nb3, bb3⟩ := split_lem (t := r62) (by lim) (by norm_num)
  simp only [lb3, sb3]
  refine add_step (by lim) (by lim) (by norm_num) fun r63 er63 br63 => ?_
  refine sub_step (by lim) (by lim) (by norm_num) fun r64 er64 br64 => ?_
  refine add_step (by lim) (by lim) (by norm_num) fun r65 er65 br65 => ?_
  refine mac_step (by lim) (by lim) (by lim) (by lim) (by lim) (by norm_num) fun r66 er66 br66 => ?_
  obtain ⟨b4, qb4, lb4, sb4, eb4, nb4, bb4⟩ := split_lem (t := r66) (by lim) (by norm_num)
  simp only [lb4, sb4]
  refine add_step (by lim) (by lim) (by norm_num) fun r67 er67 br67 => ?_
  refine sub_step (by lim) (by lim) (by norm_num) fun r68 er68 br68 => ?_
  refine add_step (by lim) (by lim) (by norm_num) fun r69 er69 br69 => ?_
  obtain ⟨b5, qb5, lb5, sb5, eb5, nb5, bb5⟩ := split_lem (t := r69) (by lim) (by norm_num)
  simp only [lb5, sb5]
  refine add_step (by lim) (by lim) (by norm_num) fun r70 er70 br70 => ?_
  refine sub_step (by lim) (by lim) (by norm_num) fun r71 er71 br71 => ?_
  obtain ⟨b6, qb6, lb6, sb6, eb6, nb6, bb6⟩ := split_lem (t := r70) (by lim) (by norm_num)
  simp only [lb6, sb6]
  subst er1 er2 er3 er4 er5 er6 er7 er8 er9 er10 er11 er12 er13 er14 er15 er16 er17 er18 er19 er20 er21 er22 er23 er24 er25 er26 er27 er28 er29 er30 er31 er32 er33 er34 er35 er36 er37 er38 er39 er40 er41 er42 er43 er44 er45 er46 er47 er48 er49 er50 er51 er52 er53 er54 er55 er56 er57 er58 er59 er60 er61 er62 er63 er64 er65 er66 er67 er68 er69 er70 er71
  have key : (b0 + b1 * 2 ^ 58 + b2 * 2 ^ 116 + b3 * 2 ^ 174 + b4 * 2 ^ 232 + b5 * 2 ^ 290
      + b6 * 2 ^ 348) * 2 ^ 406 + qb6 * 2 ^ 812 = d.val + (v0 + v1 * 2 ^ 58 + v2 * 2 ^ 116
      + v3 * 2 ^ 174 + v4 * 2 ^ 232 + v5 * 2 ^ 290 + v6 * 2 ^ 348) * md.val := by
    simp only [val, DBIG.val]
    linear_combination (-1) * (2 ^ 0 * ev0 + 2 ^ 58 * ev1 + 2 ^ 116 * ev2 + 2 ^ 174 * ev3 + 2 ^ 232 * ev4 + 2 ^ 290 * ev5 + 2 ^ 348 * ev6 + 2 ^ 406 * eb0 + 2 ^ 464 * eb1 + 2 ^ 522 * eb2 + 2 ^ 580 * eb3 + 2 ^ 638 * eb4 + 2 ^ 696 * eb5 + 2 ^ 754 * eb6)
  clear ev0 ev1 ev2 ev3 ev4 ev5 ev6 eb0 eb1 eb2 eb3 eb4 eb5 eb6
  have hm1 : 0 ≤ v0 + v1 * 2 ^ 58 + v2 * 2 ^ 116 + v3 * 2 ^ 174 + v4 * 2 ^ 232 + v5 * 2 ^ 290
      + v6 * 2 ^ 348 := by omega
  have hm2 : v0 + v1 * 2 ^ 58 + v2 * 2 ^ 116 + v3 * 2 ^ 174 + v4 * 2 ^ 232 + v5 * 2 ^ 290
      + v6 * 2 ^ 348 < 2 ^ 406 := by omega
  generalize v0 + v1 * 2 ^ 58 + v2 * 2 ^ 116 + v3 * 2 ^ 174 + v4 * 2 ^ 232 + v5 * 2 ^ 290
      + v6 * 2 ^ 348 = m at key hm1 hm2
  have hp1 : 0 ≤ m * md.val := mul_nonneg hm1 hm0
  have hp2 : m * md.val ≤ (2 ^ 406 - 1) * md.val := mul_le_mul_of_nonneg_right (by omega) hm0
  have hq : qb6 = 0 := by
    have e1 : (2 ^ 406 - 1) * md.val = 2 ^ 406 * md.val - md.val := by ring
    rw [e1] at hp2
    generalize m * md.val = X at *
    omega
  rw [hq] at key
  refine Wp.ret ⟨⟨nb0, nb1, nb2, nb3, nb4, nb5⟩, nb6, m, hm1, hm2, ?_⟩
  unfold DBIG.val at key ⊢
  unfold val at *
  linear_combination key

end BIG

end Amcl
