import Verif.Proof.NhsRoots
/-!
# What the transforms of `nhs.rs` compute
-/

namespace Amcl

namespace NHS

open HASH256 (setAt)
open Spec.NewHope

theorem unit32 : (2 ^ 32 : Zq) * 11857 = 1 := by decide

theorem cancel32 {a b : Zq} (h : a * 2 ^ 32 = b * 2 ^ 32) : a = b := by
  calc a = a * 2 ^ 32 * 11857 := by rw [mul_assoc, unit32, mul_one]
    _ = b * 2 ^ 32 * 11857 := by rw [h]
    _ = b := by rw [mul_assoc, unit32, mul_one]

/-- Coefficients between `0` and `b`. -/
def Bd (b : Int) (u : Int) : Prop := 0 ≤ u ∧ u ≤ b

/-- The value of a butterfly of `ntt`. -/
def FlyT (b : Int) (z : Zq) (u w u' w' : Int) : Prop :=
  Bd (b + 24578) u' ∧ Bd (b + 24578) w' ∧ (u' : Zq) = u + z * w ∧ (w' : Zq) = u - z * w

theorem nttBody_wp {b s : Int} {z : Zq} (hb : b ≤ 258069) (s0 : 0 ≤ s) (s1 : s < 12289) (hz : (s : Zq) = 2 ^ 32 * z)
    {t : Nat} (ht : 0 < t) (j : Nat) (x : Poly) (hj : j + t < 1024) (h : Bd b (cf x j) ∧ Bd b (cf x (j + t))) :
    Wp (do
      let u ← x[j]?
      let v ← modmul (← x[j + t]?) s
      let x ← setAt x j (← i32 (u + v))
      setAt x (j + t) (← i32 ((← i32 (u + (← i32 (2 * PRIME)))) - v))) fun x' => ∃ u w,
        FlyT b z (cf x j) (cf x (j + t)) u w ∧ cf x' = Function.update (Function.update (cf x) j u) (j + t) w := by
  obtain ⟨⟨u0, u1⟩, w0, w1⟩ := h
  refine .bind (.of_eq (get_cf x (by omega)) rfl) fun _ e => ?_
  subst e
  refine .bind (.of_eq (get_cf x hj) rfl) fun _ e => ?_
  subst e
  refine .bind (modmul_wp w0 (by omega) s0 (by omega)) fun v ⟨v0, v1, hv⟩ => ?_
  have hv' : v ≤ 12289 := by
    have : cf x (j + t) * s ≤ 258069 * 12288 := by
      apply mul_le_mul (by omega) (by omega) s0 (by norm_num)
    omega
  have hvz : (v : Zq) = z * cf x (j + t) := by
    apply cancel32
    rw [hv, hz]; ring
  simp only [PRIME]
  refine .bind (.of_eq (i32_eq (by omega) (by omega)) rfl) fun _ e => ?_
  subst e
  refine .bind (setAt_cf x (by omega) _) fun x1 h1 => ?_
  refine .bind (.of_eq (i32_eq (by norm_num) (by norm_num)) rfl) fun _ e => ?_
  subst e
  refine .bind (.of_eq (i32_eq (by omega) (by omega)) rfl) fun _ e => ?_
  subst e
  refine .bind (.of_eq (i32_eq (by omega) (by omega)) rfl) fun _ e => ?_
  subst e
  refine (setAt_cf x1 hj _).mono fun x2 h2 => ⟨_, _, ⟨⟨?_, ?_⟩, ⟨?_, ?_⟩, ?_, ?_⟩, by rw [h2, h1]⟩
  · omega
  · omega
  · omega
  · omega
  · push_cast; rw [hvz]
  · push_cast
    have : (24578 : Zq) = 0 := by decide
    rw [hvz, this]; ring

theorem nttInner_wp {b s : Int} {z : Zq} (hb : b ≤ 258069) (s0 : 0 ≤ s) (s1 : s < 12289) (hz : (s : Zq) = 2 ^ 32 * z)
    {t : Nat} (ht : 0 < t) (k : Nat) (x : Poly) (hk : k + 2 * t ≤ 1024)
    (hp : ∀ j, j < t → Bd b (cf x (k + j)) ∧ Bd b (cf x (k + j + t))) :
    Wp (nttInner s t t k x) fun x' =>
      (∀ j, j < t → FlyT b z (cf x (k + j)) (cf x (k + j + t)) (cf x' (k + j)) (cf x' (k + j + t))) ∧
      ∀ l, l < k ∨ k + 2 * t ≤ l → cf x' l = cf x l := by
  refine (inner_wp (t := t) (pre := fun u w => Bd b u ∧ Bd b w) (L := nttInner s t) (fun _ _ => rfl) (fun n j x => ?_)
    (fun j x hj h => nttBody_wp hb s0 s1 hz ht j x hj h) t k x le_rfl (by omega) fun l a c => ?_).mono
    fun x' ⟨h1, h2⟩ => ⟨fun j hj => ?_, fun l hl => ?_⟩
  · rw [nttInner]
    simp only [bind_assoc]
  · have := hp (l - k) (by omega)
    rwa [show k + (l - k) = l by omega] at this
  · exact h1 (k + j) (by omega) (by omega)
  · exact h2 l (by omega) (by omega)

/-- One layer of `ntt`. -/
theorem nttBlocks_wp {b : Int} (hb : b ≤ 258069) {m t : Nat} (ht : 0 < t) (hm : 2 * t * m = 1024) (x : Poly)
    (hp : ∀ l, l < 1024 → Bd b (cf x l)) :
    Wp (nttBlocks m t m 0 0 x) fun x' => ∀ i, i < m → ∀ j, j < t →
      FlyT b (7 ^ rev (m + i)) (cf x (2 * t * i + j)) (cf x (2 * t * i + j + t))
        (cf x' (2 * t * i + j)) (cf x' (2 * t * i + j + t)) := by
  have km : 2 * m ≤ 2 * t * m := by nlinarith
  have := blocks_wp hm (pre := fun u w => Bd b u ∧ Bd b w) (B := fun i => FlyT b (7 ^ rev (m + i)))
    (L := nttBlocks m t) (fun _ _ _ => rfl)
    (body := fun i k x => look ROOTS (m + i) >>= fun s => nttInner s t t k x)
    (fun n i k x => by rw [nttBlocks]; simp only [bind_assoc])
    (fun i k x hi hk h => by
      refine .bind (look_roots (k := m + i) (by omega)) fun s ⟨s0, s1, hs⟩ => ?_
      exact nttInner_wp hb s0 s1 hs ht k x hk h) m 0 x (by omega) (fun i _ hi j hj => by
        have : 2 * t * (i + 1) ≤ 2 * t * m := Nat.mul_le_mul_left _ (by omega)
        rw [Nat.mul_add] at this
        exact ⟨hp _ (by omega), hp _ (by omega)⟩)
  exact this.mono fun x' h i hi j hj => h.1 i (by omega) (by omega) j hj

/-- Sums over a block of `2 * t` coefficients. -/
theorem sum_block (X : Nat → Zq) (c : Nat) (p : Zq) (t : Nat) :
    ∑ j ∈ Finset.range (2 * t), X (c + j) * p ^ j = ∑ j ∈ Finset.range t, (X (c + j) + p ^ t * X (c + j + t)) * p ^ j := by
  rw [two_mul, Finset.sum_range_add, ← Finset.sum_add_distrib]
  refine Finset.sum_congr rfl fun j _ => ?_
  rw [show c + (t + j) = c + j + t by ring, pow_add]
  ring

/-- The sum over the block of `t` coefficients that contains `f`. -/
def blockSum (x : Poly) (t f : Nat) : Zq := ∑ j ∈ Finset.range t, (cf x (t * (f / t) + j) : Zq) * point f ^ j

/-- The position of an index in the blocks. -/
theorem split {t m f : Nat} (t0 : 0 < t) (hmt : 2 * t * m = 1024) (hf : f < 1024) :
    f / (2 * t) < m ∧ f = 2 * t * (f / (2 * t)) + f % (2 * t) ∧ f % (2 * t) < 2 * t ∧
      ((f / t % 2 = 0 ∧ f % (2 * t) < t ∧ f / t = 2 * (f / (2 * t))) ∨
        (f / t % 2 = 1 ∧ t ≤ f % (2 * t) ∧ f / t = 2 * (f / (2 * t)) + 1)) := by
  have e1 := Nat.div_add_mod f (2 * t)
  have e2 : f % (2 * t) < 2 * t := Nat.mod_lt _ (by omega)
  have e3 : f / (2 * t) = f / t / 2 := by rw [mul_comm, Nat.div_div_eq_div_mul]
  have e4 : f % (2 * t) = f % t + t * (f / t % 2) := by rw [mul_comm, Nat.mod_mul]
  have e5 : f % t < t := Nat.mod_lt _ t0
  refine ⟨?_, e1.symm, e2, ?_⟩
  · rw [Nat.div_lt_iff_lt_mul (by omega), mul_comm, hmt]; exact hf
  · rcases Nat.mod_two_eq_zero_or_one (f / t) with c | c
    · left; rw [c] at e4; exact ⟨c, by omega, by omega⟩
    · right; rw [c] at e4; exact ⟨c, by omega, by omega⟩

/-- A layer of `ntt` preserves the values at the roots. -/
theorem layer_eval {b : Int} {a m t : Nat} (ha : a < 10) (ht : t = 2 ^ a) (hm : m = 2 ^ (9 - a)) (x x' : Poly)
    (h : ∀ i, i < m → ∀ j, j < t → FlyT b (7 ^ rev (m + i)) (cf x (2 * t * i + j)) (cf x (2 * t * i + j + t))
        (cf x' (2 * t * i + j)) (cf x' (2 * t * i + j + t))) (hmt : 2 * t * m = 1024) :
    (∀ l, l < 1024 → Bd (b + 24578) (cf x' l)) ∧
      ∀ f, f < 1024 → blockSum x' t f = blockSum x (2 * t) f := by
  have t0 : 0 < t := by rw [ht]; positivity
  refine ⟨fun l hl => ?_, fun f hf => ?_⟩
  · obtain ⟨h1, h2, h3, h4⟩ := split t0 hmt hl
    rcases h4 with ⟨-, h5, -⟩ | ⟨-, h5, -⟩
    · have := (h _ h1 _ h5).1
      rwa [← h2] at this
    · have := (h _ h1 (l % (2 * t) - t) (by omega)).2.1
      rwa [show 2 * t * (l / (2 * t)) + (l % (2 * t) - t) + t = l by omega] at this
  · obtain ⟨h1, h2, h3, h4⟩ := split t0 hmt hf
    have hp := point_pow ha hf
    rw [← ht, ← hm, show 2 ^ (a + 1) = 2 * t by rw [ht, pow_succ, mul_comm]] at hp
    simp only [blockSum]
    rw [sum_block (fun l => (cf x l : Zq)), hp]
    refine Finset.sum_congr rfl fun j hj => ?_
    rw [Finset.mem_range] at hj
    obtain ⟨-, -, hu, hw⟩ := h _ h1 j hj
    rcases h4 with ⟨c, -, h5⟩ | ⟨c, -, h5⟩
    · rw [c, h5, show t * (2 * (f / (2 * t))) = 2 * t * (f / (2 * t)) by ring, hu]
      ring
    · rw [c, h5, show t * (2 * (f / (2 * t)) + 1) + j = 2 * t * (f / (2 * t)) + j + t by ring, hw]
      ring

/-- The loop of `ntt`. -/
theorem nttLoop_wp : ∀ (a : Nat), a < 10 → ∀ x : Poly, (∀ l, l < 1024 → Bd (12289 + 24578 * (9 - a)) (cf x l)) →
    Wp (nttLoop (2 ^ (9 - a)) (2 ^ a) x) fun x' => ∀ f, f < 1024 →
      Bd 258069 (cf x' f) ∧ (cf x' f : Zq) = blockSum x (2 ^ (a + 1)) f := by
  intro a
  induction a with
  | zero =>
    intro _ x hx
    rw [nttLoop, if_pos (by norm_num)]
    refine .bind (nttBlocks_wp (by norm_num) (by norm_num) (by norm_num) x hx) fun x1 h1 => ?_
    rw [nttLoop, if_neg (by norm_num)]
    obtain ⟨h2, h3⟩ := layer_eval (a := 0) (by norm_num) rfl rfl x x1 h1 (by norm_num)
    refine .ret fun f hf => ⟨?_, ?_⟩
    · have := h2 f hf
      norm_num at this
      exact this
    · have := h3 f hf
      rw [show 2 ^ (0 + 1) = 2 * 2 ^ 0 by norm_num, ← this]
      simp [blockSum]
  | succ a ih =>
    intro ha x hx
    have e : 2 * 2 ^ (a + 1) * 2 ^ (9 - (a + 1)) = 1024 := by
      rw [← pow_succ', ← pow_add, show a + 1 + 1 + (9 - (a + 1)) = 10 by omega]; norm_num
    have e0 : 0 < 2 ^ (a + 1) := by positivity
    rw [nttLoop, if_pos (by simp only [DEGREE]; nlinarith)]
    refine .bind (nttBlocks_wp (b := 12289 + 24578 * (9 - (a + 1 : Nat))) (by push_cast; omega) e0 e x hx) fun x1 h1 => ?_
    obtain ⟨h2, h3⟩ := layer_eval ha rfl rfl x x1 h1 e
    rw [← pow_succ, show 9 - (a + 1) + 1 = 9 - a by omega, show 2 ^ (a + 1) / 2 = 2 ^ a by rw [pow_succ]; simp]
    refine (ih (by omega) x1 fun l hl => ?_).mono fun x' h f hf => ⟨(h f hf).1, ?_⟩
    · have := h2 l hl
      rwa [show (12289 + 24578 * (9 - ((a + 1 : Nat) : Int)) + 24578) = 12289 + 24578 * (9 - (a : Int)) by push_cast; ring] at this
    · rw [(h f hf).2, h3 f hf, ← pow_succ']

/-- `ntt` computes the values at the roots of `X ^ 1024 + 1`, in Montgomery form. -/
theorem ntt_wp (x : Poly) (hx : ∀ l, l < 1024 → Bd 758000 (cf x l)) :
    Wp (ntt x) fun x' => ∀ f, f < 1024 →
      Bd 258069 (cf x' f) ∧ (cf x' f : Zq) = 2 ^ 32 * eval (fun l => cf x l) (point f) := by
  rw [ntt]
  refine .bind (each_all (P := fun l y => Bd 758000 y ∧ y = cf x l)
    (Q := fun l y => Bd 12289 y ∧ (y : Zq) = cf x l * 2 ^ 32) (f := fun _ => nres) (fun j y hj ⟨⟨h0, h1⟩, h2⟩ => ?_) x
    fun l hl => ⟨hx l hl, rfl⟩) fun x1 h1 => ?_
  · refine (nres_wp h0 (by omega)).mono fun r ⟨r0, r1, r2⟩ => ⟨⟨r0, by omega⟩, by rw [r2, h2]⟩
  · refine (nttLoop_wp 9 (by norm_num) x1 fun l hl => ?_).mono fun x' h f hf => ⟨(h f hf).1, ?_⟩
    · have := (h1 l hl).1
      norm_num
      exact this
    · rw [(h f hf).2, blockSum, eval, Finset.mul_sum]
      refine Finset.sum_congr rfl fun j hj => ?_
      rw [Finset.mem_range] at hj
      rw [show 2 ^ (9 + 1) * (f / 2 ^ (9 + 1)) + j = j by rw [Nat.div_eq_of_lt (by omega)]; omega,
        (h1 j (by omega)).2]
      ring

/-! ## The inverse -/

/-- The value of a butterfly of `intt`; the factor `c` is `1` or `1024`. -/
def FlyI (b : Int) (c z : Zq) (u w u' w' : Int) : Prop :=
  Bd b u' ∧ Bd b w' ∧ c * u' = u + w ∧ c * (z * w') = u - w

theorem diff_wp {b u w s : Int} {c z i : Zq} (hb : b ≤ 12583936) (hu : Bd b u) (hw : Bd b w) (s0 : 0 ≤ s) (s1 : s < 12289)
    (hs : (s : Zq) = 2 ^ 32 * i) (hz : c * z * i = 1) :
    i32 (u + w) = some (u + w) ∧ i32 (DEGREE * PRIME) = some 12583936 ∧ i32 (u + 12583936) = some (u + 12583936) ∧
    i32 (u + 12583936 - w) = some (u + 12583936 - w) ∧
    Wp (modmul (u + 12583936 - w) s) fun v => Bd 12361 v ∧ c * (z * v) = u - w := by
  obtain ⟨u0, u1⟩ := hu
  obtain ⟨w0, w1⟩ := hw
  refine ⟨i32_eq (by omega) (by omega), i32_eq (by simp only [DEGREE, PRIME]; norm_num) (by simp only [DEGREE, PRIME]; norm_num),
    i32_eq (by omega) (by omega), i32_eq (by omega) (by omega), ?_⟩
  refine (modmul_wp (by omega) (by omega) s0 (by omega)).mono fun v ⟨v0, v1, hv⟩ => ⟨⟨v0, ?_⟩, ?_⟩
  · have : (u + 12583936 - w) * s ≤ 25167872 * 12288 := mul_le_mul (by omega) (by omega) s0 (by norm_num)
    omega
  · have hv' : (v : Zq) = i * (u - w) := by
      apply cancel32
      rw [hv, hs]
      push_cast
      have : (12583936 : Zq) = 0 := by decide
      rw [this]; ring
    rw [hv', show c * (z * (i * ((u : Zq) - w))) = c * z * i * (u - w) by ring, hz, one_mul]

theorem inttInner_wp {b s : Int} {z i : Zq} (hb : b ≤ 12583936) (hb' : 12361 ≤ b) (s0 : 0 ≤ s) (s1 : s < 12289)
    (hs : (s : Zq) = 2 ^ 32 * i) (hz : z * i = 1)
    {t : Nat} (ht : 0 < t) (k : Nat) (x : Poly) (hk : k + 2 * t ≤ 1024)
    (hp : ∀ j, j < t → Bd b (cf x (k + j)) ∧ Bd b (cf x (k + j + t))) :
    Wp (inttInner s t t k x) fun x' =>
      (∀ j, j < t → FlyI (2 * b) 1 z (cf x (k + j)) (cf x (k + j + t)) (cf x' (k + j)) (cf x' (k + j + t))) ∧
      ∀ l, l < k ∨ k + 2 * t ≤ l → cf x' l = cf x l := by
  refine (inner_wp (t := t) (pre := fun u w => Bd b u ∧ Bd b w) (B := FlyI (2 * b) 1 z) (L := inttInner s t) (fun _ _ => rfl)
    (body := fun j x => do
      let u ← x[j]?
      let v ← x[j + t]?
      let x ← setAt x j (← i32 (u + v))
      let w ← i32 ((← i32 (u + (← i32 (DEGREE * PRIME)))) - v)
      setAt x (j + t) (← modmul w s))
    (fun n j x => ?_)
    (fun j x hj ⟨hu, hw⟩ => ?_) t k x le_rfl (by omega) fun l a c => ?_).mono
    fun x' ⟨h1, h2⟩ => ⟨fun j hj => ?_, fun l hl => ?_⟩
  · rw [inttInner]
    simp only [bind_assoc]
  · obtain ⟨e1, e2, e3, e4, h5⟩ := diff_wp (c := 1) (z := z) hb hu hw s0 s1 hs (by rw [one_mul, hz])
    simp only [get_cf x (show j < 1024 by omega), get_cf x hj, Option.bind_eq_bind, Option.bind_some, e1, e2, e3, e4]
    refine .bind (setAt_cf x (by omega) _) fun x1 h1 => ?_
    refine .bind h5 fun v ⟨⟨v0, v1⟩, hv⟩ => ?_
    refine (setAt_cf x1 hj v).mono fun x2 h2 => ⟨_, _, ⟨⟨?_, ?_⟩, ⟨v0, by omega⟩, ?_, hv⟩, by rw [h2, h1]⟩
    · have := hu.1; have := hw.1; omega
    · have := hu.2; have := hw.2; omega
    · push_cast; ring
  · have := hp (l - k) (by omega)
    rwa [show k + (l - k) = l by omega] at this
  · exact h1 (k + j) (by omega) (by omega)
  · exact h2 l (by omega) (by omega)

/-- One layer of `intt`. -/
theorem inttBlocks_wp {b : Int} (hb : b ≤ 12583936) (hb' : 12361 ≤ b) {m t : Nat} (ht : 0 < t) (hm : 2 * t * m = 1024) (x : Poly)
    (hp : ∀ l, l < 1024 → Bd b (cf x l)) :
    Wp (inttBlocks m t m 0 0 x) fun x' => ∀ i, i < m → ∀ j, j < t →
      FlyI (2 * b) 1 (7 ^ rev (m + i)) (cf x (2 * t * i + j)) (cf x (2 * t * i + j + t))
        (cf x' (2 * t * i + j)) (cf x' (2 * t * i + j + t)) := by
  have km : 2 * m ≤ 2 * t * m := by nlinarith
  have := blocks_wp hm (pre := fun u w => Bd b u ∧ Bd b w) (B := fun i => FlyI (2 * b) 1 (7 ^ rev (m + i)))
    (L := inttBlocks m t) (fun _ _ _ => rfl)
    (body := fun i k x => look IROOTS (m + i) >>= fun s => inttInner s t t k x)
    (fun n i k x => by rw [inttBlocks]; simp only [bind_assoc])
    (fun i k x hi hk h => by
      refine .bind (look_iroots (k := m + i) (by omega)) fun s ⟨s0, s1, z, hs, hz⟩ => ?_
      exact inttInner_wp hb hb' s0 s1 hs hz ht k x hk h) m 0 x (by omega) (fun i _ hi j hj => by
        have : 2 * t * (i + 1) ≤ 2 * t * m := Nat.mul_le_mul_left _ (by omega)
        rw [Nat.mul_add] at this
        exact ⟨hp _ (by omega), hp _ (by omega)⟩)
  exact this.mono fun x' h i hi j hj => h.1 i (by omega) (by omega) j hj

/-- A layer of `intt` doubles the values at the roots. -/
theorem layer_inv {b : Int} {c : Zq} {a m t : Nat} (ha : a < 10) (ht : t = 2 ^ a) (hm : m = 2 ^ (9 - a)) (x x' : Poly)
    (h : ∀ i, i < m → ∀ j, j < t → FlyI b c (7 ^ rev (m + i)) (cf x (2 * t * i + j)) (cf x (2 * t * i + j + t))
        (cf x' (2 * t * i + j)) (cf x' (2 * t * i + j + t))) (hmt : 2 * t * m = 1024) :
    (∀ l, l < 1024 → Bd b (cf x' l)) ∧
      ∀ f, f < 1024 → c * blockSum x' (2 * t) f = 2 * blockSum x t f := by
  have t0 : 0 < t := by rw [ht]; positivity
  refine ⟨fun l hl => ?_, fun f hf => ?_⟩
  · obtain ⟨h1, h2, h3, h4⟩ := split t0 hmt hl
    rcases h4 with ⟨-, h5, -⟩ | ⟨-, h5, -⟩
    · have := (h _ h1 _ h5).1
      rwa [← h2] at this
    · have := (h _ h1 (l % (2 * t) - t) (by omega)).2.1
      rwa [show 2 * t * (l / (2 * t)) + (l % (2 * t) - t) + t = l by omega] at this
  · obtain ⟨h1, h2, h3, h4⟩ := split t0 hmt hf
    have hp := point_pow ha hf
    rw [← ht, ← hm, show 2 ^ (a + 1) = 2 * t by rw [ht, pow_succ, mul_comm]] at hp
    simp only [blockSum]
    rw [sum_block (fun l => (cf x' l : Zq)), hp, Finset.mul_sum, Finset.mul_sum]
    refine Finset.sum_congr rfl fun j hj => ?_
    rw [Finset.mem_range] at hj
    obtain ⟨-, -, hu, hw⟩ := h _ h1 j hj
    rcases h4 with ⟨d, -, h5⟩ | ⟨d, -, h5⟩
    · rw [d, h5, show t * (2 * (f / (2 * t))) = 2 * t * (f / (2 * t)) by ring]
      linear_combination (point f ^ j) * (hu + hw)
    · rw [d, h5, show t * (2 * (f / (2 * t)) + 1) + j = 2 * t * (f / (2 * t)) + j + t by ring]
      linear_combination (point f ^ j) * (hu - hw)

/-- The loop of `intt`. -/
theorem inttLoop_wp : ∀ (d : Nat), d < 10 → ∀ x : Poly, (∀ l, l < 1024 → Bd (24578 * 2 ^ (9 - d)) (cf x l)) →
    Wp (inttLoop (2 ^ d) (2 ^ (9 - d)) x) fun x' => (∀ l, l < 1024 → Bd 12583936 (cf x' l)) ∧
      ∀ f, f < 1024 → blockSum x' 512 f = 2 ^ d * blockSum x (2 ^ (9 - d)) f := by
  intro d
  induction d with
  | zero =>
    intro _ x hx
    rw [inttLoop, if_neg (by norm_num)]
    refine .ret ⟨fun l hl => ?_, fun f hf => ?_⟩
    · have := hx l hl
      norm_num at this
      exact this
    · simp
  | succ d ih =>
    intro hd x hx
    have e : 2 * 2 ^ (9 - (d + 1)) * 2 ^ (d + 1) = 1024 := by
      rw [← pow_succ', ← pow_add, show 9 - (d + 1) + 1 + (d + 1) = 10 by omega]; norm_num
    have e0 : 0 < 2 ^ (9 - (d + 1)) := by positivity
    have e9 : 9 - d = 9 - (d + 1) + 1 := by omega
    have b1 : (1 : Int) ≤ 2 ^ (9 - (d + 1)) := one_le_pow₀ (by norm_num)
    have b2 : (2 : Int) ^ (9 - (d + 1)) ≤ 2 ^ 8 := pow_le_pow_right₀ (by norm_num) (by omega)
    rw [inttLoop, if_pos (by have := Nat.one_lt_two_pow (n := d + 1) (by omega); omega)]
    refine .bind (inttBlocks_wp (b := 24578 * 2 ^ (9 - (d + 1))) (by omega) (by omega) e0 e x hx) fun x1 h1 => ?_
    obtain ⟨h2, h3⟩ := layer_inv (a := 9 - (d + 1)) (by omega) rfl (by congr 1; omega) x x1 h1 e
    rw [← pow_succ, ← e9, show 2 ^ (d + 1) / 2 = 2 ^ d by rw [pow_succ]; simp]
    refine (ih (by omega) x1 fun l hl => ?_).mono fun x' ⟨h4, h5⟩ => ⟨h4, fun f hf => ?_⟩
    · have := h2 l hl
      rw [e9, pow_succ]
      rwa [show (2 * (24578 * 2 ^ (9 - (d + 1))) : Int) = 24578 * (2 ^ (9 - (d + 1)) * 2) by ring] at this
    · have := h3 f hf
      rw [one_mul, ← pow_succ', ← e9] at this
      rw [h5 f hf, this]
      ring

theorem inttLast_wp (x : Poly) (hp : ∀ l, l < 1024 → Bd 12583936 (cf x l)) :
    Wp (inttLast 512 512 0 x) fun x' => ∀ j, j < 512 →
      FlyI 12361 1024 (7 ^ 512) (cf x j) (cf x (j + 512)) (cf x' j) (cf x' (j + 512)) := by
  refine (inner_wp (t := 512) (pre := fun u w => Bd 12583936 u ∧ Bd 12583936 w) (B := FlyI 12361 1024 (7 ^ 512))
    (L := inttLast 512) (fun _ _ => rfl)
    (body := fun j x => do
      let u ← x[j]?
      let v ← x[j + 512]?
      let w ← i32 ((← i32 (u + (← i32 (DEGREE * PRIME)))) - v)
      let x ← setAt x (j + 512) (← modmul w INVPR)
      setAt x j (← modmul (← i32 (u + v)) INV))
    (fun n j x => ?_)
    (fun j x hj ⟨hu, hw⟩ => ?_) 512 0 x le_rfl (by omega) fun l a c => ⟨hp _ (by omega), hp _ (by omega)⟩).mono
    fun x' ⟨h1, h2⟩ j hj => h1 j (by omega) (by omega)
  · rw [inttLast]
    simp only [bind_assoc]
  · obtain ⟨e1, e2, e3, e4, h5⟩ := diff_wp (c := 1024) (z := 7 ^ 512) (s := INVPR) (i := 11306 * 11857) (by norm_num) hu hw
      (by decide) (by decide) (by decide) (by decide +kernel)
    simp only [get_cf x (show j < 1024 by omega), get_cf x hj, Option.bind_eq_bind, Option.bind_some, e1, e2, e3, e4]
    refine .bind h5 fun v ⟨hv0, hv⟩ => ?_
    refine .bind (setAt_cf x hj v) fun x1 h1 => ?_
    have hu0 := hu.1; have hu1 := hu.2; have hw0 := hw.1; have hw1 := hw.2
    refine .bind (modmul_wp (b := INV) (by omega) (by omega) (by decide) (by decide)) fun r ⟨r0, r1, hr⟩ => ?_
    refine (setAt_cf x1 (by omega) r).mono fun x2 h2 => ⟨r, v, ⟨⟨r0, ?_⟩, hv0, ?_, hv⟩, ?_⟩
    · simp only [INV] at r1
      omega
    · apply cancel32
      have : (1024 : Zq) * ((INV : Int) : Zq) = 2 ^ 32 := by decide
      rw [mul_assoc, hr]
      push_cast
      linear_combination ((cf x j : Zq) + cf x (j + 512)) * this
    · rw [h2, h1, Function.update_comm (by omega)]

/-- The last loop of `intt`. -/
theorem normal_wp {y : Int} (h : Bd 12361 y) :
    Wp (normal y) fun r => 0 ≤ r ∧ r < 12289 ∧ (r : Zq) * 2 ^ 32 = y := by
  obtain ⟨h0, h1⟩ := h
  rw [normal, asU64_eq h0 (by omega)]
  refine .bind (redc_wp (by omega)) fun r ⟨r0, r1, hr⟩ => ?_
  have hr' : (r : Zq) * 2 ^ 32 = y := by
    rw [hr, ← Int.cast_natCast, Int.toNat_of_nonneg h0]
  have r2 : r ≤ 12289 := by omega
  simp only [PRIME, WL]
  refine .bind (.of_eq (i32_eq (by omega) (by omega)) rfl) fun _ e => ?_
  subst e
  by_cases c : r = 12289
  · subst c
    refine .of_eq (a := 0) (by decide) ⟨by norm_num, by norm_num, ?_⟩
    rw [← hr']; decide
  · have s : sar (r - 12289) (32 - 1) = -1 := by rw [sar]; omega
    have a : and32 (-1) 12289 = 12289 := by decide
    rw [s, a]
    refine .of_eq (i32_eq (by omega) (by omega)) ⟨by omega, by omega, ?_⟩
    rw [← hr']; push_cast; ring

/-- `intt` computes the polynomial with the given values at the roots of `X ^ 1024 + 1`. -/
theorem intt_wp (x : Poly) (hx : ∀ l, l < 1024 → Bd 24578 (cf x l)) :
    Wp (intt x) fun x' => (∀ l, l < 1024 → 0 ≤ cf x' l ∧ cf x' l < 12289) ∧
      ∀ f, f < 1024 → 2 ^ 32 * eval (fun l => cf x' l) (point f) = cf x f := by
  rw [intt]
  refine .bind (inttLoop_wp 9 (by norm_num) x fun l hl => by simpa using hx l hl) fun x1 ⟨h1, h2⟩ => ?_
  refine .bind (inttLast_wp x1 h1) fun x2 h3 => ?_
  obtain ⟨h4, h5⟩ := layer_inv (a := 9) (m := 1) (t := 512) (by norm_num) rfl rfl x1 x2 (fun i hi j hj => by
    obtain rfl : i = 0 := by omega
    have := h3 j hj
    simpa [rev] using this) (by norm_num)
  refine (each_all (P := fun l y => Bd 12361 y ∧ y = cf x2 l)
    (Q := fun l y => 0 ≤ y ∧ y < 12289 ∧ (y : Zq) * 2 ^ 32 = cf x2 l) (f := fun _ => normal) (fun j y hj ⟨h, e⟩ => ?_) x2
    fun l hl => ⟨h4 l hl, rfl⟩).mono fun x' h => ⟨fun l hl => ⟨(h l hl).1, (h l hl).2.1⟩, fun f hf => ?_⟩
  · rw [← e]; exact normal_wp h
  · have a1 := h5 f hf
    rw [h2 f hf] at a1
    have a2 : blockSum x (2 ^ (9 - 9)) f = cf x f := by simp [blockSum]
    rw [a2] at a1
    have a3 : blockSum x2 (2 * 512) f = 2 ^ 32 * eval (fun l => cf x' l) (point f) := by
      rw [blockSum, eval, Finset.mul_sum]
      refine Finset.sum_congr rfl fun j hj => ?_
      rw [Finset.mem_range] at hj
      rw [show 2 * 512 * (f / (2 * 512)) + j = j by rw [Nat.div_eq_of_lt (by omega)]; omega, ← (h j (by omega)).2.2]
      ring
    rw [a3] at a1
    have u : (1024 : Zq) * 12277 = 1 := by decide
    have a4 : (1024 : Zq) * (2 ^ 32 * eval (fun l => cf x' l) (point f)) = 1024 * cf x f := by
      rw [a1]; ring
    calc _ = 12277 * ((1024 : Zq) * (2 ^ 32 * eval (fun l => cf x' l) (point f))) := by
            rw [← mul_assoc, mul_comm (12277 : Zq), u, one_mul]
      _ = _ := by rw [a4, ← mul_assoc, mul_comm (12277 : Zq), u, one_mul]

end NHS

end Amcl
