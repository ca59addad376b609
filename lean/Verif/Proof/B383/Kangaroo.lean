import Verif.Props.B383MpinKey
import Verif.Spec.B383.Kangaroo
/-!
# The search for a small discrete logarithm in `mpin.rs`
-/

set_option exponentiation.threshold 6000

namespace Amcl.B383

open Spec Spec.B383

seal Spec.B383.finalExp Spec.toBE

namespace mpin

theorem kanTable_wp (n : Nat) : ∀ {t : FP12} {v : Fp12} (s : Nat), FP12.Ok t 1 (2 ^ 18) v → Cyc v →
    Wp (kanTable n t s) fun l => l.length = n ∧
      ∀ i (h : i < l.length), FP12.Ok l[i].1 1 (2 ^ 18) (v ^ (2 ^ i)) ∧ l[i].2 = ((s * 2 ^ i : Nat) : Int) := by
  induction n with
  | zero => intro t v s ht hv; exact Wp.ret ⟨rfl, fun i h => absurd h (by simp)⟩
  | succ n ih =>
    intro t v s ht hv
    unfold kanTable
    refine Wp.bind (FP12.usqr_wp ht hv) fun t' ht' => ?_
    have := ih (s * 2) (t := t') (v := v ^ 2) (ht'.ok.mono (by norm_num)) (hv.pow 2)
    rw [Nat.cast_mul, Nat.cast_ofNat] at this
    refine Wp.bind this ?_
    rintro l ⟨hl, hi⟩
    refine Wp.ret ⟨by rw [List.length_cons, hl], ?_⟩
    rintro (_ | i) h
    · refine ⟨?_, ?_⟩
      · rw [List.getElem_cons_zero, pow_zero, pow_one]; exact ht
      · rw [List.getElem_cons_zero, pow_zero, mul_one]
    · rw [List.getElem_cons_succ]
      obtain ⟨h1, h2⟩ := hi i (by rw [List.length_cons] at h; omega)
      refine ⟨?_, ?_⟩
      · rw [show 2 ^ (i + 1) = 2 * 2 ^ i from pow_succ' 2 i, pow_mul]; exact h1
      · rw [h2, pow_succ', mul_assoc]

theorem kanIndex_wp {t : FP12} {v : Fp12} (ht : FP12.Ok t 1 (2 ^ 18) v) :
    Wp (kanIndex t) fun i => i < 10 ∧ JumpAt v i := by
  obtain ⟨a, b, c, ha, hb, hc, rfl⟩ := ht
  unfold kanIndex FP2.geta
  refine Wp.bind (FP.redc_wp ha.a.a (by norm_num)) ?_
  rintro x ⟨nx, x0, xp, xv, -⟩
  have hp := p_lt
  refine Wp.bind (BIG.lastbits_wp ((nx.lim58 x0 (by omega)).mono (by norm_num)) (n := 20) (by norm_num)) ?_
  rintro ⟨l, y⟩ ⟨hl, -⟩
  dsimp only at hl ⊢
  refine Wp.ret ?_
  obtain ⟨m, hm⟩ := Int.eq_ofNat_of_zero_le x0
  rw [hm] at hl xv xp
  have e : (l % (TS : Int)).toNat = m % 2 ^ 20 % 10 := by
    rw [hl, TS]
    norm_num
    omega
  rw [e]
  refine ⟨Nat.mod_lt _ (by norm_num), a, b, c, rfl, ?_⟩
  rw [Int.cast_natCast] at xv
  rcases Nat.lt_or_ge m p with h | h
  · left
    rw [← xv, ZMod.val_cast_of_lt h]
  · right
    have : m = p := by omega
    subst this
    exact ⟨by rw [← xv, CharP.cast_eq_zero], rfl⟩

/-- What is known about the table. -/
def Table (table : List (FP12 × Int)) (f : Fp12) : Prop :=
  table.length = 10 ∧ ∀ i (h : i < table.length), FP12.Ok table[i].1 1 (2 ^ 18) (f ^ (2 ^ i)) ∧ table[i].2 = ((2 ^ i : Nat) : Int)

theorem Table.get {table : List (FP12 × Int)} {f : Fp12} (h : Table table f) {i : Nat} (hi : i < 10) :
    Wp (table[i]?) fun e => FP12.Ok e.1 1 (2 ^ 18) (f ^ (2 ^ i)) ∧ e.2 = ((2 ^ i : Nat) : Int) := by
  rw [List.getElem?_eq_getElem (by rw [h.1]; exact hi)]
  exact Wp.ret (h.2 i _)

/-- A path with one more jump in front. -/
theorem path_cons {f x : Fp12} {n d : Nat} {w : Nat → Fp12 × Nat} {i : Nat} (hi : JumpAt x i) (h0 : w 0 = (x * f ^ (2 ^ i), d + 2 ^ i))
    (hw : ∀ k < n, Jump f (w k) (w (k + 1))) :
    ∃ w' : Nat → Fp12 × Nat, w' 0 = (x, d) ∧ (∀ k, w' (k + 1) = w k) ∧ ∀ k < n + 1, Jump f (w' k) (w' (k + 1)) := by
  refine ⟨fun k => match k with | 0 => (x, d) | k + 1 => w k, rfl, fun _ => rfl, ?_⟩
  rintro (_ | k) hk
  · exact ⟨i, hi, h0⟩
  · exact hw k (by omega)

theorem kanTame_wp {table : List (FP12 × Int)} {f : Fp12} (hT : Table table f) (n : Nat) : ∀ {t : FP12} {v : Fp12} (d : Nat),
    FP12.Ok t 1 (2 ^ 12) v → Wp (kanTame table n t d) fun r =>
      ∃ w : Nat → Fp12 × Nat, w 0 = (v, d) ∧ (∀ k < n, Jump f (w k) (w (k + 1))) ∧ FP12.Ok r.1 1 (2 ^ 12) (w n).1 ∧ r.2 = ((w n).2 : Int) := by
  induction n with
  | zero => intro t v d ht; exact Wp.ret ⟨fun _ => (v, d), rfl, fun k hk => absurd hk (by omega), ht, rfl⟩
  | succ n ih =>
    intro t v d ht
    unfold kanTame
    refine Wp.bind (kanIndex_wp (ht.mono (by norm_num))) ?_
    rintro i ⟨hi, hj⟩
    refine Wp.bind (hT.get hi) ?_
    rintro ⟨m, d'⟩ ⟨hm, hd⟩
    dsimp only at hm hd ⊢
    refine Wp.bind (FP12.mul_wp (ht.mono (by norm_num)) hm) fun t' ht' => ?_
    rw [hd, ← Nat.cast_add]
    refine (ih (d + 2 ^ i) ht').mono ?_
    rintro r ⟨w, h0, hw, hr, hr'⟩
    obtain ⟨w', h0', hs, hw'⟩ := path_cons hj h0 hw
    exact ⟨w', h0', hw', by rw [hs]; exact hr, by rw [hs]; exact hr'⟩

/-- The outcome of the loop, `k` jumps ahead. -/
def WildPost (f t : Fp12) (D : Int) (n : Nat) (v : Fp12) (d : Nat) (r : Option Int × Int) : Prop :=
  ∃ w : Nat → Fp12 × Nat, w 0 = (v, d) ∧ (∀ k < n, Jump f (w k) (w (k + 1))) ∧
    ((∃ k ≤ n, Meets t w k ∧ r.2 = ((w k).2 : Int) ∧
        r.1 = some (if (w k).1 = t then ((w k).2 : Int) - D else D - (w k).2)) ∨
     (r.1 = none ∧ ∀ k ≤ n, Meets t w k → 10000 ≤ ((w k).2 : Int) - D))

theorem exists_jumpAt (x : Fp12) : ∃ i, JumpAt x i := by
  obtain ⟨a, b, c, e⟩ := Fp12_exists x
  exact ⟨_, a, b, c, e, Or.inl rfl⟩

theorem exists_path (f : Fp12) (n : Nat) : ∀ v d, ∃ w : Nat → Fp12 × Nat, w 0 = (v, d) ∧ ∀ k < n, Jump f (w k) (w (k + 1)) := by
  induction n with
  | zero => exact fun v d => ⟨fun _ => (v, d), rfl, fun k hk => absurd hk (by omega)⟩
  | succ n ih =>
    intro v d
    obtain ⟨i, hi⟩ := exists_jumpAt v
    obtain ⟨w, h0, hw⟩ := ih (v * f ^ (2 ^ i)) (d + 2 ^ i)
    obtain ⟨w', h0', -, hw'⟩ := path_cons hi h0 hw
    exact ⟨w', h0', hw'⟩

theorem path_le {f : Fp12} {n : Nat} {w : Nat → Fp12 × Nat} (hw : ∀ k < n, Jump f (w k) (w (k + 1))) :
    ∀ k ≤ n, (w 0).2 + k ≤ (w k).2 := by
  intro k
  induction k with
  | zero => intro _; omega
  | succ k ih =>
    intro hk
    obtain ⟨i, -, e⟩ := hw k (by omega)
    have := ih (by omega)
    have h2 : 0 < 2 ^ i := by positivity
    rw [e]
    dsimp only
    omega

theorem kanWild_wp {table : List (FP12 × Int)} {f t : Fp12} (hT : Table table f) (D : Int) (n : Nat) :
    ∀ {ge T g : FP12} {v : Fp12} (d : Nat), FP12.Ok ge 1 (2 ^ 12) v → FP12.Ok T 1 (2 ^ 18) t → FP12.Ok g 1 (2 ^ 18) t⁻¹ →
    Wp (kanWild table D n ge T g d) (WildPost f t D n v d) := by
  induction n with
  | zero =>
    intro ge T g v d hge ht hg
    refine Wp.ret ⟨fun _ => (v, d), rfl, fun k hk => absurd hk (by omega), Or.inr ⟨rfl, ?_⟩⟩
    rintro k hk ⟨h1, -⟩
    omega
  | succ n ih =>
    intro ge T g v d hge ht hg
    unfold kanWild
    by_cases hD : (d : Int) - D < MAXPIN
    · rw [if_pos hD]
      refine Wp.bind (kanIndex_wp (hge.mono (by norm_num))) ?_
      rintro i ⟨hi, hj⟩
      refine Wp.bind (hT.get hi) ?_
      rintro ⟨m, d'⟩ ⟨hm, hd⟩
      dsimp only at hm hd ⊢
      refine Wp.bind (FP12.mul_wp (hge.mono (by norm_num)) hm) fun ge' hge' => ?_
      rw [hd, ← Nat.cast_add]
      refine Wp.bind (FP12.equalsM_wp hge' ht (by norm_num)) ?_
      rintro ⟨b, g1, t1⟩ ⟨hb, og1, ot1⟩
      dsimp only at hb og1 ot1 ⊢
      by_cases h1 : v * f ^ (2 ^ i) = t
      · rw [if_pos (hb.2 h1)]
        obtain ⟨w, h0, hw⟩ := exists_path f n (v * f ^ (2 ^ i)) (d + 2 ^ i)
        obtain ⟨w', h0', hs, hw'⟩ := path_cons hj h0 hw
        refine Wp.ret ⟨w', h0', hw', Or.inl ⟨1, by omega, ⟨le_rfl, Or.inl ?_, fun j hj hj' => by omega⟩, ?_, ?_⟩⟩
        · rw [hs 0, h0, h1]
        · rw [hs 0, h0]
        · rw [hs 0, h0, if_pos h1]
      rw [if_neg (fun e => h1 (hb.1 e))]
      refine Wp.bind (FP12.equalsM_wp og1 hg (by norm_num)) ?_
      rintro ⟨b', g2, t2⟩ ⟨hb', og2, ot2⟩
      dsimp only at hb' og2 ot2 ⊢
      by_cases h2 : v * f ^ (2 ^ i) = t⁻¹
      · rw [if_pos (hb'.2 h2)]
        obtain ⟨w, h0, hw⟩ := exists_path f n (v * f ^ (2 ^ i)) (d + 2 ^ i)
        obtain ⟨w', h0', hs, hw'⟩ := path_cons hj h0 hw
        refine Wp.ret ⟨w', h0', hw', Or.inl ⟨1, by omega, ⟨le_rfl, Or.inr ?_, fun j hj hj' => by omega⟩, ?_, ?_⟩⟩
        · rw [hs 0, h0, h2]
        · rw [hs 0, h0]
        · rw [hs 0, h0, if_neg h1]
      rw [if_neg (fun e => h2 (hb'.1 e))]
      refine (ih (d + 2 ^ i) og2 ot1 ot2).mono ?_
      rintro r ⟨w, h0, hw, hr⟩
      obtain ⟨w', h0', hs, hw'⟩ := path_cons hj h0 hw
      refine ⟨w', h0', hw', ?_⟩
      rcases hr with ⟨k, hk, hM, e1, e2⟩ | ⟨e, hr⟩
      · refine Or.inl ⟨k + 1, by omega, ⟨by omega, by rw [hs]; exact hM.2.1, ?_⟩, by rw [hs]; exact e1, by rw [hs]; exact e2⟩
        rintro (_ | _ | j) hj1 hj2
        · omega
        · rw [hs, h0]; exact ⟨h1, h2⟩
        · rw [hs]; exact hM.2.2 (j + 1) (by omega) (by omega)
      · refine Or.inr ⟨e, ?_⟩
        rintro (_ | _ | k) hk ⟨k1, hM, hN⟩
        · omega
        · rw [hs, h0] at hM
          rcases hM with h | h
          · exact absurd h h1
          · exact absurd h h2
        · rw [hs]
          rw [hs] at hM
          refine hr (k + 1) (by omega) ⟨by omega, hM, fun j hj1 hj2 => ?_⟩
          have := hN (j + 1) (by omega) (by omega)
          rwa [hs] at this
    · rw [if_neg hD]
      obtain ⟨w, h0, hw⟩ := exists_path f (n + 1) v d
      refine Wp.ret ⟨w, h0, hw, Or.inr ⟨rfl, fun k hk _ => ?_⟩⟩
      have := path_le hw k hk
      rw [h0] at this
      rw [MAXPIN] at hD
      dsimp only at this
      omega

theorem kangaroo_wp {e f : List UInt8} (he : 576 ≤ e.length) (hf : 576 ≤ f.length) (hc : Cyc (block12 f)) :
    Wp (kangaroo e f) (Kangaroo (block12 e) (block12 f)) := by
  unfold kangaroo
  refine Wp.bind (FP12.frombytes_wp he) fun ge hge => ?_
  refine Wp.bind (FP12.frombytes_wp hf) fun gf hgf => ?_
  refine Wp.bind (kanTable_wp TS 1 (hgf.mono (by norm_num)) hc) ?_
  rintro table ⟨hl, ht⟩
  have hT : Table table (block12 f) := by
    refine ⟨hl, fun i hi => ?_⟩
    obtain ⟨h1, h2⟩ := ht i hi
    rw [one_mul] at h2
    exact ⟨h1.mono (by norm_num), h2⟩
  refine Wp.bind (FP12.new_int_wp (a := 1) (by norm_num) (by norm_num)) fun t ht => ?_
  rw [Int.cast_one] at ht
  refine Wp.bind (kanTame_wp hT TRAP 0 (ht.mono (by norm_num))) ?_
  rintro ⟨t, dn⟩ ⟨tame, t0, tw, ot, od⟩
  dsimp only at ot od ⊢
  have hcyc : Cyc (tame 200).1 := by
    have : ∀ k ≤ 200, Cyc (tame k).1 := by
      intro k
      induction k with
      | zero => intro _; rw [t0]; exact Cyc.one
      | succ k ih =>
        intro hk
        obtain ⟨i, -, e⟩ := tw k (by rw [TRAP]; omega)
        rw [e]
        exact (ih (by omega)).mul (hc.pow _)
    exact this 200 le_rfl
  refine Wp.bind (FP12.conj_wp ot (by norm_num)) fun g hg => ?_
  rw [show TRAP = 200 from rfl] at ot od hg
  rw [hcyc.conj] at hg
  rw [od]
  refine Wp.bind (kanWild_wp hT _ (4 * TRAP) 0 (hge.mono (by norm_num)) (ot.mono (by norm_num)) (hg.mono (by norm_num))) ?_
  rintro ⟨res, dm⟩ ⟨wild, w0, ww, hr⟩
  dsimp only at hr ⊢
  have hS : Path (block12 f) 1 200 tame := ⟨t0, tw⟩
  have hW : Path (block12 f) (block12 e) 800 wild := ⟨w0, ww⟩
  rcases hr with ⟨k, hk, hM, rfl, rfl⟩ | ⟨rfl, hr⟩
  · dsimp only
    refine Wp.ret ⟨tame, wild, hS, hW, ?_⟩
    rw [MAXPIN]
    by_cases hD : ((wild k).2 : Int) - (tame 200).2 < 10000
    · rw [if_neg (by omega)]
      exact Or.inl ⟨k, hk, hM, hD, rfl⟩
    · rw [if_pos (by omega)]
      refine Or.inr ⟨?_, rfl⟩
      rintro ⟨k', hk', hM', hD'⟩
      have : k' = k := by
        rcases lt_trichotomy k' k with h | h | h
        · have := hM.2.2 k' hM'.1 h
          rcases hM'.2.1 with e | e
          · exact absurd e this.1
          · exact absurd e this.2
        · exact h
        · have := hM'.2.2 k hM.1 h
          rcases hM.2.1 with e | e
          · exact absurd e this.1
          · exact absurd e this.2
      subst this
      exact hD hD'
  · dsimp only
    refine Wp.ret ⟨tame, wild, hS, hW, Or.inr ⟨?_, rfl⟩⟩
    rintro ⟨k, hk, hM, hD⟩
    have := hr k hk hM
    omega

end mpin

end Amcl.B383
