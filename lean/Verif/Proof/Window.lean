import Verif.Proof.BigMore
import Verif.Model.Window
import Mathlib.Tactic.IntervalCases
import Mathlib.Tactic.Abel
import Mathlib.Tactic.Module
import Mathlib.Algebra.Module.NatInt
/-!
# The window method computes scalar multiples

The proof is over any commutative group: it needs only that the point operations represent the group
operations.
-/

set_option exponentiation.threshold 2000

namespace Amcl

theorem BIG.inc_lim {a : BIG} {x : Int} (ha : a.Nrm) (h0 : 0 ≤ a.val) (h1 : a.val < 2 ^ 406)
    (hx : Bd (2 ^ 60) x) : Wp (BIG.inc a x) fun r => r.val = a.val + x ∧ r.Lim (2 ^ 62) := by
  have hl := ha.lim58 h0 h1
  unfold BIG.inc
  refine Wp.bind (BIG.norm_wp (hl.mono (by norm_num))) ?_
  rintro s ⟨ns, vs⟩
  have : s = a := ns.ext ha vs
  subst this
  obtain ⟨l0, l1, l2, l3, l4, l5, l6⟩ := hl
  have x1 := hx.1
  have x2 := hx.2
  refine Wp.bind (Wp.of_eq (add64_eq (by omega) (by omega)) rfl) ?_
  rintro _ rfl
  refine Wp.ret ⟨by simp only [BIG.val]; ring, ?_⟩
  constructor <;> simp only <;> omega

namespace Window

/-! ### Recoding the exponent -/

/-- The exponent is made odd: `e+1` with flag 1 for even `e`, `e+2` with flag 0 for odd `e`. -/
theorem oddExp_wp {e : BIG} (he : e.Nrm) (h0 : 0 ≤ e.val) (h1 : e.val < 2 ^ 404) :
    Wp (oddExp e) fun r => r.1.Nrm ∧ r.1.val % 2 = 1 ∧ (r.2 = 0 ∨ r.2 = 1) ∧
      r.1.val = e.val + (if r.2 = 0 then 2 else 1) := by
  unfold oddExp
  refine Wp.bind (BIG.inc_lim (x := 1) he h0 (by omega) ⟨by norm_num, by norm_num⟩) ?_
  rintro a ⟨va, la⟩
  refine Wp.bind (BIG.norm_wp la) ?_
  rintro t ⟨nt, vt⟩
  refine Wp.bind (BIG.inc_lim (x := 1) nt (by omega) (by omega) ⟨by norm_num, by norm_num⟩) ?_
  rintro b ⟨vb, lb⟩
  refine Wp.bind (BIG.norm_wp lb) ?_
  rintro mt ⟨nmt, vmt⟩
  rw [BIG.parity_spec he, BIG.parity_spec nt]
  refine Wp.ret ?_
  rw [BIG.cmove_eq (nt.lim58 (by omega) (by omega) |>.mono (by norm_num))
    (nmt.lim58 (by omega) (by omega) |>.mono (by norm_num)) (by omega)]
  dsimp only
  rcases (by omega : e.val % 2 = 0 ∨ e.val % 2 = 1) with h | h
  · rw [if_pos h]
    have : t.val % 2 = 1 := by omega
    rw [this]
    exact ⟨nt, rfl, Or.inr rfl, by simp; omega⟩
  · rw [if_neg (by omega)]
    have : t.val % 2 = 0 := by omega
    rw [this]
    exact ⟨nmt, by omega, Or.inl rfl, by simp; omega⟩

/-- The signed digits are odd, in `[-15, 15]`, and represent the exponent in base 16 with leading
digit 1. -/
theorem digits_wp (n : Nat) : ∀ t : BIG, t.Nrm → 0 < t.val → t.val % 2 = 1 → t.val < 2 ^ 406 →
    t.val < 2 * 16 ^ n →
    Wp (digits n t) fun r => r.2 = 1 ∧ (∀ w ∈ r.1, -15 ≤ w ∧ w ≤ 15 ∧ w % 2 = 1) ∧
      r.1.foldr (fun w a => w + 16 * a) 1 = t.val := by
  induction n with
  | zero =>
    intro t nt h0 ho _ h1
    rw [digits]
    refine Wp.bind (BIG.lastbits_wp (nt.lim58 (by omega) (by omega) |>.mono (by norm_num)) (n := 5) (by norm_num)) ?_
    rintro ⟨l, t1⟩ ⟨hl, nt1, vt1⟩
    simp only at hl
    have h2 : t.val = 1 := by omega
    have h3 : l = 1 := by omega
    subst h3
    exact Wp.ret ⟨rfl, by simp, by simp [h2]⟩
  | succ n ih =>
    intro t nt h0 ho hb h1
    rw [digits]
    refine Wp.bind (BIG.lastbits_wp (nt.lim58 (by omega) (by omega) |>.mono (by norm_num)) (n := 5) (by norm_num)) ?_
    rintro ⟨l, t1⟩ ⟨hl, nt1, vt1⟩
    simp only at hl nt1 vt1 ⊢
    have l0 : 0 ≤ l ∧ l < 32 ∧ l % 2 = 1 := by omega
    rw [i64_eq (by omega) (by omega), Option.bind_eq_bind, Option.bind_some, as8_eq (by omega) (by omega)]
    refine Wp.bind (BIG.dec_wp (x := l - 16) (nt1.lim58 (by omega) (by omega) |>.mono (by norm_num))
      ⟨by omega, by omega⟩) ?_
    rintro t2 ⟨vt2, lt2, nt2⟩
    have e0 := nt1.w0_eq
    have nt2 := nt2 nt1 (by omega) (by omega)
    refine Wp.bind (BIG.norm_wp (nt2.lim (B := 2 ^ 59) (by omega) (by omega) (by norm_num) |>.mono (by norm_num))) ?_
    rintro t3 ⟨nt3, vt3⟩
    refine Wp.bind (BIG.fshr_wp nt3 (by norm_num)) ?_
    rintro t4 ⟨nt4, vt4⟩
    have h4 : t4.val = 2 * (t.val / 32) + 1 := by omega
    have h5 : t4.val < 2 * 16 ^ n := by
      rw [pow_succ] at h1
      omega
    refine Wp.bind (ih t4 nt4 (by omega) (by omega) (by omega) h5) ?_
    rintro ⟨ws, top⟩ ⟨w1, w2, w3⟩
    dsimp only at w1 w2 w3 ⊢
    refine Wp.ret ⟨w1, ?_, ?_⟩
    · intro w hw
      rcases List.mem_cons.1 hw with rfl | hw
      · omega
      · exact w2 w hw
    · rw [List.foldr_cons, w3]
      omega

/-! ### Table look-up -/

theorem teq_eq {b c : Int} (hb : 0 ≤ b ∧ b < 8) (hc : 0 ≤ c ∧ c < 8) :
    teq b c = some (if b = c then 1 else 0) := by
  obtain ⟨b0, b1⟩ := hb
  obtain ⟨c0, c1⟩ := hc
  interval_cases b <;> interval_cases c <;> decide

/-- The sign mask and table index of an odd digit. -/
theorem index_eq {b : Int} (h : -15 ≤ b ∧ b ≤ 15 ∧ b % 2 = 1) :
    ∃ k : Nat, k < 8 ∧ ∃ s, (s = 0 ∨ s = 1) ∧ b = (if s = 0 then 1 else -1) * (2 * k + 1) ∧
      i32 (xor32 b (sar b 31) - sar b 31) = some (2 * (k : Int) + 1) ∧
      i32 ((2 * (k : Int) + 1) - 1) = some (2 * (k : Int)) ∧ Int.tdiv (2 * k) 2 = k ∧
      and32 (sar b 31) 1 = s := by
  obtain ⟨h0, h1, h2⟩ := h
  interval_cases b
  all_goals first
    | (exfalso; revert h2; decide)
    | exact ⟨0, by decide, 0, by decide⟩ | exact ⟨1, by decide, 0, by decide⟩
    | exact ⟨2, by decide, 0, by decide⟩ | exact ⟨3, by decide, 0, by decide⟩
    | exact ⟨4, by decide, 0, by decide⟩ | exact ⟨5, by decide, 0, by decide⟩
    | exact ⟨6, by decide, 0, by decide⟩ | exact ⟨7, by decide, 0, by decide⟩
    | exact ⟨0, by decide, 1, by decide⟩ | exact ⟨1, by decide, 1, by decide⟩
    | exact ⟨2, by decide, 1, by decide⟩ | exact ⟨3, by decide, 1, by decide⟩
    | exact ⟨4, by decide, 1, by decide⟩ | exact ⟨5, by decide, 1, by decide⟩
    | exact ⟨6, by decide, 1, by decide⟩ | exact ⟨7, by decide, 1, by decide⟩

variable {P G : Type} [AddCommGroup G]

/-- The operations `o` represent the group operations of `G`. Points of the first kind (`Rep`) are
results of additions and doublings; negation takes them to the second kind (`Rep'`), with larger
excesses, which additions and doublings also accept. `Post` describes results of `affine`. -/
structure Laws (o : PointOps P) (Rep Rep' Post : P → G → Prop) : Prop where
  up : ∀ {a g}, Rep a g → Rep' a g
  add : ∀ {a b g h}, Rep' a g → Rep' b h → Wp (o.add a b) fun r => Rep r (g + h)
  dbl : ∀ {a g}, Rep' a g → Wp (o.dbl a) fun r => Rep r (g + g)
  neg : ∀ {a g}, Rep a g → Wp (o.neg a) fun r => Rep' r (-g)
  cmove : ∀ {a b g h d}, Rep' a g → Rep' b h → (d = 0 ∨ d = 1) → o.cmove a b d = if d = 0 then a else b
  affine : ∀ {a g}, Rep a g → Wp (o.affine a) fun r => Post r g

variable {o : PointOps P} {Rep Rep' Post : P → G → Prop}

theorem select_wp (L : Laws o Rep Rep' Post) {b : Int} (hb : 0 ≤ b ∧ b < 8) (W : List P) :
    ∀ (k : Int) (q : P) (h : G), 0 ≤ k → k + W.length ≤ 8 → Rep' q h →
      (∀ w ∈ W, ∃ g, Rep' w g) →
      Wp (select o b k W q) fun r => r = if k ≤ b then W.getD (b - k).toNat q else q := by
  induction W with
  | nil =>
    intro k q h _ _ _ _
    refine Wp.pure ?_
    simp
  | cons w ws ih =>
    intro k q h hk hl hq hW
    rw [List.length_cons] at hl
    rw [select, teq_eq hb (by omega), Option.bind_eq_bind, Option.bind_some]
    obtain ⟨g, hg⟩ := hW w (by simp)
    rw [L.cmove hq hg (by split <;> simp)]
    have hW' : ∀ w ∈ ws, ∃ g, Rep' w g := fun w hw => hW w (by simp [hw])
    by_cases hbk : b = k
    · rw [if_pos hbk, if_neg one_ne_zero]
      refine (ih (k + 1) w g (by omega) (by push_cast at hl; omega) hg hW').mono ?_
      rintro r rfl
      rw [if_neg (by omega), if_pos (by omega), hbk]
      simp
    · rw [if_neg hbk, if_pos rfl]
      refine (ih (k + 1) q h (by omega) (by push_cast at hl; omega) hq hW').mono ?_
      rintro r rfl
      by_cases hlt : k ≤ b
      · rw [if_pos (by omega), if_pos hlt]
        have : (b - k).toNat = (b - (k + 1)).toNat + 1 := by omega
        rw [this]
        simp
      · rw [if_neg (by omega), if_neg hlt]

/-- The table holds the eight odd multiples. -/
def TableOk (Rep : P → G → Prop) (W : List P) (g : G) : Prop :=
  W.length = 8 ∧ ∀ (k : Nat) (w : P), W[k]? = some w → Rep w ((2 * k + 1 : Int) • g)

theorem selector_wp (L : Laws o Rep Rep' Post) {W : List P} {g h : G} {q : P} (hW : TableOk Rep W g)
    (hq : Rep' q h) {b : Int} (hb : -15 ≤ b ∧ b ≤ 15 ∧ b % 2 = 1) :
    Wp (selector o W q b) fun r => Rep' r (b • g) := by
  obtain ⟨k, hk, s, hs, eb, e1, e2, e3, e4⟩ := index_eq hb
  unfold selector
  simp only
  rw [e1, Option.bind_eq_bind, Option.bind_some, e2, Option.bind_eq_bind, Option.bind_some, e3, e4]
  obtain ⟨hl, hw⟩ := hW
  refine Wp.bind (select_wp L (by omega) W 0 q h (le_refl _) (by omega) hq ?_) ?_
  · intro w hw'
    obtain ⟨i, hi⟩ := List.mem_iff_getElem?.1 hw'
    exact ⟨_, L.up (hw i w hi)⟩
  rintro r rfl
  rw [if_pos (by omega)]
  have hr : Rep (W.getD ((k : Int) - 0).toNat q) ((2 * k + 1 : Int) • g) := by
    have : ((k : Int) - 0).toNat = k := by omega
    rw [this, List.getD_eq_getElem?_getD]
    have hk' : k < W.length := by omega
    rw [List.getElem?_eq_getElem hk', Option.getD_some]
    exact hw k _ (List.getElem?_eq_getElem hk')
  generalize W.getD ((k : Int) - 0).toNat q = r at hr
  refine Wp.bind (L.neg hr) fun m hm => ?_
  refine Wp.ret ?_
  rw [L.cmove (L.up hr) hm hs]
  rcases hs with rfl | rfl
  · rw [if_pos rfl, eb, if_pos rfl, one_mul]
    exact L.up hr
  · rw [if_neg one_ne_zero, eb, if_neg one_ne_zero, neg_one_mul, neg_smul]
    exact hm

theorem table_wp (L : Laws o Rep Rep' Post) {Q : P} {g : G} (hQ : Rep' Q (g + g)) (n : Nat) :
    ∀ (c : P) (j : Nat), Rep' c ((2 * j + 1 : Int) • g) → Wp (table o Q n c) fun W =>
      W.length = n ∧ ∀ (k : Nat) (w : P), W[k]? = some w → Rep w ((2 * (j + k + 1 : Nat) + 1 : Int) • g) := by
  induction n with
  | zero => intro c j _; exact Wp.pure ⟨rfl, by simp⟩
  | succ n ih =>
    intro c j hc
    rw [table]
    refine Wp.bind (L.add hc hQ) fun c' hc' => ?_
    have e : (2 * j + 1 : Int) • g + (g + g) = (2 * (j + 1 : Nat) + 1 : Int) • g := by
      push_cast; module
    rw [e] at hc'
    refine Wp.bind (ih c' (j + 1) (L.up hc')) ?_
    rintro W ⟨hl, hw⟩
    refine Wp.ret ⟨by simp [hl], ?_⟩
    rintro (_ | k) w hk
    · simp only [List.getElem?_cons_zero, Option.some.injEq] at hk
      subst hk
      exact hc'
    · rw [List.getElem?_cons_succ] at hk
      have := hw k w hk
      rw [show j + 1 + k + 1 = j + (k + 1) + 1 by ring] at this
      exact this

theorem step_wp (L : Laws o Rep Rep' Post) {W : List P} {g h : G} {p q : P} {n : Int}
    (hW : TableOk Rep W g) (hp : Rep p (n • g)) (hq : Rep' q h) {w : Int}
    (hw : -15 ≤ w ∧ w ≤ 15 ∧ w % 2 = 1) :
    Wp (step o W (p, q) w) fun r => Rep r.1 ((w + 16 * n) • g) ∧ ∃ h', Rep' r.2 h' := by
  unfold step
  refine Wp.bind (selector_wp L hW hq hw) fun q' hq' => ?_
  refine Wp.bind (L.dbl (L.up hp)) fun p1 h1 => ?_
  refine Wp.bind (L.dbl (L.up h1)) fun p2 h2 => ?_
  refine Wp.bind (L.dbl (L.up h2)) fun p3 h3 => ?_
  refine Wp.bind (L.dbl (L.up h3)) fun p4 h4 => ?_
  refine Wp.bind (L.add (L.up h4) hq') fun p5 h5 => ?_
  refine Wp.ret ⟨?_, _, hq'⟩
  convert h5 using 1
  module

theorem fold_wp (L : Laws o Rep Rep' Post) {W : List P} {g : G} (hW : TableOk Rep W g) (ws : List Int) :
    ∀ (p q : P) (n : Int) (h : G), (∀ w ∈ ws, -15 ≤ w ∧ w ≤ 15 ∧ w % 2 = 1) → Rep p (n • g) → Rep' q h →
      Wp (ws.foldlM (step o W) (p, q)) fun r => Rep r.1 ((ws.foldl (fun a w => w + 16 * a) n) • g) := by
  induction ws with
  | nil => intro p q n h _ hp _; exact Wp.ret hp
  | cons w ws ih =>
    intro p q n h hw hp hq
    rw [List.foldlM_cons]
    refine Wp.bind (step_wp L hW hp hq (hw w (by simp))) ?_
    rintro ⟨p', q'⟩ ⟨hp', h', hq'⟩
    exact ih p' q' _ h' (fun w hw' => hw w (by simp [hw'])) hp' hq'

/-- The last addition may give more than `Rep`, and the last step may use it. -/
theorem mul_core (L : Laws o Rep Rep' Post) {Sum Post' : P → G → Prop}
    (hadd : ∀ {a b g h}, Rep' a g → Rep' b h → Wp (o.add a b) fun r => Sum r (g + h))
    (haff : ∀ {a g}, Sum a g → Wp (o.affine a) fun r => Post' r g) {s : P} {g : G} (hs : Rep s g) {e : BIG}
    (he : e.Nrm) (h0 : 0 ≤ e.val) (h1 : e.val < 2 ^ 403) : Wp (mul o s e) fun r => Post' r (e.val • g) := by
  unfold mul
  refine Wp.bind (L.dbl (L.up hs)) fun Q hQ => ?_
  refine Wp.bind (table_wp L (L.up hQ) 7 s 0 (by simpa using L.up hs)) ?_
  rintro W ⟨hl, hw⟩
  have hW : TableOk Rep (s :: W) g := by
    refine ⟨by simp [hl], ?_⟩
    rintro (_ | k) w hk
    · simp only [List.getElem?_cons_zero, Option.some.injEq] at hk
      subst hk
      simpa using hs
    · rw [List.getElem?_cons_succ] at hk
      have := hw k w hk
      rw [show 0 + k + 1 = k + 1 by ring] at this
      exact this
  refine Wp.bind (oddExp_wp he h0 (by omega)) ?_
  rintro ⟨t, ns⟩ ⟨nt, ot, hns, vt⟩
  dsimp only at nt ot hns vt ⊢
  have hd : (if ns = 0 then (2:Int) else 1) = 1 ∨ (if ns = 0 then (2:Int) else 1) = 2 := by
    split <;> simp
  have hC : Rep (o.cmove Q s ns) ((if ns = 0 then (2:Int) else 1) • g) := by
    rw [L.cmove (L.up hQ) (L.up hs) hns]
    split
    · rw [two_zsmul]; exact hQ
    · rw [one_zsmul]; exact hs
  generalize o.cmove Q s ns = C at hC
  generalize (if ns = 0 then (2:Int) else 1) = δ at hd hC vt
  refine Wp.bind (BIG.nbits_wp (nt.lim58 (by omega) (by omega) |>.mono (by norm_num)) (by omega)) ?_
  rintro _ rfl
  have hsz : Nat.size t.val.toNat ≤ 404 := by
    rw [Nat.size_le]
    omega
  rw [if_neg (by omega)]
  have hlt : t.val < 2 * 16 ^ (1 + (Nat.size t.val.toNat + 3) / 4) := by
    have h2 : t.val.toNat < 2 ^ Nat.size t.val.toNat := Nat.lt_size_self _
    have h3 : (2:Nat) ^ Nat.size t.val.toNat ≤ 2 ^ (4 * (1 + (Nat.size t.val.toNat + 3) / 4)) :=
      Nat.pow_le_pow_right (by norm_num) (by omega)
    rw [pow_mul] at h3
    have h4 : t.val.toNat < 16 ^ (1 + (Nat.size t.val.toNat + 3) / 4) := lt_of_lt_of_le h2 (by simpa using h3)
    have h5 : t.val < (16:Int) ^ (1 + (Nat.size t.val.toNat + 3) / 4) := by
      have : (t.val.toNat : Int) < ((16 ^ (1 + (Nat.size t.val.toNat + 3) / 4) : Nat) : Int) := by exact_mod_cast h4
      push_cast at this
      omega
    omega
  refine Wp.bind (digits_wp _ t nt (by omega) ot (by omega) hlt) ?_
  rintro ⟨ws, top⟩ ⟨w1, w2, w3⟩
  dsimp only at w1 w2 w3 ⊢
  subst w1
  rw [if_neg (by norm_num)]
  refine Wp.bind (R := fun x => x = s) (Wp.pure rfl) ?_
  rintro _ rfl
  refine Wp.bind (fold_wp L hW ws.reverse _ C 1 _ (fun w hw => w2 w (by simpa using hw))
    (by simpa using hs) (L.up hC)) ?_
  rintro ⟨P1, q⟩ hP1
  dsimp only at hP1 ⊢
  rw [List.foldl_reverse, w3] at hP1
  refine Wp.bind (L.neg hC) fun N hN => ?_
  refine Wp.bind (hadd (L.up hP1) hN) fun P2 hP2 => ?_
  refine (haff hP2).mono fun r hr => ?_
  rw [vt] at hr
  convert hr using 1
  module

theorem mul_wp (L : Laws o Rep Rep' Post) {s : P} {g : G} (hs : Rep s g) {e : BIG} (he : e.Nrm)
    (h0 : 0 ≤ e.val) (h1 : e.val < 2 ^ 403) : Wp (mul o s e) fun r => Post r (e.val • g) :=
  mul_core L L.add L.affine hs he h0 h1

end Window

end Amcl
