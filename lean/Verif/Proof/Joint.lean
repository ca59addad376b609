import Verif.Proof.Window
import Verif.Model.Joint
/-!
# Multiplication by several scalars at once

As in `Window`, the proofs are over any commutative group.
-/

set_option exponentiation.threshold 2000

namespace Amcl

theorem i8_eq {x : Int} (h1 : -2 ^ 7 ≤ x) (h2 : x < 2 ^ 7) : i8 x = some x := by
  unfold i8; rw [if_pos ⟨h1, h2⟩]

namespace Joint

variable {P G : Type} [AddCommGroup G]

/-- The operations `o` represent the group operations of `G`, as in `Window.Laws`. `Res`
describes results of additions and doublings, and `Any` values that `cmove` handles, whether or not they
represent an element of the group. -/
structure Laws (o : PointOps P) (Res Rep Rep' : P → G → Prop) (Any : P → Prop) : Prop where
  res : ∀ {a g}, Res a g → Rep a g
  up : ∀ {a g}, Rep a g → Rep' a g
  any : ∀ {a g}, Rep' a g → Any a
  add0 : ∀ {a b g h}, Rep' a g → Rep' b h → Wp (o.add a b) fun r => Res r (g + h)
  dbl0 : ∀ {a g}, Rep' a g → Wp (o.dbl a) fun r => Res r (g + g)
  neg : ∀ {a g}, Rep a g → Wp (o.neg a) fun r => Rep' r (-g)
  cmove : ∀ {a b d}, Any a → Any b → (d = 0 ∨ d = 1) → o.cmove a b d = if d = 0 then a else b

variable {o : PointOps P} {Res Rep Rep' : P → G → Prop} {Any : P → Prop}

theorem Laws.add (L : Laws o Res Rep Rep' Any) {a b : P} {g h : G} (ha : Rep' a g) (hb : Rep' b h) :
    Wp (o.add a b) fun r => Rep r (g + h) := (L.add0 ha hb).mono fun _ h => L.res h

theorem Laws.dbl (L : Laws o Res Rep Rep' Any) {a : P} {g : G} (ha : Rep' a g) :
    Wp (o.dbl a) fun r => Rep r (g + g) := (L.dbl0 ha).mono fun _ h => L.res h

/-! ### Table look-up -/

theorem select_wp (L : Laws o Res Rep Rep' Any) {b : Int} (hb : 0 ≤ b ∧ b < 8) (W : List P) :
    ∀ (k : Int) (q : P), 0 ≤ k → k + W.length ≤ 8 → Any q → (∀ w ∈ W, Any w) →
      Wp (Window.select o b k W q) fun r => r = if k ≤ b then W.getD (b - k).toNat q else q := by
  induction W with
  | nil =>
    intro k q _ _ _ _
    refine Wp.pure ?_
    simp
  | cons w ws ih =>
    intro k q hk hl hq hW
    rw [List.length_cons] at hl
    rw [Window.select, Window.teq_eq hb (by omega), Option.bind_eq_bind, Option.bind_some]
    have hg := hW w (by simp)
    rw [L.cmove hq hg (by split <;> simp)]
    have hW' : ∀ w ∈ ws, Any w := fun w hw => hW w (by simp [hw])
    by_cases hbk : b = k
    · rw [if_pos hbk, if_neg one_ne_zero]
      refine (ih (k + 1) w (by omega) (by push_cast at hl; omega) hg hW').mono ?_
      rintro r rfl
      rw [if_neg (by omega), if_pos (by omega), hbk]
      simp
    · rw [if_neg hbk, if_pos rfl]
      refine (ih (k + 1) q (by omega) (by push_cast at hl; omega) hq hW').mono ?_
      rintro r rfl
      by_cases hlt : k ≤ b
      · rw [if_pos (by omega), if_pos hlt]
        have : (b - k).toNat = (b - (k + 1)).toNat + 1 := by omega
        rw [this]
        simp
      · rw [if_neg (by omega), if_neg hlt]

/-- The table holds `F 0, …, F 7`. -/
def TableOk (Rep : P → G → Prop) (W : List P) (F : Nat → G) : Prop :=
  W.length = 8 ∧ ∀ (k : Nat) (w : P), W[k]? = some w → Rep w (F k)

/-- The digit `±(2k+1)` selects `±F k`. -/
theorem selector_wp (L : Laws o Res Rep Rep' Any) {W : List P} {F : Nat → G} {q : P} (hW : TableOk Rep W F)
    (hq : Any q) {b : Int} (hb : -15 ≤ b ∧ b ≤ 15 ∧ b % 2 = 1) :
    Wp (Window.selector o W q b) fun r => ∀ k : Nat, ∀ c : Int, (c = 1 ∨ c = -1) →
      b = c * (2 * k + 1) → Rep' r (c • F k) := by
  obtain ⟨k, hk, s, hs, eb, e1, e2, e3, e4⟩ := Window.index_eq hb
  unfold Window.selector
  simp only
  rw [e1, Option.bind_eq_bind, Option.bind_some, e2, Option.bind_eq_bind, Option.bind_some, e3, e4]
  obtain ⟨hl, hw⟩ := hW
  refine Wp.bind (select_wp L (by omega) W 0 q (le_refl _) (by omega) hq ?_) ?_
  · intro w hw'
    obtain ⟨i, hi⟩ := List.mem_iff_getElem?.1 hw'
    exact L.any (L.up (hw i w hi))
  rintro r rfl
  rw [if_pos (by omega)]
  have hr : Rep (W.getD ((k : Int) - 0).toNat q) (F k) := by
    have : ((k : Int) - 0).toNat = k := by omega
    rw [this, List.getD_eq_getElem?_getD]
    have hk' : k < W.length := by omega
    rw [List.getElem?_eq_getElem hk', Option.getD_some]
    exact hw k _ (List.getElem?_eq_getElem hk')
  generalize W.getD ((k : Int) - 0).toNat q = r at hr
  refine Wp.bind (L.neg hr) fun m hm => ?_
  refine Wp.ret ?_
  intro k' c hc hb'
  rw [L.cmove (L.any (L.up hr)) (L.any hm) hs]
  rcases hs with rfl | rfl
  · rw [if_pos rfl] at eb ⊢
    rcases hc with rfl | rfl
    · have : k' = k := by omega
      rw [this, one_smul]
      exact L.up hr
    · omega
  · rw [if_neg one_ne_zero] at eb ⊢
    rcases hc with rfl | rfl
    · omega
    · have : k' = k := by omega
      rw [this, neg_one_smul]
      exact hm

/-! ### Two scalars -/

/-- One digit: odd, in `[-3, 3]`, and what is left is odd again. -/
theorem digit_wp {t : BIG} (nt : t.Nrm) (h0 : 0 < t.val) (ho : t.val % 2 = 1) (h1 : t.val < 2 ^ 406) :
    Wp (digit t) fun r => (r.1 = -3 ∨ r.1 = -1 ∨ r.1 = 1 ∨ r.1 = 3) ∧ r.2.Nrm ∧
      t.val = r.1 + 4 * r.2.val ∧ r.2.val = 2 * (t.val / 8) + 1 := by
  unfold digit
  refine Wp.bind (BIG.lastbits_wp (nt.lim58 (by omega) (by omega) |>.mono (by norm_num)) (n := 3) (by norm_num)) ?_
  rintro ⟨l, t1⟩ ⟨hl, nt1, vt1⟩
  simp only at hl nt1 vt1 ⊢
  have l0 : 0 ≤ l ∧ l < 8 ∧ l % 2 = 1 := by omega
  rw [i64_eq (by omega) (by omega), Option.bind_eq_bind, Option.bind_some]
  refine Wp.bind (BIG.dec_wp (x := l - 4) (nt1.lim58 (by omega) (by omega) |>.mono (by norm_num))
    ⟨by omega, by omega⟩) ?_
  rintro t2 ⟨vt2, lt2, nt2⟩
  have e0 := nt1.w0_eq
  have nt2 := nt2 nt1 (by omega) (by omega)
  refine Wp.bind (BIG.norm_wp (nt2.lim (B := 2 ^ 59) (by omega) (by omega) (by norm_num) |>.mono (by norm_num))) ?_
  rintro t3 ⟨nt3, vt3⟩
  refine Wp.bind (BIG.fshr_wp nt3 (by norm_num)) ?_
  rintro t4 ⟨nt4, vt4⟩
  refine Wp.ret ⟨?_, nt4, ?_, ?_⟩ <;> dsimp only <;> omega

/-- A joint digit of the pair `(a, b)`. -/
def Dig (w : Int) (ab : Int × Int) : Prop :=
  (ab.1 = -3 ∨ ab.1 = -1 ∨ ab.1 = 1 ∨ ab.1 = 3) ∧ (ab.2 = -3 ∨ ab.2 = -1 ∨ ab.2 = 1 ∨ ab.2 = 3) ∧
    w = 4 * ab.1 + ab.2

theorem digits_wp (n : Nat) : ∀ te tf : BIG, te.Nrm → 0 < te.val → te.val % 2 = 1 → te.val < 2 ^ 406 →
    te.val < 2 * 4 ^ n → tf.Nrm → 0 < tf.val → tf.val % 2 = 1 → tf.val < 2 ^ 406 → tf.val < 2 * 4 ^ n →
    Wp (digits n te tf) fun r => r.2 = 5 ∧ ∃ ds : List (Int × Int), List.Forall₂ Dig r.1 ds ∧
      ds.foldr (fun d a => d.1 + 4 * a) 1 = te.val ∧ ds.foldr (fun d a => d.2 + 4 * a) 1 = tf.val := by
  induction n with
  | zero =>
    intro te tf nte e0 eo _ e1 ntf f0 fo _ f1
    rw [digits]
    refine Wp.bind (BIG.lastbits_wp (nte.lim58 (by omega) (by omega) |>.mono (by norm_num)) (n := 3) (by norm_num)) ?_
    rintro ⟨l, t1⟩ ⟨hl, nt1, vt1⟩
    refine Wp.bind (BIG.lastbits_wp (ntf.lim58 (by omega) (by omega) |>.mono (by norm_num)) (n := 3) (by norm_num)) ?_
    rintro ⟨m, t2⟩ ⟨hm, nt2, vt2⟩
    simp only at hl hm
    have e2 : te.val = 1 := by omega
    have f2 : tf.val = 1 := by omega
    have e3 : l = 1 := by omega
    have f3 : m = 1 := by omega
    subst e3
    subst f3
    exact Wp.ret ⟨rfl, [], List.Forall₂.nil, by simp [e2], by simp [f2]⟩
  | succ n ih =>
    intro te tf nte e0 eo eb e1 ntf f0 fo fb f1
    rw [digits]
    refine Wp.bind (digit_wp nte e0 eo eb) ?_
    rintro ⟨a, te'⟩ ⟨ha, nte', va, ve⟩
    refine Wp.bind (digit_wp ntf f0 fo fb) ?_
    rintro ⟨b, tf'⟩ ⟨hb, ntf', vb, vf⟩
    simp only at ha nte' va ve hb ntf' vb vf ⊢
    rw [i64_eq (by omega) (by omega), Option.bind_eq_bind, Option.bind_some,
      i64_eq (by omega) (by omega), Option.bind_eq_bind, Option.bind_some,
      as8_eq (by omega) (by omega)]
    rw [pow_succ] at e1 f1
    refine Wp.bind (ih te' tf' nte' (by omega) (by omega) (by omega) (by omega) ntf' (by omega) (by omega)
      (by omega) (by omega)) ?_
    rintro ⟨ws, top⟩ ⟨w1, ds, w2, w3, w4⟩
    dsimp only at w1 w2 w3 w4 ⊢
    refine Wp.ret ⟨w1, (a, b) :: ds, List.Forall₂.cons ⟨ha, hb, rfl⟩ w2, ?_, ?_⟩
    · rw [List.foldr_cons, w3]
      omega
    · rw [List.foldr_cons, w4]
      omega

/-- The table of `mul2`: entry `k` is for the digit `2k+1`. -/
def F2 (g h : G) (k : Nat) : G :=
  (if k < 4 then (1 : Int) else 3) • g + (2 * (k : Int) + 1 - 4 * (if k < 4 then 1 else 3)) • h

theorem table_wp (L : Laws o Res Rep Rep' Any) {s Q S T : P} {g h : G} (hs : Rep s g) (hQ : Rep Q h)
    (hS : Rep S (h + h)) (hT : Rep T (g + g)) :
    Wp (table o s Q S T) fun W => TableOk Rep W (F2 g h) ∧ ∃ w, W[2]? = some w ∧ Rep w (g + h) := by
  unfold table
  refine Wp.bind (L.neg hQ) fun NQ hNQ => ?_
  refine Wp.bind (L.neg hS) fun NS hNS => ?_
  refine Wp.bind (L.add (L.up hs) hNQ) fun W1 h1 => ?_
  refine Wp.bind (L.add (L.up hs) (L.up hQ)) fun W2 h2 => ?_
  refine Wp.bind (L.add (L.up h1) hNS) fun W0 h0 => ?_
  refine Wp.bind (L.add (L.up h2) (L.up hS)) fun W3 h3 => ?_
  refine Wp.bind (L.add (L.up h1) (L.up hT)) fun W5 h5 => ?_
  refine Wp.bind (L.add (L.up h2) (L.up hT)) fun W6 h6 => ?_
  refine Wp.bind (L.add (L.up h5) hNS) fun W4 h4 => ?_
  refine Wp.bind (L.add (L.up h6) (L.up hS)) fun W7 h7 => ?_
  refine Wp.ret ⟨⟨rfl, ?_⟩, W2, rfl, h2⟩
  intro k w hk
  have hk' : k < 8 := by
    by_contra hc
    rw [List.getElem?_eq_none (by simp; omega)] at hk
    exact absurd hk (by simp)
  interval_cases k <;> simp only [List.getElem?_cons_zero, List.getElem?_cons_succ, Option.some.injEq] at hk <;>
    subst hk
  · convert h0 using 1; simp [F2]; module
  · convert h1 using 1; simp [F2]
  · convert h2 using 1; simp [F2]
  · convert h3 using 1; simp [F2]; module
  · convert h4 using 1; simp [F2]; module
  · convert h5 using 1; simp [F2]; module
  · convert h6 using 1; simp [F2]; module
  · convert h7 using 1; simp [F2]; module

theorem selector2_wp (L : Laws o Res Rep Rep' Any) {W : List P} {g h : G} {q : P}
    (hW : TableOk Rep W (F2 g h)) (hq : Any q) {w : Int} {d : Int × Int} (hd : Dig w d) :
    Wp (Window.selector o W q w) fun r => Rep' r (d.1 • g + d.2 • h) := by
  obtain ⟨a, b⟩ := d
  obtain ⟨ha, hb, rfl⟩ := hd
  dsimp only at ha hb ⊢
  refine (selector_wp L hW hq (b := 4 * a + b) (by omega)).mono fun r hr => ?_
  by_cases hp : 0 < a
  · have := hr ((4 * a + b - 1) / 2).toNat 1 (Or.inl rfl) (by omega)
    convert this using 1
    rw [one_smul, F2]
    rcases (by omega : a = 1 ∨ a = 3) with rfl | rfl
    · rw [if_pos (by omega)]
      congr 2
      omega
    · rw [if_neg (by omega)]
      congr 2
      omega
  · have := hr ((-(4 * a + b) - 1) / 2).toNat (-1) (Or.inr rfl) (by omega)
    convert this using 1
    rw [neg_one_smul, F2]
    rcases (by omega : a = -1 ∨ a = -3) with rfl | rfl
    · rw [if_pos (by omega), neg_add, ← neg_smul, ← neg_smul]
      congr 2
      omega
    · rw [if_neg (by omega), neg_add, ← neg_smul, ← neg_smul]
      congr 2
      omega

theorem step_wp (L : Laws o Res Rep Rep' Any) {W : List P} {g h : G} {p q : P} {m n : Int}
    (hW : TableOk Rep W (F2 g h)) (hp : Rep p (m • g + n • h)) (hq : Any q) {w : Int} {d : Int × Int}
    (hd : Dig w d) :
    Wp (step o W (p, q) w) fun r => Rep r.1 ((d.1 + 4 * m) • g + (d.2 + 4 * n) • h) ∧ Any r.2 := by
  unfold step
  refine Wp.bind (selector2_wp L hW hq hd) fun q' hq' => ?_
  refine Wp.bind (L.dbl (L.up hp)) fun p1 h1 => ?_
  refine Wp.bind (L.dbl (L.up h1)) fun p2 h2 => ?_
  refine Wp.bind (L.add (L.up h2) hq') fun p5 h5 => ?_
  refine Wp.ret ⟨?_, L.any hq'⟩
  convert h5 using 1
  module

theorem fold_wp (L : Laws o Res Rep Rep' Any) {W : List P} {g h : G} (hW : TableOk Rep W (F2 g h))
    {ws : List Int} {ds : List (Int × Int)} (hd : List.Forall₂ Dig ws ds) :
    ∀ (p q : P) (m n : Int), Rep p (m • g + n • h) → Any q →
      Wp (ws.foldlM (step o W) (p, q)) fun r => Rep r.1
        ((ds.foldl (fun a d => d.1 + 4 * a) m) • g + (ds.foldl (fun a d => d.2 + 4 * a) n) • h) := by
  induction hd with
  | nil => intro p q m n hp _; exact Wp.ret hp
  | cons hd _ ih =>
    intro p q m n hp hq
    rw [List.foldlM_cons]
    refine Wp.bind (step_wp L hW hp hq hd) ?_
    rintro ⟨p', q'⟩ ⟨hp', hq'⟩
    exact ih p' q' _ _ hp' hq'

/-- `mul2` computes `e•g + f•h`. -/
theorem mul2_wp (L : Laws o Res Rep Rep' Any) {Post : P → G → Prop}
    (ha : ∀ {a g}, Res a g → Wp (o.affine a) fun r => Post r g)
    {s Q : P} {g h : G} (hs : Rep s g) (hQ : Rep Q h) {e f : BIG} (he : e.Nrm)
    (h0 : 0 ≤ e.val) (h1 : e.val < 2 ^ 402) (hf : f.Nrm) (f0 : 0 ≤ f.val) (f1 : f.val < 2 ^ 402) :
    Wp (mul2 o s e Q f) fun r => Post r (e.val • g + f.val • h) := by
  unfold mul2
  refine Wp.bind (L.dbl (L.up hQ)) fun S hS => ?_
  refine Wp.bind (L.dbl (L.up hs)) fun T hT => ?_
  refine Wp.bind (table_wp L hs hQ hS hT) ?_
  rintro W ⟨hW, w2, ew2, hw2⟩
  refine Wp.bind (Window.oddExp_wp he h0 (by omega)) ?_
  rintro ⟨te, ns⟩ ⟨nt, ot, hns, vt⟩
  dsimp only at nt ot hns vt ⊢
  have hC : Rep (o.cmove T s ns) ((if ns = 0 then (2:Int) else 1) • g) := by
    rw [L.cmove (L.any (L.up hT)) (L.any (L.up hs)) hns]
    split
    · rw [two_zsmul]; exact hT
    · rw [one_zsmul]; exact hs
  generalize o.cmove T s ns = C at hC
  have hd : (if ns = 0 then (2:Int) else 1) = 1 ∨ (if ns = 0 then (2:Int) else 1) = 2 := by
    split <;> simp
  generalize (if ns = 0 then (2:Int) else 1) = δ at hd hC vt
  refine Wp.bind (Window.oddExp_wp hf f0 (by omega)) ?_
  rintro ⟨tf, ms⟩ ⟨mt, pt, hms, ut⟩
  dsimp only at mt pt hms ut ⊢
  have hD : Rep (o.cmove S Q ms) ((if ms = 0 then (2:Int) else 1) • h) := by
    rw [L.cmove (L.any (L.up hS)) (L.any (L.up hQ)) hms]
    split
    · rw [two_zsmul]; exact hS
    · rw [one_zsmul]; exact hQ
  generalize o.cmove S Q ms = D at hD
  have hd' : (if ms = 0 then (2:Int) else 1) = 1 ∨ (if ms = 0 then (2:Int) else 1) = 2 := by
    split <;> simp
  generalize (if ms = 0 then (2:Int) else 1) = ε at hd' hD ut
  refine Wp.bind (L.add (L.up hC) (L.up hD)) fun E hE => ?_
  refine Wp.bind (BIG.add_wp (nt.lim58 (by omega) (by omega)) (mt.lim58 (by omega) (by omega)) (by norm_num)) ?_
  rintro a ⟨la, va⟩
  refine Wp.bind (BIG.norm_wp (la.mono (by norm_num))) ?_
  rintro b ⟨nb, vb⟩
  refine Wp.bind (BIG.nbits_wp (nb.lim58 (by omega) (by omega) |>.mono (by norm_num)) (by omega)) ?_
  rintro _ rfl
  have hsz : Nat.size b.val.toNat ≤ 404 := by
    rw [Nat.size_le]
    omega
  rw [if_neg (by omega)]
  have hlt : b.val < 2 * 4 ^ (1 + (Nat.size b.val.toNat + 1) / 2) := by
    have h2 : b.val.toNat < 2 ^ Nat.size b.val.toNat := Nat.lt_size_self _
    have h3 : (2:Nat) ^ Nat.size b.val.toNat ≤ 2 ^ (2 * (1 + (Nat.size b.val.toNat + 1) / 2)) :=
      Nat.pow_le_pow_right (by norm_num) (by omega)
    rw [pow_mul] at h3
    have h4 : b.val.toNat < 4 ^ (1 + (Nat.size b.val.toNat + 1) / 2) := lt_of_lt_of_le h2 (by simpa using h3)
    have h5 : b.val < (4:Int) ^ (1 + (Nat.size b.val.toNat + 1) / 2) := by
      have : (b.val.toNat : Int) < ((4 ^ (1 + (Nat.size b.val.toNat + 1) / 2) : Nat) : Int) := by exact_mod_cast h4
      push_cast at this
      omega
    omega
  refine Wp.bind (digits_wp _ te tf nt (by omega) ot (by omega) (by omega) mt (by omega) pt (by omega)
    (by omega)) ?_
  rintro ⟨ws, top⟩ ⟨w1, ds, d1, d2, d3⟩
  dsimp only at w1 d1 ⊢
  subst w1
  rw [if_neg (by norm_num)]
  refine Wp.bind (R := fun x => x = w2) (Wp.of_eq (by simpa using ew2) rfl) ?_
  rintro _ rfl
  refine Wp.bind (fold_wp L hW (List.rel_reverse d1) _ C 1 1 (by simpa using hw2) (L.any (L.up hC))) ?_
  rintro ⟨P1, q⟩ hP1
  dsimp only at hP1 ⊢
  rw [List.foldl_reverse, List.foldl_reverse, d2, d3] at hP1
  refine Wp.bind (L.neg hE) fun N hN => ?_
  refine Wp.bind (L.add0 (L.up hP1) hN) fun P2 hP2 => ?_
  refine (ha hP2).mono fun r hr => ?_
  rw [vt, ut] at hr
  convert hr using 1
  module

/-! ### Four scalars -/

end Joint

theorem or64_le {n : Nat} (hn : n ≤ 62) {x y : Int} (hx : 0 ≤ x ∧ x < 2 ^ n) (hy : 0 ≤ y ∧ y < 2 ^ n) :
    x ≤ or64 x y ∧ y ≤ or64 x y ∧ or64 x y < 2 ^ n := by
  have hp : (2:Nat) ^ n ≤ 2 ^ 62 := Nat.pow_le_pow_right (by norm_num) hn
  obtain ⟨a, rfl⟩ := Int.eq_ofNat_of_zero_le hx.1
  obtain ⟨b, rfl⟩ := Int.eq_ofNat_of_zero_le hy.1
  have ha : a < 2 ^ n := by exact_mod_cast hx.2
  have hb : b < 2 ^ n := by exact_mod_cast hy.2
  have hab : a ||| b < 2 ^ n := Nat.or_lt_two_pow ha hb
  have e : or64 (a : Int) (b : Int) = ((a ||| b : Nat) : Int) := by
    unfold or64
    rw [BitVec.toInt_eq_toNat_of_lt]
    · rw [BitVec.toNat_or, BitVec.ofInt_natCast, BitVec.ofInt_natCast, BitVec.toNat_ofNat, BitVec.toNat_ofNat,
        Nat.mod_eq_of_lt (by omega), Nat.mod_eq_of_lt (by omega)]
    · rw [BitVec.toNat_or, BitVec.ofInt_natCast, BitVec.ofInt_natCast, BitVec.toNat_ofNat, BitVec.toNat_ofNat,
        Nat.mod_eq_of_lt (by omega), Nat.mod_eq_of_lt (by omega)]
      omega
  rw [e]
  have h3 : ((a ||| b : Nat) : Int) < 2 ^ n := by exact_mod_cast hab
  have h1 : a ≤ a ||| b := Nat.left_le_or
  have h2 : b ≤ a ||| b := Nat.right_le_or
  omega

/-- Every limb of `a.or b` is at least the corresponding limbs of `a` and `b`. -/
theorem BIG.or_spec {a b : BIG} (na : a.Nrm) (a0 : 0 ≤ a.val) (a1 : a.val < 2 ^ 405) (nb : b.Nrm)
    (b0 : 0 ≤ b.val) (b1 : b.val < 2 ^ 405) : (a.or b).Nrm ∧ a.val ≤ (a.or b).val ∧
      b.val ≤ (a.or b).val ∧ (a.or b).val < 2 ^ 405 := by
  have ta := na.top (B := 2 ^ 57) a0 (by omega)
  have tb := nb.top (B := 2 ^ 57) b0 (by omega)
  obtain ⟨p0, p1, p2, p3, p4, p5⟩ := na
  obtain ⟨q0, q1, q2, q3, q4, q5⟩ := nb
  obtain ⟨u0, v0, w0⟩ := or64_le (n := 58) (by norm_num) p0 q0
  obtain ⟨u1, v1, w1⟩ := or64_le (n := 58) (by norm_num) p1 q1
  obtain ⟨u2, v2, w2⟩ := or64_le (n := 58) (by norm_num) p2 q2
  obtain ⟨u3, v3, w3⟩ := or64_le (n := 58) (by norm_num) p3 q3
  obtain ⟨u4, v4, w4⟩ := or64_le (n := 58) (by norm_num) p4 q4
  obtain ⟨u5, v5, w5⟩ := or64_le (n := 58) (by norm_num) p5 q5
  obtain ⟨u6, v6, w6⟩ := or64_le (n := 57) (by norm_num) (x := a.w6) (y := b.w6) (by omega) (by omega)
  refine ⟨⟨?_, ?_, ?_, ?_, ?_, ?_⟩, ?_, ?_, ?_⟩
  all_goals simp only [BIG.or, BIG.val]
  all_goals omega

theorem BIG.dec_lim {a : BIG} {x : Int} (ha : a.Nrm) (h0 : 0 ≤ a.val) (h1 : a.val < 2 ^ 406)
    (hx : Bd (2 ^ 60) x) : Wp (BIG.dec a x) fun r => r.val = a.val - x ∧ r.Lim (2 ^ 62) := by
  have := inc_lim (x := -x) ha h0 h1 ⟨by linarith [hx.2], by linarith [hx.1]⟩
  have e : dec a x = inc a (-x) := by
    unfold dec inc
    have : ∀ w, sub64 w x = add64 w (-x) := fun w => by rw [sub64, add64, Int.sub_eq_add_neg]
    simp only [this]
  rw [e]
  simpa only [Int.sub_eq_add_neg] using this

namespace Joint

variable {P G : Type} [AddCommGroup G] {o : PointOps P} {Res Rep Rep' : P → G → Prop} {Any : P → Prop}

/-- `t0` is made odd by adding `pb`. -/
theorem makeOdd_wp {t : BIG} (nt : t.Nrm) (h0 : 0 ≤ t.val) (h1 : t.val < 2 ^ 405) :
    Wp (makeOdd t) fun r => r.1.Nrm ∧ r.1.val % 2 = 1 ∧ (r.2 = 0 ∨ r.2 = 1) ∧ r.1.val = t.val + r.2 := by
  unfold makeOdd
  rw [BIG.parity_spec nt, i64_eq (by omega) (by omega), Option.bind_eq_bind, Option.bind_some]
  refine Wp.bind (BIG.inc_lim (x := 1 - t.val % 2) nt h0 (by omega) ⟨by omega, by omega⟩) ?_
  rintro a ⟨va, la⟩
  refine Wp.bind (BIG.norm_wp la) ?_
  rintro b ⟨nb, vb⟩
  refine Wp.ret ⟨nb, ?_, ?_, ?_⟩ <;> dsimp only <;> omega

/-- The signs, with a further sign 1 at the end, represent the odd number `t`. -/
theorem signs_wp (n : Nat) : ∀ t : BIG, t.Nrm → 0 ≤ t.val → t.val < 2 ^ (n + 1) →
    Wp (signs n t) fun ss => ss.length = n ∧ (∀ s ∈ ss, s = 1 ∨ s = -1) ∧
      ss.foldr (fun s a => s + 2 * a) 1 = 2 * (t.val / 2) + 1 := by
  induction n with
  | zero =>
    intro t _ h0 h1
    refine Wp.pure ⟨rfl, by simp, ?_⟩
    simp only [List.foldr_nil]
    omega
  | succ n ih =>
    intro t nt h0 h1
    rw [signs]
    refine Wp.bind (BIG.fshr_wp nt (by norm_num)) ?_
    rintro t' ⟨nt', vt'⟩
    rw [BIG.parity_spec nt', i64_eq (by omega) (by omega), Option.bind_eq_bind, Option.bind_some,
      i64_eq (by omega) (by omega), Option.bind_eq_bind, Option.bind_some, as8_eq (by omega) (by omega)]
    rw [pow_succ] at h1
    refine Wp.bind (ih t' nt' (by omega) (by omega)) ?_
    rintro ss ⟨hl, hs, hv⟩
    refine Wp.ret ⟨by simp [hl], ?_, ?_⟩
    · intro s h
      rcases List.mem_cons.1 h with rfl | h
      · omega
      · exact hs s h
    · rw [List.foldr_cons, hv]
      omega

theorem signedBit_wp {s : Int} {t : BIG} (hs : s = 1 ∨ s = -1) (nt : t.Nrm) (h0 : 0 ≤ t.val)
    (h1 : t.val < 2 ^ 406) : Wp (signedBit s t) fun r => r.1 = s * (t.val % 2) ∧ r.2.Nrm ∧
      t.val = r.1 + 2 * r.2.val := by
  unfold signedBit
  have hr : s * (t.val % 2) = 0 ∨ s * (t.val % 2) = s := by
    rcases (by omega : t.val % 2 = 0 ∨ t.val % 2 = 1) with h | h <;> rw [h] <;> simp
  have hm : s * (t.val % 2) = 0 ↔ t.val % 2 = 0 := by
    rcases hs with rfl | rfl <;> omega
  rw [BIG.parity_spec nt, as8_eq (by omega) (by omega), i8_eq (by omega) (by omega), Option.bind_eq_bind,
    Option.bind_some]
  generalize s * (t.val % 2) = b at hr hm
  refine Wp.bind (BIG.fshr_wp nt (by norm_num)) ?_
  rintro t' ⟨nt', vt'⟩
  have hb : sar b 1 = if b = -1 then -1 else 0 := by
    unfold sar
    split <;> omega
  rw [hb]
  refine Wp.bind (BIG.dec_lim (x := if b = -1 then -1 else 0) nt' (by omega) (by omega)
    ⟨by split <;> norm_num, by split <;> norm_num⟩) ?_
  rintro a ⟨va, la⟩
  refine Wp.bind (BIG.norm_wp la) ?_
  rintro c ⟨nc, vc⟩
  refine Wp.ret ⟨rfl, nc, ?_⟩
  dsimp only
  rw [vc, va]
  split <;> omega

/-- One column of the recoding: a sign and three bits. -/
structure Col where
  s : Int
  c1 : Int
  c2 : Int
  c3 : Int

/-- The digit `w` and the sign `s` of the column `d`. -/
def Dig4 (ws : Int × Int) (d : Col) : Prop :=
  ws.2 = d.s ∧ (d.s = 1 ∨ d.s = -1) ∧ (d.c1 = 0 ∨ d.c1 = 1) ∧ (d.c2 = 0 ∨ d.c2 = 1) ∧
    (d.c3 = 0 ∨ d.c3 = 1) ∧ ws.1 = d.s * (d.c1 + 2 * d.c2 + 4 * d.c3)

/-- One round of the recoding. -/
theorem recode_cons {s : Int} {ss : List Int} {t1 t2 t3 : BIG} (hs : s = 1 ∨ s = -1)
    (n1 : t1.Nrm) (a1 : 0 ≤ t1.val) (b1 : t1.val < 2 ^ 406)
    (n2 : t2.Nrm) (a2 : 0 ≤ t2.val) (b2 : t2.val < 2 ^ 406)
    (n3 : t3.Nrm) (a3 : 0 ≤ t3.val) (b3 : t3.val < 2 ^ 406) {Q : List Int → Prop}
    (h : ∀ (d : Col) (t1' t2' t3' : BIG), d.s = s → Dig4 (s * (d.c1 + 2 * d.c2 + 4 * d.c3), s) d →
      t1'.Nrm → t2'.Nrm → t3'.Nrm → t1.val = d.s * d.c1 + 2 * t1'.val → t2.val = d.s * d.c2 + 2 * t2'.val →
      t3.val = d.s * d.c3 + 2 * t3'.val → Wp (recode ss t1' t2' t3') fun ws =>
        Q (s * (d.c1 + 2 * d.c2 + 4 * d.c3) :: ws)) :
    Wp (recode (s :: ss) t1 t2 t3) Q := by
  rw [recode]
  refine Wp.bind (signedBit_wp hs n1 a1 b1) ?_
  rintro ⟨x1, t1'⟩ ⟨e1, m1, v1⟩
  dsimp only at e1 m1 v1 ⊢
  have k1 : t1.val % 2 = 0 ∨ t1.val % 2 = 1 := by omega
  have k2 : t2.val % 2 = 0 ∨ t2.val % 2 = 1 := by omega
  have k3 : t3.val % 2 = 0 ∨ t3.val % 2 = 1 := by omega
  rw [e1] at v1 ⊢
  have key := h ⟨s, t1.val % 2, t2.val % 2, t3.val % 2⟩ t1'
  dsimp only at key
  generalize t1.val % 2 = c1 at *
  have r1 : s * c1 = 0 ∨ s * c1 = s := by rcases k1 with rfl | rfl <;> simp
  rw [i8_eq (by omega) (by omega), Option.bind_eq_bind, Option.bind_some]
  refine Wp.bind (signedBit_wp hs n2 a2 b2) ?_
  rintro ⟨x2, t2'⟩ ⟨e2, m2, v2⟩
  dsimp only at e2 m2 v2 ⊢
  rw [e2] at v2 ⊢
  generalize t2.val % 2 = c2 at *
  have r2 : s * c2 = 0 ∨ s * c2 = s := by rcases k2 with rfl | rfl <;> simp
  rw [i8_eq (by omega) (by omega), Option.bind_eq_bind, Option.bind_some,
    i8_eq (by omega) (by omega), Option.bind_eq_bind, Option.bind_some]
  refine Wp.bind (signedBit_wp hs n3 a3 b3) ?_
  rintro ⟨x3, t3'⟩ ⟨e3, m3, v3⟩
  dsimp only at e3 m3 v3 ⊢
  rw [e3] at v3 ⊢
  generalize t3.val % 2 = c3 at *
  have r3 : s * c3 = 0 ∨ s * c3 = s := by rcases k3 with rfl | rfl <;> simp
  rw [i8_eq (by omega) (by omega), Option.bind_some,
    i8_eq (by omega) (by omega), Option.bind_some]
  refine Wp.bind (key t2' t3' rfl ⟨rfl, hs, k1, k2, k3, rfl⟩ m1 m2 m3 v1 v2 v3) fun ws hws => ?_
  refine Wp.ret ?_
  convert hws using 2
  ring

/-- The recoded exponent: the columns have the given signs, and their signed bits represent the three
scalars. -/
theorem recode_wp (ss : List Int) : ∀ t1 t2 t3 : BIG, (∀ s ∈ ss, s = 1 ∨ s = -1) → ss.length ≤ 405 →
    t1.Nrm → 0 ≤ t1.val → t1.val ≤ 2 ^ ss.length → t2.Nrm → 0 ≤ t2.val → t2.val ≤ 2 ^ ss.length →
    t3.Nrm → 0 ≤ t3.val → t3.val ≤ 2 ^ ss.length →
    Wp (recode (ss ++ [1]) t1 t2 t3) fun ws => ∃ (ds : List Col) (d : Col),
      List.Forall₂ Dig4 (ws.zip (ss ++ [1])) (ds ++ [d]) ∧ ds.length = ss.length ∧ d.s = 1 ∧
      ds.foldr (fun d a => d.s + 2 * a) 1 = ss.foldr (fun s a => s + 2 * a) 1 ∧
      ds.foldr (fun d a => d.s * d.c1 + 2 * a) d.c1 = t1.val ∧
      ds.foldr (fun d a => d.s * d.c2 + 2 * a) d.c2 = t2.val ∧
      ds.foldr (fun d a => d.s * d.c3 + 2 * a) d.c3 = t3.val := by
  induction ss with
  | nil =>
    intro t1 t2 t3 _ _ n1 a1 b1 n2 a2 b2 n3 a3 b3
    rw [List.length_nil, pow_zero] at b1 b2 b3
    rw [List.nil_append]
    refine recode_cons (Or.inl rfl) n1 a1 (by omega) n2 a2 (by omega) n3 a3 (by omega) ?_
    intro d t1' t2' t3' hs hd _ _ _ v1 v2 v3
    rw [recode]
    obtain ⟨-, -, k1, k2, k3, -⟩ := id hd
    rw [hs, one_mul] at v1 v2 v3
    refine Wp.pure ⟨[], d, List.Forall₂.cons hd List.Forall₂.nil, rfl, hs, rfl, ?_, ?_, ?_⟩ <;>
      simp only [List.foldr_nil] <;> omega
  | cons s ss ih =>
    intro t1 t2 t3 hss hlen n1 a1 b1 n2 a2 b2 n3 a3 b3
    rw [List.length_cons] at hlen b1 b2 b3
    have hp : (2:Int) ^ (ss.length + 1) ≤ 2 ^ 405 := pow_le_pow_right₀ (by norm_num) hlen
    have hq : (2:Int) ^ (ss.length + 1) = 2 * 2 ^ ss.length := by rw [pow_succ, mul_comm]
    rw [List.cons_append]
    have hs := hss s (by simp)
    refine recode_cons hs n1 a1 (by omega) n2 a2 (by omega) n3 a3 (by omega) ?_
    intro d t1' t2' t3' es hd m1 m2 m3 v1 v2 v3
    obtain ⟨-, -, k1, k2, k3, -⟩ := id hd
    have r1 : d.s * d.c1 = 0 ∨ d.s * d.c1 = s := by rcases k1 with h | h <;> rw [h] <;> simp [es]
    have r2 : d.s * d.c2 = 0 ∨ d.s * d.c2 = s := by rcases k2 with h | h <;> rw [h] <;> simp [es]
    have r3 : d.s * d.c3 = 0 ∨ d.s * d.c3 = s := by rcases k3 with h | h <;> rw [h] <;> simp [es]
    have hp0 : (0:Int) < 2 ^ ss.length := by positivity
    refine (ih t1' t2' t3' (fun s h => hss s (by simp [h])) (by omega) m1 (by omega) (by omega) m2 (by omega)
      (by omega) m3 (by omega) (by omega)).mono ?_
    rintro ws ⟨ds, e, f1, f0, f2, f3, f4, f5, f6⟩
    refine ⟨d :: ds, e, ?_, by simp [f0], f2, ?_, ?_, ?_, ?_⟩
    · rw [List.zip_cons_cons, List.cons_append]
      exact List.Forall₂.cons hd f1
    all_goals rw [List.foldr_cons]
    · rw [List.foldr_cons, f3, es]
    · rw [f4, v1]
    · rw [f5, v2]
    · rw [f6, v3]

/-- The table of `mul4` and `pow4`: entry `k` is for the bits of `k`. -/
def F4 (g0 g1 g2 g3 : G) (k : Nat) : G :=
  g0 + (k % 2) • g1 + (k / 2 % 2) • g2 + (k / 4) • g3

theorem sums_wp (L : Laws o Res Rep Rep' Any) {q0 q1 q2 q3 : P} {g0 g1 g2 g3 : G} (h0 : Rep q0 g0)
    (h1 : Rep' q1 g1) (h2 : Rep' q2 g2) (h3 : Rep' q3 g3) :
    Wp (sums o q0 q1 q2 q3) fun W => TableOk Rep W (F4 g0 g1 g2 g3) ∧ ∃ w, W[3]? = some w ∧ Any w := by
  unfold sums
  refine Wp.bind (L.add (L.up h0) h1) fun T1 k1 => ?_
  refine Wp.bind (L.add (L.up h0) h2) fun T2 k2 => ?_
  refine Wp.bind (L.add (L.up k1) h2) fun T3 k3 => ?_
  refine Wp.bind (L.add (L.up h0) h3) fun T4 k4 => ?_
  refine Wp.bind (L.add (L.up k1) h3) fun T5 k5 => ?_
  refine Wp.bind (L.add (L.up k2) h3) fun T6 k6 => ?_
  refine Wp.bind (L.add (L.up k3) h3) fun T7 k7 => ?_
  refine Wp.ret ⟨⟨rfl, ?_⟩, T3, rfl, L.any (L.up k3)⟩
  intro k w hk
  have hk' : k < 8 := by
    by_contra hc
    rw [List.getElem?_eq_none (by simp; omega)] at hk
    exact absurd hk (by simp)
  interval_cases k <;> simp only [List.getElem?_cons_zero, List.getElem?_cons_succ, Option.some.injEq] at hk <;>
    subst hk
  · simpa [F4] using h0
  · simpa [F4] using k1
  · simpa [F4] using k2
  · simpa [F4] using k3
  · simpa [F4] using k4
  · simpa [F4] using k5
  · simpa [F4] using k6
  · simpa [F4] using k7

theorem selector4_wp (L : Laws o Res Rep Rep' Any) {W : List P} {g0 g1 g2 g3 : G} {q : P}
    (hW : TableOk Rep W (F4 g0 g1 g2 g3)) (hq : Any q) {ws : Int × Int} {d : Col} (hd : Dig4 ws d) {i : Int}
    (hi : i = 2 * ws.1 + d.s) : Wp (Window.selector o W q i) fun r =>
      Rep' r (d.s • g0 + (d.s * d.c1) • g1 + (d.s * d.c2) • g2 + (d.s * d.c3) • g3) := by
  obtain ⟨s, c1, c2, c3⟩ := d
  obtain ⟨-, hs, k1, k2, k3, hw⟩ := hd
  dsimp only at hs k1 k2 k3 hw hi ⊢
  have hi' : i = s * (2 * ((c1 + 2 * c2 + 4 * c3).toNat : Int) + 1) := by
    rw [Int.toNat_of_nonneg (by omega), hi, hw]
    ring
  refine (selector_wp L hW hq (b := i) (by rcases hs with rfl | rfl <;> omega)).mono fun r hr => ?_
  have := hr _ s hs hi'
  convert this using 1
  rcases k1 with rfl | rfl <;> rcases k2 with rfl | rfl <;> rcases k3 with rfl | rfl <;> simp [F4] <;> module

theorem step4_wp (L : Laws o Res Rep Rep' Any) {W : List P} {g0 g1 g2 g3 : G} {p q : P} {m0 m1 m2 m3 : Int}
    (hW : TableOk Rep W (F4 g0 g1 g2 g3)) (hp : Rep' p (m0 • g0 + m1 • g1 + m2 • g2 + m3 • g3)) (hq : Any q)
    {ws : Int × Int} {d : Col} (hd : Dig4 ws d) :
    Wp (step4 o W (p, q) ws) fun r => Res r.1 ((d.s + 2 * m0) • g0 + (d.s * d.c1 + 2 * m1) • g1 +
      (d.s * d.c2 + 2 * m2) • g2 + (d.s * d.c3 + 2 * m3) • g3) ∧ Any r.2 := by
  unfold step4
  refine Wp.bind (L.dbl hp) fun p1 h1 => ?_
  have hr : -7 ≤ ws.1 ∧ ws.1 ≤ 7 ∧ -1 ≤ ws.2 ∧ ws.2 ≤ 1 := by
    obtain ⟨e, hs, k1, k2, k3, hw⟩ := id hd
    rcases hs with h | h <;> rw [h] at hw e <;> omega
  rw [i8_eq (by omega) (by omega), Option.bind_eq_bind, Option.bind_some,
    i8_eq (by omega) (by omega), Option.bind_eq_bind, Option.bind_some]
  refine Wp.bind (selector4_wp L hW hq hd (i := 2 * ws.1 + ws.2) (by rw [hd.1])) fun q' hq' => ?_
  refine Wp.bind (L.add0 (L.up h1) hq') fun p5 h5 => ?_
  refine Wp.ret ⟨?_, L.any hq'⟩
  convert h5 using 1
  module

theorem fold4_wp (L : Laws o Res Rep Rep' Any) {W : List P} {g0 g1 g2 g3 : G}
    (hW : TableOk Rep W (F4 g0 g1 g2 g3)) {ws : List (Int × Int)} {ds : List Col}
    (hd : List.Forall₂ Dig4 ws ds) :
    ∀ (p q : P) (m0 m1 m2 m3 : Int), Rep' p (m0 • g0 + m1 • g1 + m2 • g2 + m3 • g3) → Any q →
      Wp (ws.foldlM (step4 o W) (p, q)) fun r => (ws ≠ [] → Res r.1 ((ds.foldl (fun a d => d.s + 2 * a) m0) • g0 +
        (ds.foldl (fun a d => d.s * d.c1 + 2 * a) m1) • g1 +
        (ds.foldl (fun a d => d.s * d.c2 + 2 * a) m2) • g2 +
        (ds.foldl (fun a d => d.s * d.c3 + 2 * a) m3) • g3)) := by
  induction hd with
  | nil => intro p q m0 m1 m2 m3 hp _; exact Wp.ret fun h => absurd rfl h
  | @cons w d ws ds hd hf ih =>
    intro p q m0 m1 m2 m3 hp hq
    rw [List.foldlM_cons]
    refine Wp.bind (step4_wp L hW hp hq hd) ?_
    rintro ⟨p', q'⟩ ⟨hp', hq'⟩
    cases ws with
    | nil =>
      cases hf
      exact Wp.ret fun _ => hp'
    | cons w' ws' => exact (ih p' q' _ _ _ _ (L.up (L.res hp')) hq').mono fun r hr _ => hr (by simp)

/-- The four-scalar method computes `t0•g0 + t1•g1 + t2•g2 + t3•g3` for odd `t0`. -/
theorem run4_wp (L : Laws o Res Rep Rep' Any) {W : List P} {g0 g1 g2 g3 : G} {p w : P}
    (hW : TableOk Rep W (F4 g0 g1 g2 g3)) (hp : Any p) (hw : Any w) {t0 t1 t2 t3 : BIG}
    (n0 : t0.Nrm) (a0 : 0 ≤ t0.val) (b0 : t0.val < 2 ^ 405) (ho : t0.val % 2 = 1)
    (n1 : t1.Nrm) (a1 : 0 ≤ t1.val) (b1 : t1.val < 2 ^ 405)
    (n2 : t2.Nrm) (a2 : 0 ≤ t2.val) (b2 : t2.val < 2 ^ 405)
    (n3 : t3.Nrm) (a3 : 0 ≤ t3.val) (b3 : t3.val < 2 ^ 405) :
    Wp (run4 o W p w t0 t1 t2 t3) fun r =>
      Res r (t0.val • g0 + t1.val • g1 + t2.val • g2 + t3.val • g3) := by
  unfold run4
  have nz : BIG.new.Nrm := by constructor <;> simp [BIG.new]
  have vz : BIG.new.val = 0 := by simp [BIG.new, BIG.val]
  obtain ⟨m0, u0, v0, w0⟩ := BIG.or_spec nz (by omega) (by rw [vz]; norm_num) n0 a0 b0
  obtain ⟨m1, u1, v1, w1⟩ := BIG.or_spec m0 (by omega) w0 n1 a1 b1
  obtain ⟨m2, u2, v2, w2⟩ := BIG.or_spec m1 (by omega) w1 n2 a2 b2
  obtain ⟨m3, u3, v3, w3⟩ := BIG.or_spec m2 (by omega) w2 n3 a3 b3
  dsimp only
  generalize (((BIG.new.or t0).or t1).or t2).or t3 = mt at *
  refine Wp.bind (BIG.nbits_wp (m3.lim58 (by omega) (by omega) |>.mono (by norm_num)) (by omega)) ?_
  rintro _ rfl
  have hsz : Nat.size mt.val.toNat ≤ 405 := by
    rw [Nat.size_le]
    omega
  have hlt : mt.val < 2 ^ Nat.size mt.val.toNat := by
    have h2 : mt.val.toNat < 2 ^ Nat.size mt.val.toNat := Nat.lt_size_self _
    have : (mt.val.toNat : Int) < ((2 ^ Nat.size mt.val.toNat : Nat) : Int) := by exact_mod_cast h2
    push_cast at this
    omega
  have hpos : 0 < Nat.size mt.val.toNat := Nat.size_pos.2 (by omega)
  generalize Nat.size mt.val.toNat = n at *
  rw [if_neg (by omega)]
  refine Wp.bind (signs_wp n t0 n0 a0 (by rw [pow_succ]; omega)) ?_
  rintro ss ⟨hl, hs, hv⟩
  refine Wp.bind (recode_wp ss t1 t2 t3 hs (by omega) n1 a1 (by rw [hl]; omega) n2 a2 (by rw [hl]; omega) n3 a3
    (by rw [hl]; omega)) ?_
  rintro ws ⟨ds, d, f1, f0, f2, f3, f4, f5, f6⟩
  have f1' := List.rel_reverse f1
  rw [List.reverse_append, List.reverse_singleton, List.singleton_append] at f1'
  generalize (ws.zip (ss ++ [1])).reverse = l at f1'
  cases f1' with
  | @cons ts _ rest _ hd hr =>
    obtain ⟨top, s1⟩ := ts
    dsimp only
    have htop : -7 ≤ top ∧ top ≤ 7 := by
      obtain ⟨e, hs, k1, k2, k3, hw⟩ := id hd
      rw [f2] at hw
      dsimp only at hw
      omega
    rw [i8_eq (by omega) (by omega), Option.bind_eq_bind, Option.bind_some,
      i8_eq (by omega) (by omega), Option.bind_eq_bind, Option.bind_some]
    refine Wp.bind (selector4_wp L hW hp hd (i := 2 * top + 1) (by rw [f2])) fun p' hp' => ?_
    rw [f2, one_mul, one_mul, one_mul] at hp'
    refine Wp.bind (fold4_wp L hW hr p' w _ _ _ _ hp' hw) ?_
    rintro ⟨r, r'⟩ hr'
    refine Wp.ret ?_
    have hne : rest ≠ [] := by
      rintro rfl
      cases hr' : ds.reverse with
      | nil =>
        rw [List.reverse_eq_nil_iff] at hr'
        rw [hr', List.length_nil] at f0
        omega
      | cons a b => rw [hr'] at hr; cases hr
    have := hr' hne
    rw [List.foldl_reverse, List.foldl_reverse, List.foldl_reverse, List.foldl_reverse, f3, f4, f5, f6, hv] at this
    convert this using 5
    omega

end Joint

end Amcl
