import Verif.Proof.Secp.BigMore
import Verif.Proof.Window
import Verif.Model.Secp.Window
import Mathlib.Tactic.IntervalCases
import Mathlib.Tactic.Abel
import Mathlib.Tactic.Module
import Mathlib.Algebra.Module.NatInt
/-!
# The window method computes scalar multiples

The parts that do not involve `BIG` are those of `Verif.Proof.Window`.
-/

set_option exponentiation.threshold 2000

namespace Amcl.Secp

theorem BIG.inc_lim {a : BIG} {x : Int} (ha : a.Nrm) (h0 : 0 ≤ a.val) (h1 : a.val < 2 ^ 280)
    (hx : Bd (2 ^ 60) x) : Wp (BIG.inc a x) fun r => r.val = a.val + x ∧ r.Lim (2 ^ 62) := by
  have hl := ha.lim56 h0 h1
  unfold BIG.inc
  refine Wp.bind (BIG.norm_wp (hl.mono (by norm_num))) ?_
  rintro s ⟨ns, vs⟩
  have : s = a := ns.ext ha vs
  subst this
  obtain ⟨l0, l1, l2, l3, l4⟩ := hl
  have x1 := hx.1
  have x2 := hx.2
  refine Wp.bind (Wp.of_eq (add64_eq (by omega) (by omega)) rfl) ?_
  rintro _ rfl
  refine Wp.ret ⟨by simp only [BIG.val]; ring, ?_⟩
  constructor <;> simp only <;> omega

namespace Window

/-! ### Recoding the exponent -/

/-- The exponent is made odd: `e+1` with flag 1 for even `e`, `e+2` with flag 0 for odd `e`. -/
theorem oddExp_wp {e : BIG} (he : e.Nrm) (h0 : 0 ≤ e.val) (h1 : e.val < 2 ^ 278) :
    Wp (oddExp e) fun r => r.1.Nrm ∧ r.1.val % 2 = 1 ∧ (r.2 = 0 ∨ r.2 = 1) ∧
      r.1.val = e.val + (if r.2 = 0 then 2 else 1) := by
  unfold oddExp
  refine Wp.bind (BIG.inc_lim (x := 1) he h0 (by omega) ⟨by norm_num, by norm_num⟩) ?_
  rintro a ⟨va, la⟩
  refine Wp.bind (BIG.norm_wp la) ?_
  rintro t ⟨nt, vt⟩
  refine Wp.bind (BIG.inc_lim (x := 1) nt (by omega) (by omega) ⟨by norm_num, by norm_num⟩) ?_
  rintro b ⟨vb, lb⟩
  refine Wp.bind (BIG.norm_wp lb) ?_
  rintro mt ⟨nmt, vmt⟩
  rw [BIG.parity_spec he, BIG.parity_spec nt]
  refine Wp.ret ?_
  rw [BIG.cmove_eq (nt.lim56 (by omega) (by omega) |>.mono (by norm_num))
    (nmt.lim56 (by omega) (by omega) |>.mono (by norm_num)) (by omega)]
  dsimp only
  rcases (by omega : e.val % 2 = 0 ∨ e.val % 2 = 1) with h | h
  · rw [if_pos h]
    have : t.val % 2 = 1 := by omega
    rw [this]
    exact ⟨nt, rfl, Or.inr rfl, by simp; omega⟩
  · rw [if_neg (by omega)]
    have : t.val % 2 = 0 := by omega
    rw [this]
    exact ⟨nmt, by omega, Or.inl rfl, by simp; omega⟩

/-- The signed digits are odd, in `[-15, 15]`, and represent the exponent in base 16 with leading
digit 1. -/
theorem digits_wp (n : Nat) : ∀ t : BIG, t.Nrm → 0 < t.val → t.val % 2 = 1 → t.val < 2 ^ 280 →
    t.val < 2 * 16 ^ n →
    Wp (digits n t) fun r => r.2 = 1 ∧ (∀ w ∈ r.1, -15 ≤ w ∧ w ≤ 15 ∧ w % 2 = 1) ∧
      r.1.foldr (fun w a => w + 16 * a) 1 = t.val := by
  induction n with
  | zero =>
    intro t nt h0 ho _ h1
    rw [digits]
    refine Wp.bind (BIG.lastbits_wp (nt.lim56 (by omega) (by omega) |>.mono (by norm_num)) (n := 5) (by norm_num)) ?_
    rintro ⟨l, t1⟩ ⟨hl, nt1, vt1⟩
    simp only at hl
    have h2 : t.val = 1 := by omega
    have h3 : l = 1 := by omega
    subst h3
    exact Wp.ret ⟨rfl, by simp, by simp [h2]⟩
  | succ n ih =>
    intro t nt h0 ho hb h1
    rw [digits]
    refine Wp.bind (BIG.lastbits_wp (nt.lim56 (by omega) (by omega) |>.mono (by norm_num)) (n := 5) (by norm_num)) ?_
    rintro ⟨l, t1⟩ ⟨hl, nt1, vt1⟩
    simp only at hl nt1 vt1 ⊢
    have l0 : 0 ≤ l ∧ l < 32 ∧ l % 2 = 1 := by omega
    rw [i64_eq (by omega) (by omega), Option.bind_eq_bind, Option.bind_some, as8_eq (by omega) (by omega)]
    refine Wp.bind (BIG.dec_wp (x := l - 16) (nt1.lim56 (by omega) (by omega) |>.mono (by norm_num))
      ⟨by omega, by omega⟩) ?_
    rintro t2 ⟨vt2, lt2, nt2⟩
    have e0 := nt1.w0_eq
    have nt2 := nt2 nt1 (by omega) (by omega)
    refine Wp.bind (BIG.norm_wp (nt2.lim (B := 2 ^ 57) (by omega) (by omega) (by norm_num) |>.mono (by norm_num))) ?_
    rintro t3 ⟨nt3, vt3⟩
    refine Wp.bind (BIG.fshr_wp nt3 (by norm_num)) ?_
    rintro t4 ⟨nt4, vt4⟩
    have h4 : t4.val = 2 * (t.val / 32) + 1 := by omega
    have h5 : t4.val < 2 * 16 ^ n := by
      rw [pow_succ] at h1
      omega
    refine Wp.bind (ih t4 nt4 (by omega) (by omega) (by omega) h5) ?_
    rintro ⟨ws, top⟩ ⟨w1, w2, w3⟩
    dsimp only at w1 w2 w3 ⊢
    refine Wp.ret ⟨w1, ?_, ?_⟩
    · intro w hw
      rcases List.mem_cons.1 hw with rfl | hw
      · omega
      · exact w2 w hw
    · rw [List.foldr_cons, w3]
      omega

open Amcl.Window (Laws TableOk table_wp fold_wp)

variable {P G : Type} [AddCommGroup G]

variable {o : PointOps P} {Rep Rep' Post : P → G → Prop}

/-- The last addition may give more than `Rep`, and the last step may use it. -/
theorem mul_core (L : Laws o Rep Rep' Post) {Sum Post' : P → G → Prop}
    (hadd : ∀ {a b g h}, Rep' a g → Rep' b h → Wp (o.add a b) fun r => Sum r (g + h))
    (haff : ∀ {a g}, Sum a g → Wp (o.affine a) fun r => Post' r g) {s : P} {g : G} (hs : Rep s g) {e : BIG}
    (he : e.Nrm) (h0 : 0 ≤ e.val) (h1 : e.val < 2 ^ 275) : Wp (mul o s e) fun r => Post' r (e.val • g) := by
  unfold mul
  refine Wp.bind (L.dbl (L.up hs)) fun Q hQ => ?_
  refine Wp.bind (table_wp L (L.up hQ) 7 s 0 (by simpa using L.up hs)) ?_
  rintro W ⟨hl, hw⟩
  have hW : TableOk Rep (s :: W) g := by
    refine ⟨by simp [hl], ?_⟩
    rintro (_ | k) w hk
    · simp only [List.getElem?_cons_zero, Option.some.injEq] at hk
      subst hk
      simpa using hs
    · rw [List.getElem?_cons_succ] at hk
      have := hw k w hk
      rw [show 0 + k + 1 = k + 1 by ring] at this
      exact this
  refine Wp.bind (oddExp_wp he h0 (by omega)) ?_
  rintro ⟨t, ns⟩ ⟨nt, ot, hns, vt⟩
  dsimp only at nt ot hns vt ⊢
  have hd : (if ns = 0 then (2:Int) else 1) = 1 ∨ (if ns = 0 then (2:Int) else 1) = 2 := by
    split <;> simp
  have hC : Rep (o.cmove Q s ns) ((if ns = 0 then (2:Int) else 1) • g) := by
    rw [L.cmove (L.up hQ) (L.up hs) hns]
    split
    · rw [two_zsmul]; exact hQ
    · rw [one_zsmul]; exact hs
  generalize o.cmove Q s ns = C at hC
  generalize (if ns = 0 then (2:Int) else 1) = δ at hd hC vt
  refine Wp.bind (BIG.nbits_wp (nt.lim56 (by omega) (by omega) |>.mono (by norm_num)) (by omega)) ?_
  rintro _ rfl
  have hsz : Nat.size t.val.toNat ≤ 276 := by
    rw [Nat.size_le]
    omega
  rw [if_neg (by omega)]
  have hlt : t.val < 2 * 16 ^ (1 + (Nat.size t.val.toNat + 3) / 4) := by
    have h2 : t.val.toNat < 2 ^ Nat.size t.val.toNat := Nat.lt_size_self _
    have h3 : (2:Nat) ^ Nat.size t.val.toNat ≤ 2 ^ (4 * (1 + (Nat.size t.val.toNat + 3) / 4)) :=
      Nat.pow_le_pow_right (by norm_num) (by omega)
    rw [pow_mul] at h3
    have h4 : t.val.toNat < 16 ^ (1 + (Nat.size t.val.toNat + 3) / 4) := lt_of_lt_of_le h2 (by simpa using h3)
    have h5 : t.val < (16:Int) ^ (1 + (Nat.size t.val.toNat + 3) / 4) := by
      have : (t.val.toNat : Int) < ((16 ^ (1 + (Nat.size t.val.toNat + 3) / 4) : Nat) : Int) := by exact_mod_cast h4
      push_cast at this
      omega
    omega
  refine Wp.bind (digits_wp _ t nt (by omega) ot (by omega) hlt) ?_
  rintro ⟨ws, top⟩ ⟨w1, w2, w3⟩
  dsimp only at w1 w2 w3 ⊢
  subst w1
  rw [if_neg (by norm_num)]
  refine Wp.bind (R := fun x => x = s) (Wp.pure rfl) ?_
  rintro _ rfl
  refine Wp.bind (fold_wp L hW ws.reverse _ C 1 _ (fun w hw => w2 w (by simpa using hw))
    (by simpa using hs) (L.up hC)) ?_
  rintro ⟨P1, q⟩ hP1
  dsimp only at hP1 ⊢
  rw [List.foldl_reverse, w3] at hP1
  refine Wp.bind (L.neg hC) fun N hN => ?_
  refine Wp.bind (hadd (L.up hP1) hN) fun P2 hP2 => ?_
  refine (haff hP2).mono fun r hr => ?_
  rw [vt] at hr
  convert hr using 1
  module

theorem mul_wp (L : Laws o Rep Rep' Post) {s : P} {g : G} (hs : Rep s g) {e : BIG} (he : e.Nrm)
    (h0 : 0 ≤ e.val) (h1 : e.val < 2 ^ 275) : Wp (mul o s e) fun r => Post r (e.val • g) :=
  mul_core L L.add L.affine hs he h0 h1

end Window

end Amcl.Secp
