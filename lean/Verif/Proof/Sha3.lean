import Verif.Model.Sha3
import Verif.Spec.Sha3
import Verif.Proof.Machine
import Batteries.Data.BitVec.Lemmas
import Mathlib.Tactic.FinCases
import Mathlib.Tactic.IntervalCases
import Mathlib.Tactic.Ring
import Mathlib.Data.List.GetD
/-!
# `sha3.rs` computes SHA-3
-/

namespace Amcl.SHA3

open Spec.Keccak

/-- The lanes of a state of the model. -/
def lanes (s : Vector (Vector UInt64 5) 5) : State := fun x y => s[x][y].toBitVec

theorem rotl_eq (x : UInt64) (n : UInt64) (h : 0 < n.toNat ∧ n.toNat < 64) : (rotl x n).toBitVec = x.toBitVec.rotateLeft n.toNat := by
  have h1 : n.toBitVec.toNat = n.toNat := rfl
  have h2 : (64 - n).toBitVec.toNat = 64 - n.toNat := by
    show (64 - n).toNat = _
    rw [UInt64.toNat_sub_of_le _ _ (by rw [UInt64.le_iff_toNat_le]; exact h.2.le)]
    rfl
  rw [rotl, UInt64.toBitVec_or, UInt64.toBitVec_shiftLeft, UInt64.toBitVec_shiftRight, BitVec.rotateLeft_def]
  simp only [BitVec.shiftLeft_eq', BitVec.ushiftRight_eq', BitVec.toNat_umod, h1, h2]
  rw [show (64 : BitVec 64).toNat = 64 from rfl, Nat.mod_eq_of_lt h.2, Nat.mod_eq_of_lt (by omega : 64 - n.toNat < 64)]

theorem lanes_theta (s : Vector (Vector UInt64 5) 5) : lanes (theta s) = θ (lanes s) := by
  have e : ∀ x : UInt64, (rotl x 1).toBitVec = x.toBitVec.rotateLeft 1 := fun x => rotl_eq x 1 (by decide)
  funext x y
  fin_cases x <;>
  · simp only [lanes, theta, θ, D, C]
    simp [e]

theorem lanes_rhopi (s : Vector (Vector UInt64 5) 5) : lanes (rhopi s) = π (ρ (lanes s)) := by
  funext x y
  have e : ∀ (x n : UInt64) (k : Nat), 0 < n.toNat ∧ n.toNat < 64 → n.toNat = k % 64 → (rotl x n).toBitVec = x.toBitVec.rotateLeft k := by
    intro x n k h hk
    rw [rotl_eq x n h, hk, BitVec.rotateLeft_mod_eq_rotateLeft]
  fin_cases x <;> fin_cases y
  · show s[0][0].toBitVec = s[0][0].toBitVec.rotateLeft (offset 0 0)
    rw [show offset 0 0 = 0 by decide, BitVec.rotateLeft_def]
    apply BitVec.eq_of_getLsbD_eq
    intro z hz
    simp
  all_goals exact e _ _ _ (by decide) (by decide)

theorem lanes_chi (s : Vector (Vector UInt64 5) 5) : lanes (chi s) = χ (lanes s) := by
  funext x y
  fin_cases x <;>
  · simp only [lanes, chi, χ]
    simp

theorem RC_eq : ∀ k : Fin 24, RC[k].toBitVec = Spec.Keccak.RC k := by decide +kernel

theorem rounds_eq (n : Nat) : ∀ (k : Nat) (s : Vector (Vector UInt64 5) 5), k + n ≤ 24 →
    ∃ s', rounds n k s = some s' ∧ lanes s' = (List.range' k n).foldl Rnd (lanes s) := by
  induction n with
  | zero => intro k s h; exact ⟨s, rfl, rfl⟩
  | succ n ih =>
    intro k s h
    have hk : k < 24 := by omega
    rw [rounds, Vector.getElem?_eq_getElem hk]
    obtain ⟨s', e, hs⟩ := ih (k + 1) _ (by omega)
    refine ⟨s', e, ?_⟩
    rw [hs, List.range'_succ, List.foldl_cons]
    congr 1
    unfold Rnd
    rw [← lanes_theta, ← lanes_rhopi, ← lanes_chi]
    generalize chi (rhopi (theta s)) = s
    have hr := RC_eq ⟨k, hk⟩
    funext x y
    unfold ι
    rw [← hr]
    fin_cases x
    · fin_cases y <;> simp [lanes]
    all_goals simp [lanes]

theorem transform_eq (t : SHA3) : ∃ t', transform t = some t' ∧ t'.length = t.length ∧ t'.rate = t.rate ∧ t'.len = t.len ∧
    lanes t'.s = keccakF (lanes t.s) := by
  obtain ⟨s', e, h⟩ := rounds_eq 24 0 t.s (by norm_num)
  refine ⟨{ t with s := s' }, ?_, rfl, rfl, rfl, ?_⟩
  · rw [transform, e]; rfl
  · rw [h, keccakF, List.range_eq_range']

/-! ### Bits -/

theorem bit_ext {A B : State} (h : ∀ n, n < 1600 → bit A n = bit B n) : A = B := by
  funext x y
  apply BitVec.eq_of_getLsbD_eq
  intro z hz
  have := h (64 * (5 * y + x) + z) (by omega)
  unfold bit at this
  have e1 : Fin.ofNat 5 ((64 * (5 * y.val + x) + z) / 64) = x := Fin.ext (by simp [Fin.ofNat]; omega)
  have e2 : Fin.ofNat 5 ((64 * (5 * y.val + x) + z) / 320) = y := Fin.ext (by simp [Fin.ofNat]; omega)
  rwa [e1, e2, show (64 * (5 * y.val + x) + z) % 64 = z by omega] at this

theorem bit_xorString (A : State) (P : List Bool) (n : Nat) (hn : n < 1600) :
    bit (xorString A P) n = (bit A n ^^ P.getD n false) := by
  unfold bit xorString
  rw [BitVec.getLsbD_ofFnLE]
  have : n % 64 < 64 := Nat.mod_lt _ (by norm_num)
  simp only [this, dite_true, Fin.ofNat]
  congr 2
  omega

theorem bits_length (m : List UInt8) : (bits m).length = 8 * m.length := by
  induction m with
  | nil => rfl
  | cons b m ih =>
    rw [show bits (b :: m) = ((List.range 8).map fun k => b.toBitVec.getLsbD k) ++ bits m from rfl]
    simp [ih]; omega

theorem bits_append (m l : List UInt8) : bits (m ++ l) = bits m ++ bits l := by simp [bits]

theorem bits_getD (m : List UInt8) : ∀ n, (bits m).getD n false = ((m.getD (n / 8) 0).toBitVec.getLsbD (n % 8)) := by
  induction m with
  | nil => intro n; simp [bits]
  | cons b m ih =>
    intro n
    rw [show bits (b :: m) = ((List.range 8).map fun k => b.toBitVec.getLsbD k) ++ bits m from rfl]
    by_cases h : n < 8
    · rw [List.getD_append _ _ _ _ (by simpa using h)]
      rw [List.getD_eq_getElem?_getD, List.getElem?_map, List.getElem?_range h]
      rw [Nat.div_eq_of_lt h, Nat.mod_eq_of_lt h]
      rfl
    · rw [List.getD_append_right _ _ _ _ (by simp; omega)]
      simp only [List.length_map, List.length_range]
      rw [ih, show n / 8 = (n - 8) / 8 + 1 by omega, show (n - 8) % 8 = n % 8 by omega]
      rfl

theorem bits_drop (m : List UInt8) (k : Nat) (h : k ≤ m.length) : (bits m).drop (8 * k) = bits (m.drop k) := by
  conv_lhs => rw [← List.take_append_drop k m, bits_append]
  rw [List.drop_append, List.drop_eq_nil_of_le, List.nil_append, bits_length, List.length_take, Nat.min_eq_left h, Nat.sub_self, List.drop_zero]
  rw [bits_length, List.length_take, Nat.min_eq_left h]

/-- The state with a byte added at position `k`. -/
def xorByte (A : State) (k : Nat) (b : UInt8) : State := fun x y =>
  if (k / 8) % 5 = x ∧ k / 40 = y then A x y ^^^ (b.toBitVec.setWidth 64 <<< (8 * (k % 8))) else A x y

theorem bit_xorByte (A : State) (k : Nat) (b : UInt8) (n : Nat) (hn : n < 1600) (hk : k < 200) :
    bit (xorByte A k b) n = (bit A n ^^ if n / 8 = k then b.toBitVec.getLsbD (n % 8) else false) := by
  unfold bit xorByte
  simp only [Fin.ofNat]
  split
  · next h =>
    rw [BitVec.getLsbD_xor]
    congr 1
    rw [BitVec.getLsbD_shiftLeft, BitVec.getLsbD_setWidth]
    have h64 : n % 64 < 64 := Nat.mod_lt _ (by norm_num)
    split
    · next e =>
      subst e
      have : ¬ n % 64 < 8 * (n / 8 % 8) := by omega
      have h2 : n % 64 - 8 * (n / 8 % 8) = n % 8 := by omega
      have h3 : n % 8 < 64 := by omega
      simp [h64, this, h2, h3]
    · next e =>
      by_cases h2 : n % 64 < 8 * (k % 8)
      · simp [h2]
      · have h3 : 8 ≤ n % 64 - 8 * (k % 8) := by omega
        rw [BitVec.getLsbD_of_ge _ _ h3]
        simp
  · next h =>
    rw [if_neg (by rintro rfl; exact h (by omega))]
    simp

theorem xorByte_string (A : State) (m : List UInt8) (b : UInt8) (h : m.length < 200) :
    xorByte (xorString A (bits m)) m.length b = xorString A (bits (m ++ [b])) := by
  apply bit_ext
  intro n hn
  rw [bit_xorByte _ _ _ _ hn h, bit_xorString _ _ _ hn, bit_xorString _ _ _ hn, Bool.xor_assoc]
  congr 1
  rw [bits_getD, bits_getD]
  by_cases h1 : n / 8 < m.length
  · rw [if_neg (by omega), List.getD_append _ _ _ _ h1]
    simp
  · rw [List.getD_append_right _ _ _ _ (by omega), List.getD_eq_default _ _ (by omega)]
    by_cases h2 : n / 8 = m.length
    · rw [if_pos h2, h2]; simp
    · rw [if_neg h2, List.getD_eq_default _ _ (by simp; omega)]
      simp

theorem xorString_nil (A : State) : xorString A [] = A := by
  apply bit_ext
  intro n hn
  rw [bit_xorString _ _ _ hn]
  simp

/-! ### Absorbing -/

/-- The state after the first `q` blocks of the string `P`. -/
def blocks (r : Nat) (P : List Bool) (q : Nat) : State :=
  (List.range q).foldl (fun S k => keccakF (xorString S ((P.drop (k * r)).take r))) fun _ _ => 0

theorem blocks_succ (r : Nat) (P : List Bool) (q : Nat) :
    blocks r P (q + 1) = keccakF (xorString (blocks r P q) ((P.drop (q * r)).take r)) := by
  simp [blocks, List.range_succ]

theorem blocks_append (r : Nat) (P Q : List Bool) (q : Nat) (h : q * r ≤ P.length) : blocks r (P ++ Q) q = blocks r P q := by
  induction q with
  | zero => simp [blocks]
  | succ q ih =>
    have : (q + 1) * r = q * r + r := by ring
    rw [blocks_succ, blocks_succ, ih (by omega), List.drop_append_of_le_length (by omega), List.take_append_of_le_length (by simp; omega)]

/-- The object has taken in `m`. -/
structure In (t : SHA3) (R olen : Nat) (m : List UInt8) : Prop where
  rate : t.rate = R
  len : t.len = olen
  length : t.length = m.length
  s : lanes t.s = xorString (blocks (8 * R) (bits m) (m.length / R)) (bits (m.drop (m.length / R * R)))

theorem new_in (olen : Nat) (h : olen ≤ 100) : Wp (new olen) fun t => In t (200 - 2 * olen) olen [] := by
  unfold new init
  rw [if_neg (by omega)]
  refine Wp.ret ⟨rfl, rfl, rfl, ?_⟩
  rw [List.length_nil, Nat.zero_div, List.drop_nil, show bits [] = [] from rfl, xorString_nil, show blocks (8 * (200 - 2 * olen)) [] 0 = fun _ _ => 0 from rfl]
  funext x y
  simp [lanes]

theorem process_wp {t : SHA3} {R olen : Nat} {m : List UInt8} (ht : In t R olen m) (hR : 0 < R ∧ R ≤ 200) (hm : m.length + 1 < 2 ^ 64)
    (b : UInt8) : Wp (process t b) fun t' => In t' R olen (m ++ [b]) := by
  have hc : m.length % R < R := Nat.mod_lt _ hR.1
  have hd := Nat.div_add_mod m.length R
  have hdl : (m.drop (m.length / R * R)).length = m.length % R := by
    rw [List.length_drop, Nat.mul_comm]; omega
  unfold process
  rw [if_neg (by rw [ht.rate]; omega), ht.rate, ht.length]
  simp only [Option.pure_def, Option.bind_eq_bind, Option.bind_some]
  have hi : m.length % R / 8 % 5 < 5 := Nat.mod_lt _ (by norm_num)
  have hj : m.length % R / 8 / 5 < 5 := by omega
  rw [Vector.getElem?_eq_getElem hi, Option.bind_some, Vector.getElem?_eq_getElem hj, Option.bind_some, HASH256.setAt, dif_pos hj, Option.bind_some,
    HASH256.setAt, dif_pos hi, Option.bind_some, if_neg (by omega)]
  generalize hs : t.s.set (m.length % R / 8 % 5) _ _ = s'
  have hq : 8 * (m.length / R * R) ≤ 8 * m.length := Nat.mul_le_mul_left 8 (Nat.div_mul_le_self _ _)
  have key : lanes s' = xorString (blocks (8 * R) (bits (m ++ [b])) (m.length / R)) (bits ((m ++ [b]).drop (m.length / R * R))) := by
    rw [bits_append, blocks_append _ _ _ _ (by rw [bits_length]; calc _ = 8 * (m.length / R * R) := by ring
                                                                      _ ≤ _ := hq),
      List.drop_append_of_le_length (Nat.div_mul_le_self _ _), ← xorByte_string _ _ _ (by omega), hdl, ← ht.s, ← hs]
    funext x y
    unfold xorByte lanes
    have hsh : ((b &&& 0xff).toUInt64 <<< (8 * (m.length % R % 8)).toUInt64).toBitVec =
        b.toBitVec.setWidth 64 <<< (8 * (m.length % R % 8)) := by
      have : m.length % R % 8 < 8 := Nat.mod_lt _ (by norm_num)
      generalize m.length % R % 8 = k at *
      have hb : b &&& 0xff = b := by
        apply UInt8.toBitVec_inj.1
        rw [UInt8.toBitVec_and]
        show b.toBitVec &&& BitVec.allOnes 8 = _
        rw [BitVec.and_allOnes]
      rw [hb, UInt64.toBitVec_shiftLeft, UInt8.toBitVec_toUInt64]
      interval_cases k <;> rfl
    rw [← hsh]
    simp only [Fin.getElem_fin, Vector.getElem_set]
    by_cases hx : m.length % R / 8 % 5 = x.val
    · by_cases hy : m.length % R / 8 / 5 = y.val
      · have hy' : m.length % R / 40 = y.val := by omega
        simp [hx, hy, hy']
      · have hy' : ¬ m.length % R / 40 = y.val := by omega
        simp [hx, hy, hy']
    · simp [hx]
  have hl : (m ++ [b]).length = m.length + 1 := by simp
  split
  · next hc1 =>
    obtain ⟨t', e, h1, h2, h3, h4⟩ := transform_eq ⟨m.length + 1, R, t.len, s'⟩
    refine ⟨t', e, h2, h3.trans ht.len, h1.trans hl.symm, ?_⟩
    have hdiv : (m ++ [b]).length / R = m.length / R + 1 := by
      rw [hl]
      apply Nat.div_eq_of_lt_le
      · rw [Nat.add_mul, Nat.mul_comm]; omega
      · rw [Nat.add_mul, Nat.add_mul, Nat.mul_comm]; omega
    rw [h4, key, hdiv, blocks_succ]
    have e1 : (m ++ [b]).drop ((m.length / R + 1) * R) = [] := by
      rw [List.drop_eq_nil_iff, hl, Nat.add_mul, Nat.mul_comm]
      omega
    rw [e1, show bits [] = [] from rfl, xorString_nil]
    congr 2
    rw [show m.length / R * (8 * R) = 8 * (m.length / R * R) by ring, bits_drop _ _ (by rw [hl]; have := Nat.div_mul_le_self m.length R; omega),
      List.take_of_length_le]
    rw [bits_length, List.length_drop, hl, Nat.mul_comm (m.length / R)]
    omega
  · next hc1 =>
    refine Wp.ret ⟨rfl, ht.len, hl.symm, ?_⟩
    have hdiv : (m ++ [b]).length / R = m.length / R := by
      rw [hl]
      apply Nat.div_eq_of_lt_le
      · rw [Nat.mul_comm]; omega
      · rw [Nat.add_mul, Nat.mul_comm]; omega
    rw [hdiv]
    exact key

theorem all_wp {R olen : Nat} (hR : 0 < R ∧ R ≤ 200) (l : List UInt8) : ∀ (t : SHA3) (m : List UInt8), In t R olen m →
    m.length + l.length < 2 ^ 64 → Wp (l.foldlM process t) fun t' => In t' R olen (m ++ l) := by
  induction l with
  | nil => intro t m ht _; exact Wp.ret (by simpa using ht)
  | cons b l ih =>
    intro t m ht hm
    rw [List.length_cons] at hm
    rw [List.foldlM_cons]
    refine Wp.bind (process_wp ht hR (by omega) b) fun t' ht' => ?_
    refine (ih t' _ ht' (by simp; omega)).mono fun t'' h => ?_
    simpa using h

theorem padLoop_wp {R olen : Nat} (hR : 0 < R ∧ R ≤ 200) (z : Nat) : ∀ (t : SHA3) (m : List UInt8), In t R olen m →
    z + m.length % R = R - 1 → m.length + z < 2 ^ 64 → Wp (padLoop t) fun t' => In t' R olen (m ++ List.replicate z 0) := by
  induction z with
  | zero =>
    intro t m ht hz _
    rw [padLoop, ht.rate, ht.length, if_neg (by omega)]
    rw [if_pos (by omega)]
    exact Wp.ret (by simpa using ht)
  | succ z ih =>
    intro t m ht hz hm
    rw [padLoop, ht.rate, ht.length, if_neg (by omega)]
    rw [if_neg (by omega)]
    refine Wp.bind (process_wp ht hR (by omega) 0) fun t' ht' => ?_
    have h1 : (m ++ [0]).length % R = m.length % R + 1 := by
      rw [List.length_append, List.length_singleton, Nat.add_mod, Nat.mod_eq_of_lt (by omega : 1 < R), Nat.mod_eq_of_lt (by omega)]
    refine (ih t' _ ht' (by omega) (by simp; omega)).mono fun t'' h => ?_
    simpa [List.replicate_succ] using h

/-- The padding in bytes. -/
def padBytes (R len : Nat) (one two : UInt8) : List UInt8 :=
  if len % R = R - 1 then [one] else two :: List.replicate (R - 2 - len % R) 0 ++ [0x80]

theorem padBytes_length (R len : Nat) (one two : UInt8) (hR : 0 < R) : (padBytes R len one two).length = R - len % R := by
  have := Nat.mod_lt len hR
  unfold padBytes
  split
  · simp; omega
  · simp; omega

theorem pad_wp {t : SHA3} {R olen : Nat} {m : List UInt8} (ht : In t R olen m) (hR : 0 < R ∧ R ≤ 200) (hm : m.length + 200 < 2 ^ 64)
    (one two : UInt8) : Wp (SHA3.pad t one two) fun t' => In t' R olen (m ++ padBytes R m.length one two) := by
  have hc := Nat.mod_lt m.length hR.1
  unfold SHA3.pad padBytes
  rw [ht.rate, ht.length, if_neg (by omega)]
  by_cases h1 : m.length % R = R - 1
  · rw [if_pos (by omega), if_pos h1]
    exact process_wp ht hR (by omega) one
  · rw [if_neg (by omega), if_neg h1]
    refine Wp.bind (process_wp ht hR (by omega) two) fun t' ht' => ?_
    have h2 : (m ++ [two]).length % R = m.length % R + 1 := by
      rw [List.length_append, List.length_singleton, Nat.add_mod, Nat.mod_eq_of_lt (by omega : 1 < R), Nat.mod_eq_of_lt (by omega)]
    refine Wp.bind (padLoop_wp hR (R - 2 - m.length % R) t' _ ht' (by omega) (by simp; omega)) fun t'' ht'' => ?_
    refine (process_wp ht'' hR (by simp; omega) 0x80).mono fun t3 h => ?_
    simpa using h

theorem bits_replicate (z : Nat) : bits (List.replicate z 0) = List.replicate (8 * z) false := by
  induction z with
  | zero => rfl
  | succ z ih =>
    rw [List.replicate_succ, show bits (0 :: List.replicate z 0) = List.replicate 8 false ++ bits (List.replicate z 0) from rfl, ih, List.replicate_append_replicate]
    congr 1
    omega

theorem bits_pad {R : Nat} (hR : 0 < R) (m : List UInt8) (one two : UInt8) (suf : List Bool) (hs : suf.length ≤ 6)
    (h1 : bits [one] = suf ++ true :: List.replicate (6 - suf.length) false ++ [true])
    (h2 : bits [two] = suf ++ true :: List.replicate (7 - suf.length) false) :
    bits (m ++ padBytes R m.length one two) = (bits m ++ suf) ++ Spec.Keccak.pad (8 * R) (bits m ++ suf).length := by
  have hc := Nat.mod_lt m.length hR
  have hd := Nat.div_add_mod m.length R
  have e : (-(((bits m ++ suf).length : Nat) : Int) - 2) % ((8 * R : Nat) : Int) = ((8 * (R - m.length % R) - suf.length - 2 : Nat) : Int) := by
    rw [List.length_append, bits_length]
    generalize m.length % R = c at *
    generalize m.length / R = q at *
    rw [← hd]
    have : (-((8 * (R * q + c) + suf.length : Nat) : Int) - 2) = ((8 * (R - c) - suf.length - 2 : Nat) : Int) + ((8 * R : Nat) : Int) * (-(q + 1)) := by
      push_cast [Nat.cast_sub (show c ≤ R by omega), Nat.cast_sub (show suf.length ≤ 8 * (R - c) by omega), Nat.cast_sub (show 2 ≤ 8 * (R - c) - suf.length by omega)]
      ring
    rw [this, Int.add_mul_emod_self_left, Int.emod_eq_of_lt (by positivity) (by omega)]
  rw [Spec.Keccak.pad, e, Int.toNat_natCast, bits_append, List.append_assoc]
  congr 1
  unfold padBytes
  split
  · next h =>
    rw [h1, show 8 * (R - m.length % R) - suf.length - 2 = 6 - suf.length by omega]
    simp
  · next h =>
    rw [bits_append, show bits (two :: List.replicate (R - 2 - m.length % R) 0) = bits [two] ++ bits (List.replicate (R - 2 - m.length % R) 0) by
      rw [← bits_append]; rfl, h2, bits_replicate, show bits [0x80] = List.replicate 7 false ++ [true] from rfl]
    have e2 : 8 * (R - m.length % R) - suf.length - 2 = (7 - suf.length) + (8 * (R - 2 - m.length % R) + 7) := by omega
    rw [e2, ← List.replicate_append_replicate, ← List.replicate_append_replicate]
    simp only [List.append_assoc, List.cons_append, List.nil_append]

/-- The state after padding. -/
theorem pad_state {t : SHA3} {R olen : Nat} {m : List UInt8} (ht : In t R olen m) (hR : 0 < R ∧ R ≤ 200) (hm : m.length + 200 < 2 ^ 64)
    (one two : UInt8) (suf : List Bool) (hs : suf.length ≤ 6)
    (h1 : bits [one] = suf ++ true :: List.replicate (6 - suf.length) false ++ [true])
    (h2 : bits [two] = suf ++ true :: List.replicate (7 - suf.length) false) :
    Wp (SHA3.pad t one two) fun t' => t'.rate = R ∧ t'.len = olen ∧ lanes t'.s = absorb (8 * R) (bits m ++ suf) := by
  refine (pad_wp ht hR hm one two).mono fun t' h => ⟨h.rate, h.len, ?_⟩
  have hc := Nat.mod_lt m.length hR.1
  have hd := Nat.div_add_mod m.length R
  have hl : (m ++ padBytes R m.length one two).length = R * (m.length / R + 1) := by
    rw [List.length_append, padBytes_length _ _ _ _ hR.1, Nat.mul_add]
    omega
  rw [h.s, hl, Nat.mul_div_cancel_left _ hR.1, List.drop_eq_nil_of_le (by rw [hl, Nat.mul_comm]), show bits [] = [] from rfl, xorString_nil,
    bits_pad hR.1 m one two suf hs h1 h2]
  unfold absorb blocks
  dsimp only
  rw [← bits_pad hR.1 m one two suf hs h1 h2, bits_length, hl, show 8 * (R * (m.length / R + 1)) = 8 * R * (m.length / R + 1) by ring,
    Nat.mul_div_cancel_left _ (by omega)]

/-! ### Squeezing -/

/-- Byte `k` of the string of a state. -/
def byteOf (A : State) (k : Nat) : UInt8 :=
  UInt8.ofBitVec ((A (Fin.ofNat 5 (k / 8)) (Fin.ofNat 5 (k / 40)) >>> (8 * (k % 8))).setWidth 8)

/-- The buffer `b0` with the bytes `m0` to `m - 1` replaced. -/
def Wr (A : State) (b0 b : List UInt8) (m0 m : Nat) : Prop :=
  b.length = b0.length ∧ ∀ x, b[x]? = if m0 ≤ x ∧ x < m then some (byteOf A (x - m0)) else b0[x]?

theorem Wr.step {A : State} {b0 b : List UInt8} {m0 m : Nat} (h : Wr A b0 b m0 m) (hm : m0 ≤ m) (hb : m < b0.length) :
    Wp (setB b m (byteOf A (m - m0))) fun b' => Wr A b0 b' m0 (m + 1) := by
  obtain ⟨h1, h2⟩ := h
  rw [setB, if_pos (by omega)]
  refine ⟨_, rfl, by simp [h1], fun x => ?_⟩
  rw [List.getElem?_set]
  split
  · next e => subst e; rw [if_pos (by omega), if_pos (by omega)]
  · rw [h2]
    by_cases hx : m0 ≤ x ∧ x < m
    · rw [if_pos hx, if_pos (by omega)]
    · rw [if_neg hx, if_neg (by omega)]

theorem squeezeWord_wp {s : Vector (Vector UInt64 5) 5} {b0 : List UInt8} {R olen m0 ind : Nat} (hR : 0 < R ∧ R ≤ 200)
    (hm : m0 % R = 0) (ho : olen ≤ b0.length) (hi : ind < 25) (n : Nat) : ∀ (el : UInt64) (b : List UInt8) (m : Nat), n ≤ 8 →
    m = m0 + 8 * ind + (8 - n) → m < m0 + R → m < olen → Wr (lanes s) b0 b m0 m →
    el.toBitVec = (s[ind % 5]'(by omega))[ind / 5].toBitVec >>> (8 * (8 - n)) →
    Wp (squeezeWord R olen n el b m) fun r => Wr (lanes s) b0 r.1 m0 r.2.1 ∧ (r.2.2 = true → r.2.1 = min (m0 + R) olen) ∧
      (r.2.2 = false → r.2.1 = m0 + 8 * (ind + 1) ∧ r.2.1 < m0 + R ∧ r.2.1 < olen) := by
  induction n with
  | zero =>
    intro el b m _ hk h1 h2 hw _
    exact Wp.ret ⟨hw, fun h => (by cases h), fun _ => ⟨by show m = _; omega, h1, h2⟩⟩
  | succ n ih =>
    intro el b m hn hk h1 h2 hw he
    rw [squeezeWord]
    have hb : (el &&& 0xff).toUInt8 = byteOf (lanes s) (m - m0) := by
      have e0 : m - m0 = 8 * ind + (7 - n) := by omega
      rw [e0]
      unfold byteOf lanes
      have e1 : (8 * ind + (7 - n)) / 8 = ind := by omega
      have e2 : (8 * ind + (7 - n)) / 40 = ind / 5 := by omega
      have e3 : (8 * ind + (7 - n)) % 8 = 7 - n := by omega
      rw [e1, e2, e3]
      apply UInt8.toBitVec_inj.1
      rw [UInt64.toBitVec_toUInt8, UInt64.toBitVec_and, he, show 8 - (n + 1) = 7 - n by omega]
      simp only [Fin.ofNat, Fin.getElem_fin, Nat.mod_eq_of_lt (show ind / 5 < 5 by omega)]
      show BitVec.setWidth 8 (_ &&& (255#64)) = BitVec.setWidth 8 _
      rw [BitVec.setWidth_and, show BitVec.setWidth 8 255#64 = BitVec.allOnes 8 from rfl, BitVec.and_allOnes]
    rw [hb]
    refine Wp.bind (hw.step (by omega) (by omega)) fun b' hb' => ?_
    dsimp only
    have hm1 : (m + 1) % R = 0 ↔ m + 1 = m0 + R := by
      obtain ⟨q, hq⟩ := Nat.dvd_of_mod_eq_zero hm
      rw [hq] at h1 hk ⊢
      constructor
      · intro h
        obtain ⟨q', hq'⟩ := Nat.dvd_of_mod_eq_zero h
        have l1 : R * q < R * q' := by omega
        have l2 : R * q' < R * (q + 2) := by rw [Nat.mul_add]; omega
        have l3 := lt_of_mul_lt_mul_left l1 (Nat.zero_le R)
        have l4 := lt_of_mul_lt_mul_left l2 (Nat.zero_le R)
        rw [hq', show q' = q + 1 by omega, Nat.mul_add, Nat.mul_one]
      · intro h
        rw [h, Nat.mul_add_mod, Nat.mod_self]
    split
    · next h3 => exact Wp.ret ⟨hb', fun _ => (by show m + 1 = _; omega), fun h => (by cases h)⟩
    rw [if_neg (by omega)]
    split
    · next h3 h4 => exact Wp.ret ⟨hb', fun _ => (by show m + 1 = _; rw [hm1] at h4; omega), fun h => (by cases h)⟩
    next h3 h4 =>
    rw [hm1] at h4
    refine (ih (el >>> 8) b' (m + 1) (by omega) (by omega) (by omega) (by omega) hb' ?_).mono ?_
    · rw [UInt64.toBitVec_shiftRight, he]
      show _ >>> (8 : BitVec 64) = _
      rw [show ((8 : BitVec 64)) = 8#64 from rfl, BitVec.ushiftRight_eq', ← BitVec.shiftRight_add]
      congr 1
      show 8 * (8 - (n + 1)) + 8 = _
      omega
    · exact fun _ h => h

theorem squeezeRow_wp {s : Vector (Vector UInt64 5) 5} {b0 : List UInt8} {R olen m0 j : Nat} (hR : 0 < R ∧ R ≤ 200)
    (hm : m0 % R = 0) (ho : olen ≤ b0.length) (hj : j < 5) (n : Nat) : ∀ (i : Nat) (b : List UInt8) (m : Nat), n + i = 5 →
    m = m0 + 8 * (5 * j + i) → m < m0 + R → m < olen → Wr (lanes s) b0 b m0 m →
    Wp (squeezeRow s R olen j n i b m) fun r => Wr (lanes s) b0 r.1 m0 r.2.1 ∧ (r.2.2 = true → r.2.1 = min (m0 + R) olen) ∧
      (r.2.2 = false → r.2.1 = m0 + 8 * (5 * (j + 1)) ∧ r.2.1 < m0 + R ∧ r.2.1 < olen) := by
  induction n with
  | zero =>
    intro i b m hi hk h1 h2 hw
    exact Wp.ret ⟨hw, fun h => (by cases h), fun _ => ⟨by show m = _; omega, h1, h2⟩⟩
  | succ n ih =>
    intro i b m hi hk h1 h2 hw
    have hi5 : i < 5 := by omega
    rw [squeezeRow, Vector.getElem?_eq_getElem hi5]
    refine Wp.bind (R := fun a => a = s[i]) (Wp.ret rfl) ?_
    rintro _ rfl
    rw [Vector.getElem?_eq_getElem hj]
    refine Wp.bind (R := fun a => a = s[i][j]) (Wp.ret rfl) ?_
    rintro _ rfl
    refine Wp.bind (squeezeWord_wp (ind := 5 * j + i) hR hm ho (by omega) 8 _ b m (by omega) (by omega) h1 h2 hw ?_) ?_
    · simp only [show (5 * j + i) % 5 = i by omega, show (5 * j + i) / 5 = j by omega]
      simp
    rintro ⟨b2, m2, d⟩ ⟨g1, g2, g3⟩
    dsimp only at g1 g2 g3 ⊢
    cases d
    · obtain ⟨e1, e2, e3⟩ := g3 rfl
      exact ih (i + 1) b2 m2 (by omega) (by omega) e2 e3 g1
    · exact Wp.ret ⟨g1, fun _ => g2 rfl, fun h => (by cases h)⟩

theorem squeezeAll_wp {s : Vector (Vector UInt64 5) 5} {b0 : List UInt8} {R olen m0 : Nat} (hR : 0 < R ∧ R ≤ 200)
    (hm : m0 % R = 0) (ho : olen ≤ b0.length) (n : Nat) : ∀ (j : Nat) (b : List UInt8) (m : Nat), n + j = 5 →
    m = m0 + 8 * (5 * j) → m < m0 + R → m < olen → Wr (lanes s) b0 b m0 m →
    Wp (squeezeAll s R olen n j b m) fun r => Wr (lanes s) b0 r.1 m0 r.2 ∧ r.2 = min (m0 + R) olen := by
  induction n with
  | zero => intro j b m hi hk h1 h2 hw; omega
  | succ n ih =>
    intro j b m hi hk h1 h2 hw
    rw [squeezeAll]
    refine Wp.bind (squeezeRow_wp hR hm ho (by omega) 5 0 b m (by omega) (by omega) h1 h2 hw) ?_
    rintro ⟨b2, m2, d⟩ ⟨g1, g2, g3⟩
    dsimp only at g1 g2 g3 ⊢
    cases d
    · obtain ⟨e1, e2, e3⟩ := g3 rfl
      exact ih (j + 1) b2 m2 (by omega) (by omega) e2 e3 g1
    · exact Wp.ret ⟨g1, g2 rfl⟩

/-- The buffer `b0` with the first `m` bytes replaced by output. -/
def Out (A : State) (R : Nat) (b0 b : List UInt8) (m : Nat) : Prop :=
  b.length = b0.length ∧ ∀ x, b[x]? = if x < m then some (byteOf (keccakF^[x / R] A) (x % R)) else b0[x]?

theorem squeezeLoop_wp {A : State} {b0 : List UInt8} {R olen : Nat} (hR : 0 < R ∧ R ≤ 200) (ho : olen ≤ b0.length) (n : Nat) :
    ∀ (q : Nat) (t : SHA3) (b : List UInt8), q * R < olen → olen ≤ q * R + n * R → t.rate = R → lanes t.s = keccakF^[q] A → Out A R b0 b (q * R) →
    Wp (squeezeLoop t olen b (q * R)) fun r => Out A R b0 r.1 olen := by
  induction n with
  | zero => intro q t b h1 h2; omega
  | succ n ih =>
    intro q t b h1 h2 hr hl hb
    rw [squeezeLoop, hr]
    refine Wp.bind (squeezeAll_wp (m0 := q * R) (b0 := b) hR (Nat.mul_mod_left _ _) (by rw [hb.1]; exact ho) 5 0 b (q * R) rfl (by omega) (by omega) h1
      ⟨rfl, fun x => by rw [if_neg (by omega)]⟩) ?_
    rintro ⟨b2, m2⟩ ⟨⟨g0, g1⟩, g2⟩
    dsimp only at g0 g1 g2 ⊢
    have hout : Out A R b0 b2 m2 := by
      refine ⟨g0.trans hb.1, fun x => ?_⟩
      rw [g1]
      by_cases hx : q * R ≤ x ∧ x < m2
      · rw [if_pos hx, if_pos hx.2, hl]
        have e1 : x / R = q := Nat.div_eq_of_lt_le hx.1 (by rw [Nat.add_mul]; omega)
        have e2 : x % R = x - q * R := by
          have := Nat.div_add_mod x R
          rw [e1, Nat.mul_comm] at this
          omega
        rw [e1, e2]
      · rw [if_neg hx, hb.2]
        by_cases hx2 : x < q * R
        · rw [if_pos hx2, if_pos (by omega)]
        · rw [if_neg hx2, if_neg (by omega)]
    split
    · next h3 =>
      rw [show m2 = olen by omega] at hout
      exact Wp.ret hout
    · next h3 =>
      have e : m2 = (q + 1) * R := by rw [Nat.add_mul]; omega
      obtain ⟨t', et, -, r1, -, l1⟩ := transform_eq t
      refine Wp.bind (R := fun c => c = t') ⟨_, et, rfl⟩ ?_
      rintro _ rfl
      rw [e]
      rw [e] at h3 hout
      exact ih (q + 1) _ b2 (by omega) (by rw [Nat.add_mul] at h2; rw [Nat.add_mul]; omega) (r1.trans hr)
        (by rw [l1, hl, ← Function.iterate_succ_apply' keccakF]) hout

theorem byteOf_bit (A : State) (k z : Nat) (hz : z < 8) (hk : k < 200) : (byteOf A k).toBitVec.getLsbD z = bit A (8 * k + z) := by
  unfold byteOf bit
  show (BitVec.setWidth 8 _).getLsbD z = _
  rw [BitVec.getLsbD_setWidth, BitVec.getLsbD_ushiftRight, show (8 * k + z) / 64 = k / 8 by omega, show (8 * k + z) / 320 = k / 40 by omega,
    show (8 * k + z) % 64 = 8 * (k % 8) + z by omega]
  simp [hz]

/-- The bits of the output. -/
theorem out_bits {N : List Bool} {R : Nat} {b0 b : List UInt8} {m : Nat} (hR : 0 < R ∧ R ≤ 200) (h : Out (absorb (8 * R) N) R b0 b m) (hm : m ≤ b0.length) :
    b.length = b0.length ∧ bits (b.take m) = sponge (8 * R) N (8 * m) ∧ b.drop m = b0.drop m := by
  obtain ⟨h1, h2⟩ := h
  have hl : (b.take m).length = m := by rw [List.length_take, h1]; omega
  refine ⟨h1, ?_, ?_⟩
  · apply List.ext_getElem
    · rw [bits_length, hl, sponge, List.length_map, List.length_range]
    · intro n g1 g2
      rw [bits_length, hl] at g1
      have e : (bits (b.take m))[n] = (bits (b.take m)).getD n false := by
        rw [List.getD_eq_getElem]
      rw [e, bits_getD]
      have e2 : (b.take m).getD (n / 8) 0 = byteOf (keccakF^[n / 8 / R] (absorb (8 * R) N)) (n / 8 % R) := by
        rw [List.getD_eq_getElem?_getD, List.getElem?_take, if_pos (by omega), h2, if_pos (by omega)]
        rfl
      have := Nat.mod_lt (n / 8) hR.1
      rw [e2, byteOf_bit _ _ _ (Nat.mod_lt _ (by norm_num)) (by omega)]
      simp only [sponge, List.getElem_map, List.getElem_range]
      rw [Nat.div_div_eq_div_mul, Nat.mod_mul, add_comm]
  · apply List.ext_getElem?
    intro n
    rw [List.getElem?_drop, List.getElem?_drop, h2, if_neg (by omega)]

theorem squeeze_wp {t : SHA3} {R olen : Nat} {N : List Bool} {b0 : List UInt8} (hR : 0 < R ∧ R ≤ 200) (h0 : 0 < olen) (ho : olen ≤ b0.length) (hr : t.rate = R)
    (hl : lanes t.s = absorb (8 * R) N) : Wp (squeeze t b0 olen) fun r => r.1.length = b0.length ∧ bits (r.1.take olen) = sponge (8 * R) N (8 * olen) ∧
      r.1.drop olen = b0.drop olen := by
  unfold squeeze
  have := squeezeLoop_wp (A := absorb (8 * R) N) hR ho olen 0 t b0 (by omega) (by nlinarith) hr hl ⟨rfl, fun x => by rw [if_neg (by omega)]⟩
  rw [Nat.zero_mul] at this
  exact this.mono fun r h => out_bits hR h ho

theorem hash_wp {t : SHA3} {R olen : Nat} {m b0 : List UInt8} (ht : In t R olen m) (hR : 0 < R ∧ R ≤ 200) (hm : m.length + 200 < 2 ^ 64) (h0 : 0 < olen)
    (ho : olen ≤ b0.length) : Wp (hash t b0) fun r => r.1.length = b0.length ∧ bits (r.1.take olen) = sponge (8 * R) (bits m ++ [false, true]) (8 * olen) ∧
      r.1.drop olen = b0.drop olen := by
  unfold hash
  refine Wp.bind (pad_state ht hR hm 0x86 0x06 [false, true] (by decide) (by decide) (by decide)) ?_
  rintro t' ⟨h1, h2, h3⟩
  rw [h2]
  exact squeeze_wp hR h0 ho h1 h3

theorem shake_wp {t : SHA3} {R olen d : Nat} {m b0 : List UInt8} (ht : In t R olen m) (hR : 0 < R ∧ R ≤ 200) (hm : m.length + 200 < 2 ^ 64) (h0 : 0 < d)
    (ho : d ≤ b0.length) : Wp (shake t b0 d) fun r => r.1.length = b0.length ∧ bits (r.1.take d) = sponge (8 * R) (bits m ++ [true, true, true, true]) (8 * d) ∧
      r.1.drop d = b0.drop d := by
  unfold shake
  refine Wp.bind (pad_state ht hR hm 0x9f 0x1f [true, true, true, true] (by decide) (by decide) (by decide)) ?_
  rintro t' ⟨h1, h2, h3⟩
  exact squeeze_wp hR h0 ho h1 h3

/-- With `olen = 0` one byte is written. -/
theorem squeeze_zero (t : SHA3) (b : UInt8) (l : List UInt8) : squeeze t [] 0 = none ∧
    squeeze t (b :: l) 0 = some (byteOf (lanes t.s) 0 :: l, t) := by
  constructor
  · unfold squeeze
    rw [squeezeLoop]
    rfl
  · unfold squeeze
    rw [squeezeLoop]
    have hb : (t.s[0][0] &&& 0xff).toUInt8 = byteOf (lanes t.s) 0 := by
      apply UInt8.toBitVec_inj.1
      rw [UInt64.toBitVec_toUInt8, UInt64.toBitVec_and]
      unfold byteOf lanes
      show BitVec.setWidth 8 (_ &&& (255#64)) = BitVec.setWidth 8 (t.s[0][0].toBitVec >>> 0)
      rw [BitVec.setWidth_and, show BitVec.setWidth 8 255#64 = BitVec.allOnes 8 from rfl, BitVec.and_allOnes]
      rfl
    rw [← hb]
    rfl

end Amcl.SHA3
