import Verif.Model.Aes
import Verif.Spec.Aes
import Verif.Proof.Machine
import Mathlib.Data.Fin.Basic
import Mathlib.Tactic.IntervalCases
import Mathlib.Tactic.FinCases
import Batteries.Data.BitVec.Lemmas

namespace Amcl.AES
open Spec.AES

set_option maxRecDepth 8000

/-! ## Bytes of words -/

/-- Byte `r` of a word, the lowest first. -/
def byte (w : UInt32) (r : Fin 4) : BitVec 8 := w.toBitVec.extractLsb' (8 * r) 8

theorem byte_xor (a b : UInt32) (r : Fin 4) : byte (a ^^^ b) r = byte a r ^^^ byte b r := by
  simp [byte, BitVec.extractLsb'_xor]

theorem byte_rotl8 (w : UInt32) (r : Fin 4) : byte (rotl8 w) r = byte w (r - 1) := by
  fin_cases r <;>
  · apply BitVec.eq_of_getLsbD_eq
    intro i hi
    simp [byte, rotl8]
    interval_cases i <;> simp

theorem byte_rotl16 (w : UInt32) (r : Fin 4) : byte (rotl16 w) r = byte w (r - 2) := by
  fin_cases r <;>
  · apply BitVec.eq_of_getLsbD_eq
    intro i hi
    simp [byte, rotl16]
    interval_cases i <;> simp

theorem byte_rotl24 (w : UInt32) (r : Fin 4) : byte (rotl24 w) r = byte w (r - 3) := by
  fin_cases r <;>
  · apply BitVec.eq_of_getLsbD_eq
    intro i hi
    simp [byte, rotl24]
    interval_cases i <;> simp

theorem byte_pack (b : Vector UInt8 4) (r : Fin 4) : byte (pack b) r = b[r].toBitVec := by
  fin_cases r <;>
  · apply BitVec.eq_of_getLsbD_eq
    intro i hi
    simp [byte, pack]
    interval_cases i <;> simp

theorem unpack_toBitVec (a : UInt32) (r : Fin 4) : (unpack a)[r].toBitVec = byte a r := by
  fin_cases r <;>
  · apply BitVec.eq_of_getLsbD_eq
    intro i hi
    simp [byte, unpack]
    interval_cases i <;> simp

theorem byte_ext {a b : UInt32} (h : ∀ r, byte a r = byte b r) : a = b := by
  apply UInt32.toBitVec_inj.1
  apply BitVec.eq_of_getLsbD_eq
  intro i hi
  have h0 := congrArg (fun v => BitVec.getLsbD v (i % 8)) (h ⟨i / 8, by omega⟩)
  simp [byte] at h0
  rw [show 8 * (i / 8) + i % 8 = i by omega] at h0
  simpa [show i % 8 < 8 by omega] using h0

theorem byte_low (x : UInt8) (r : Fin 4) : byte x.toUInt32 r = if r = 0 then x.toBitVec else 0 := by
  fin_cases r <;>
  · apply BitVec.eq_of_getLsbD_eq
    intro i hi
    simp [byte]
    try (interval_cases i <;> simp)

/-- The entry of a table at a byte. -/
def tab {α : Type} (t : Vector α 256) (b : BitVec 8) : α := t[b.toNat]'b.isLt

theorem byteAt_eq {α : Type} (t : Vector α 256) (b : UInt8) : byteAt t b = tab t b.toBitVec := rfl

theorem lowAt_eq {α : Type} (t : Vector α 256) (x : UInt32) : lowAt t x = tab t (byte x 0) := by
  unfold lowAt tab
  congr 1
  simp [byte]
  exact Nat.and_two_pow_sub_one_eq_mod _ 8

theorem byte_shr8 (x : UInt32) : byte (x >>> 8) 0 = byte x 1 := by
  apply BitVec.eq_of_getLsbD_eq
  intro i hi
  simp [byte]

theorem byte_shr16 (x : UInt32) : byte (x >>> 16) 0 = byte x 2 := by
  apply BitVec.eq_of_getLsbD_eq
  intro i hi
  simp [byte]

theorem byte_shr24 (x : UInt32) : byte (x >>> 24) 0 = byte x 3 := by
  apply BitVec.eq_of_getLsbD_eq
  intro i hi
  simp [byte]

/-! ## The tables -/

theorem all_bytes {P : BitVec 8 → Prop} (h : ∀ x : Fin 256, P (BitVec.ofFin x)) (b : BitVec 8) : P b := h b.toFin

theorem fbsub_eq (b : Byte) : (tab FBSUB b).toBitVec = sbox b := by
  revert b
  apply all_bytes
  decide +kernel

theorem rbsub_eq (b : Byte) : (tab RBSUB b).toBitVec = invSbox b := by
  revert b
  apply all_bytes
  decide +kernel

theorem ftable_eq (b : Byte) (r : Fin 4) : byte (tab FTABLE b) r = mul (mixCoeff r 0) (sbox b) := by
  rw [← fbsub_eq]
  revert r b
  apply all_bytes
  decide +kernel

theorem rtable_eq (b : Byte) (r : Fin 4) : byte (tab RTABLE b) r = mul (invMixCoeff r 0) (invSbox b) := by
  rw [← rbsub_eq]
  revert r b
  apply all_bytes
  decide +kernel

theorem mixCoeff_sub (r k : Fin 4) : mixCoeff (r - k) 0 = mixCoeff r k := by
  revert r k; decide

theorem invMixCoeff_sub (r k : Fin 4) : invMixCoeff (r - k) 0 = invMixCoeff r k := by
  revert r k; decide

theorem column_f (key a b c d : UInt32) {v : Word} (h0 : v 0 = sbox (byte a 0)) (h1 : v 1 = sbox (byte b 1))
    (h2 : v 2 = sbox (byte c 2)) (h3 : v 3 = sbox (byte d 3)) (r : Fin 4) :
    byte (column FTABLE key a b c d) r = mixColumn v r ^^^ byte key r := by
  unfold column mixColumn
  rw [h0, h1, h2, h3]
  simp only [byte_xor, byte_rotl8, byte_rotl16, byte_rotl24, lowAt_eq, byte_shr8, byte_shr16, byte_shr24, ftable_eq, mixCoeff_sub]
  ac_rfl

theorem column_r (key a b c d : UInt32) {v : Word} (h0 : v 0 = invSbox (byte a 0)) (h1 : v 1 = invSbox (byte b 1))
    (h2 : v 2 = invSbox (byte c 2)) (h3 : v 3 = invSbox (byte d 3)) (r : Fin 4) :
    byte (column RTABLE key a b c d) r = invMixColumn v r ^^^ byte key r := by
  unfold column invMixColumn
  rw [h0, h1, h2, h3]
  simp only [byte_xor, byte_rotl8, byte_rotl16, byte_rotl24, lowAt_eq, byte_shr8, byte_shr16, byte_shr24, rtable_eq, invMixCoeff_sub]
  ac_rfl

theorem lastColumn_eq (t : Vector UInt8 256) (key a b c d : UInt32) (r : Fin 4) :
    byte (lastColumn t key a b c d) r =
      (tab t (match r with | 0 => byte a 0 | 1 => byte b 1 | 2 => byte c 2 | 3 => byte d 3)).toBitVec ^^^ byte key r := by
  unfold lastColumn
  simp only [byte_xor, byte_rotl8, byte_rotl16, byte_rotl24, lowAt_eq, byte_shr8, byte_shr16, byte_shr24, byte_low]
  fin_cases r <;> simp <;> ac_rfl

/-! ## Blocks and states -/

/-- The block of the bytes of a buffer. -/
def blk (v : Vector UInt8 16) : Block := fun i => v[i].toBitVec

theorem blk_inj {a b : Vector UInt8 16} (h : blk a = blk b) : a = b := by
  apply Vector.ext
  intro i hi
  have := congrFun h ⟨i, hi⟩
  exact UInt8.toBitVec_inj.1 this

/-- The state in four words. -/
def st (p : Vector UInt32 4) : State := fun r c => byte p[c] r

/-- The words of a key. -/
def wd (w : UInt32) : Word := byte w

/-- The first `n` words of the array are those of `w`. -/
def Keys (key : Vector UInt32 60) (n : Nat) (w : Nat → Word) : Prop := ∀ i (h : i < 60), i < n → byte key[i] = w i

theorem load_eq (key : Vector UInt32 60) {w : Nat → Word} {n : Nat} (hk : Keys key n w) (hn : 4 ≤ n) (buff : Vector UInt8 16) :
    st (load key buff) = addRoundKey w 0 (ofBlock (blk buff)) := by
  funext r c
  unfold addRoundKey
  have h := congrFun (hk c (by omega) (by omega)) r
  rw [show 4 * 0 + c.val = c.val by omega, ← h]
  unfold st load
  fin_cases c <;> (simp [byte_xor, byte_pack]; fin_cases r <;> rfl)

theorem store_eq (q0 q1 q2 q3 : UInt32) : blk (store q0 q1 q2 q3) = toBlock (st #v[q0, q1, q2, q3]) := by
  funext i
  have h := unpack_toBitVec
  unfold blk store toBlock st
  fin_cases i
  · exact h q0 0
  · exact h q0 1
  · exact h q0 2
  · exact h q0 3
  · exact h q1 0
  · exact h q1 1
  · exact h q1 2
  · exact h q1 3
  · exact h q2 0
  · exact h q2 1
  · exact h q2 2
  · exact h q2 3
  · exact h q3 0
  · exact h q3 1
  · exact h q3 2
  · exact h q3 3

theorem keys_get {key : Vector UInt32 60} {w : Nat → Word} {n k : Nat} (hk : Keys key n w) (hn : n ≤ 60) (h : k < n) :
    ∃ x, key[k]? = some x ∧ byte x = w k :=
  ⟨_, Vector.getElem?_eq_getElem (by omega), hk k (by omega) h⟩

theorem encRounds_wp (key : Vector UInt32 60) {w : Nat → Word} {N : Nat} (hk : Keys key N w) (hN : N ≤ 60) :
    ∀ n i p s, st p = rounds w i s → 4 * (i + n) + 4 ≤ N →
      Wp (encRounds key n (4 * (i + 1)) p) fun r => r.1 = 4 * (i + n + 1) ∧ st r.2 = rounds w (i + n) s := by
  intro n
  induction n with
  | zero => intro i p s hp _; exact Wp.ret ⟨rfl, hp⟩
  | succ n ih =>
    intro i p s hp hN'
    obtain ⟨x0, e0, f0⟩ := keys_get hk hN (k := 4 * (i + 1)) (by omega)
    obtain ⟨x1, e1, f1⟩ := keys_get hk hN (k := 4 * (i + 1) + 1) (by omega)
    obtain ⟨x2, e2, f2⟩ := keys_get hk hN (k := 4 * (i + 1) + 2) (by omega)
    obtain ⟨x3, e3, f3⟩ := keys_get hk hN (k := 4 * (i + 1) + 3) (by omega)
    rw [encRounds]
    simp only [e0, e1, e2, e3, Option.bind_eq_bind, Option.bind_some]
    have hs : st #v[column FTABLE x0 p[0] p[1] p[2] p[3], column FTABLE x1 p[1] p[2] p[3] p[0],
        column FTABLE x2 p[2] p[3] p[0] p[1], column FTABLE x3 p[3] p[0] p[1] p[2]] = rounds w (i + 1) s := by
      rw [rounds, ← hp]
      funext r c
      unfold addRoundKey mixColumns
      fin_cases c
      · exact (column_f _ _ _ _ _ rfl rfl rfl rfl r).trans (congrArg _ (congrFun f0 r))
      · exact (column_f _ _ _ _ _ rfl rfl rfl rfl r).trans (congrArg _ (congrFun f1 r))
      · exact (column_f _ _ _ _ _ rfl rfl rfl rfl r).trans (congrArg _ (congrFun f2 r))
      · exact (column_f _ _ _ _ _ rfl rfl rfl rfl r).trans (congrArg _ (congrFun f3 r))
    have := ih (i + 1) _ s hs (by omega)
    rw [show 4 * (i + 1 + 1) = 4 * (i + 1) + 4 by omega] at this
    refine this.mono ?_
    rintro ⟨k, q⟩ ⟨h1, h2⟩
    refine ⟨by dsimp only at h1 ⊢; omega, ?_⟩
    rw [h2]
    congr 1
    omega

/-- `ecb_encrypt` is the cipher of FIPS 197 with the words of the encryption key. -/
theorem ecb_encrypt_wp (a : AES) {w : Nat → Word} (hk : Keys a.fkey (4 * (a.nr + 1)) w) (h1 : 1 ≤ a.nr) (h2 : a.nr ≤ 14)
    (buff : Vector UInt8 16) : Wp (ecb_encrypt a buff) fun c => blk c = cipher a.nr w (blk buff) := by
  have hN : 4 * (a.nr + 1) ≤ 60 := by omega
  unfold ecb_encrypt
  refine Wp.bind (encRounds_wp a.fkey hk hN (a.nr - 1) 0 _ (st (load a.fkey buff)) rfl (by omega)) ?_
  rintro ⟨k, p⟩ ⟨hk', hp⟩
  dsimp only at hk' hp ⊢
  have hk' : k = 4 * a.nr := by omega
  subst hk'
  obtain ⟨x0, e0, f0⟩ := keys_get hk hN (k := 4 * a.nr) (by omega)
  obtain ⟨x1, e1, f1⟩ := keys_get hk hN (k := 4 * a.nr + 1) (by omega)
  obtain ⟨x2, e2, f2⟩ := keys_get hk hN (k := 4 * a.nr + 2) (by omega)
  obtain ⟨x3, e3, f3⟩ := keys_get hk hN (k := 4 * a.nr + 3) (by omega)
  simp only [e0, e1, e2, e3, Option.bind_eq_bind, Option.bind_some]
  refine Wp.ret ?_
  rw [store_eq, cipher, ← load_eq a.fkey hk (by omega), show a.nr - 1 = 0 + (a.nr - 1) by omega, ← hp]
  congr 1
  funext r c
  unfold addRoundKey shiftRows subBytes
  fin_cases c
  · refine (lastColumn_eq _ _ _ _ _ _ r).trans ?_
    rw [f0, fbsub_eq]
    fin_cases r <;> rfl
  · refine (lastColumn_eq _ _ _ _ _ _ r).trans ?_
    rw [f1, fbsub_eq]
    fin_cases r <;> rfl
  · refine (lastColumn_eq _ _ _ _ _ _ r).trans ?_
    rw [f2, fbsub_eq]
    fin_cases r <;> rfl
  · refine (lastColumn_eq _ _ _ _ _ _ r).trans ?_
    rw [f3, fbsub_eq]
    fin_cases r <;> rfl

end Amcl.AES
