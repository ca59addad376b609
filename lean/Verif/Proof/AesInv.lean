import Verif.Proof.Aes
import Mathlib.Data.BitVec
import Mathlib.Data.Fintype.EquivFin
import Mathlib.Data.Fintype.Pi
import Mathlib.Data.Finite.Prod

namespace Spec.AES
open Amcl.AES

set_option maxRecDepth 8000

/-! ## The products are linear -/

theorem xtime_xor (a b : Byte) : xtime (a ^^^ b) = xtime a ^^^ xtime b := by
  unfold xtime
  rw [BitVec.shiftLeft_xor_distrib, BitVec.msb_xor]
  have h (x y z : Byte) : x ^^^ y = (x ^^^ z) ^^^ (y ^^^ z) := by
    rw [BitVec.xor_assoc, ← BitVec.xor_assoc z, BitVec.xor_comm z y, BitVec.xor_assoc y, BitVec.xor_self, BitVec.xor_zero]
  cases a.msb <;> cases b.msb
  · simp
  · simp; ac_rfl
  · simp; ac_rfl
  · exact (BitVec.xor_zero).trans (h _ _ _)

theorem xpow_xor (a b : Byte) : ∀ n, xpow (a ^^^ b) n = xpow a n ^^^ xpow b n
  | 0 => rfl
  | n + 1 => by rw [xpow, xpow_xor a b n, xtime_xor]; rfl

theorem mul_unfold (a b : Byte) : mul a b =
    ((((((((0 ^^^ (if a.getLsbD 0 then xpow b 0 else 0)) ^^^ (if a.getLsbD 1 then xpow b 1 else 0)) ^^^
      (if a.getLsbD 2 then xpow b 2 else 0)) ^^^ (if a.getLsbD 3 then xpow b 3 else 0)) ^^^
      (if a.getLsbD 4 then xpow b 4 else 0)) ^^^ (if a.getLsbD 5 then xpow b 5 else 0)) ^^^
      (if a.getLsbD 6 then xpow b 6 else 0)) ^^^ (if a.getLsbD 7 then xpow b 7 else 0)) := rfl

theorem ite_xor (c : Bool) (x y : Byte) : (if c then x ^^^ y else 0) = (if c then x else 0) ^^^ (if c then y else 0) := by
  cases c <;> simp

theorem mul_xor (a b c : Byte) : mul a (b ^^^ c) = mul a b ^^^ mul a c := by
  simp only [mul_unfold, xpow_xor, ite_xor]
  ac_rfl

theorem invMixColumn_add (a b : Word) : invMixColumn (fun k => a k ^^^ b k) = fun r => invMixColumn a r ^^^ invMixColumn b r := by
  funext r
  simp only [invMixColumn, mul_xor]
  ac_rfl

/-- The product of the two matrices, on one byte. -/
theorem mix_inverse (r k : Fin 4) (b : Byte) :
    mul (invMixCoeff r 0) (mul (mixCoeff 0 k) b) ^^^ mul (invMixCoeff r 1) (mul (mixCoeff 1 k) b) ^^^
      mul (invMixCoeff r 2) (mul (mixCoeff 2 k) b) ^^^ mul (invMixCoeff r 3) (mul (mixCoeff 3 k) b) =
      if r = k then b else 0 := by
  revert b
  apply all_bytes
  revert r k
  decide +kernel

theorem xor4 (a0 a1 a2 a3 b0 b1 b2 b3 c0 c1 c2 c3 d0 d1 d2 d3 : Byte) :
    ((a0 ^^^ a1 ^^^ a2 ^^^ a3) ^^^ (b0 ^^^ b1 ^^^ b2 ^^^ b3) ^^^ (c0 ^^^ c1 ^^^ c2 ^^^ c3) ^^^ (d0 ^^^ d1 ^^^ d2 ^^^ d3)) =
      (a0 ^^^ b0 ^^^ c0 ^^^ d0) ^^^ (a1 ^^^ b1 ^^^ c1 ^^^ d1) ^^^ (a2 ^^^ b2 ^^^ c2 ^^^ d2) ^^^ (a3 ^^^ b3 ^^^ c3 ^^^ d3) := by
  ac_rfl

theorem invMix_mix (a : Word) : invMixColumn (mixColumn a) = a := by
  funext r
  simp only [invMixColumn, mixColumn, mul_xor]
  rw [xor4, mix_inverse, mix_inverse, mix_inverse, mix_inverse]
  fin_cases r <;> simp

theorem invMixColumns_mixColumns (s : State) : invMixColumns (mixColumns s) = s := by
  funext r c
  exact congrFun (invMix_mix fun k => s k c) r

theorem invSbox_sbox (b : Byte) : invSbox (sbox b) = b := by
  rw [← fbsub_eq, ← rbsub_eq]
  revert b
  apply all_bytes
  decide +kernel

theorem invSub_sub (s : State) : invSubBytes (subBytes s) = s := by
  funext r c; exact invSbox_sbox _

theorem invShift_shift (s : State) : invShiftRows (shiftRows s) = s := by
  funext r c
  show s r (c - r + r) = s r c
  rw [show c - r + r = c by omega]

theorem ark_ark (w : Nat → Word) (n : Nat) (s : State) : addRoundKey w n (addRoundKey w n s) = s := by
  funext r c
  simp [addRoundKey, BitVec.xor_assoc]

theorem ofBlock_toBlock (s : State) : ofBlock (toBlock s) = s := by
  funext r c
  simp only [ofBlock, toBlock]
  congr 1 <;> (ext; simp; try omega)

theorem toBlock_ofBlock (b : Block) : toBlock (ofBlock b) = b := by
  funext i
  simp only [ofBlock, toBlock]
  congr 1
  ext
  simp
  omega

theorem invRounds_rounds (w : Nat → Word) (t : State) : ∀ n, invRounds w n (shiftRows (subBytes (rounds w n t))) = shiftRows (subBytes t)
  | 0 => rfl
  | n + 1 => by
    rw [invRounds, invShift_shift, invSub_sub, rounds, ark_ark, invMixColumns_mixColumns, invRounds_rounds w t n]

/-- Decryption undoes encryption, with any round keys. -/
theorem invCipher_cipher (nr : Nat) (w : Nat → Word) (b : Block) : invCipher nr w (cipher nr w b) = b := by
  unfold invCipher cipher
  rw [ofBlock_toBlock, ark_ark, invRounds_rounds, invShift_shift, invSub_sub, ark_ark, toBlock_ofBlock]

theorem cipher_invCipher (nr : Nat) (w : Nat → Word) (b : Block) : cipher nr w (invCipher nr w b) = b := by
  have hi : Function.Injective (cipher nr w) := fun x y h => by
    rw [← invCipher_cipher nr w x, h, invCipher_cipher]
  have : Finite (BitVec 8) := Finite.of_equiv (Fin (2 ^ 8)) ⟨BitVec.ofFin, BitVec.toFin, fun _ => rfl, fun _ => rfl⟩
  obtain ⟨c, rfl⟩ := Finite.surjective_of_injective hi b
  rw [invCipher_cipher]

end Spec.AES
