import Verif.Proof.BigMore
/-!
# Numbers on 48 bytes
-/

set_option exponentiation.threshold 2000

namespace Amcl

open Spec

seal Spec.toBE

theorem Wp.eq {α : Type} {m : Option α} {a : α} (h : m = some a) : Wp m fun r => r = a := ⟨a, h, rfl⟩

theorem BIG.Nrm.tobytes {a : BIG} {n : Nat} (ha : a.Nrm) (h : a.val = n) (hn : n < 2 ^ 384) :
    a.tobytes = some (toBE 48 n) := by
  have := BIG.tobytes_eq (a := a) ((ha.lim58 (by omega) (by omega)).mono (by norm_num)) (by omega)
  rw [this, h, Int.toNat_natCast]

theorem frombytes_toBE {n : Nat} (hn : n < 2 ^ 384) : Wp (BIG.frombytes (toBE 48 n)) fun r =>
    r.Nrm ∧ r.val = (n : Int) := by
  refine (BIG.frombytes_wp (b := toBE 48 n) (by rw [length_toBE])).mono ?_
  rintro r ⟨hn', hv⟩
  refine ⟨hn', ?_⟩
  rw [hv, List.take_of_length_le (by rw [length_toBE]), beNat_toBE, Nat.mod_eq_of_lt (by omega)]

theorem toBE_of_bytes {b : List UInt8} {n : Nat} (hb : b.length = n) : b = toBE n (beNat b) := by
  rw [← hb, toBE_beNat]

theorem beNat_lt48 {b : List UInt8} (hb : b.length = 48) : beNat b < 2 ^ 384 := by
  have := beNat_lt b
  rw [hb] at this
  omega

end Amcl
