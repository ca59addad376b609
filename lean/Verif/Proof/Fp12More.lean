import Verif.Model.Fp12More
import Verif.Spec.Octets12
import Verif.Proof.Ecp2More
import Verif.Proof.Fp12
/-!
# The strings of elements of the extension of degree 12
-/

set_option exponentiation.threshold 2000

namespace Amcl

open Spec

seal Spec.toBE

namespace FP2

theorem fromblocks_wp {w : List UInt8} {k : Nat} (hw : k + 96 ≤ w.length) :
    Wp (fromblocks w k) fun f => Ok f 1 2 (block2 w k) := by
  have hp := p_pos
  have hp' : (2 : Int) ^ 384 ≤ 2 ^ 25 * p := by norm_num [p]
  have key : ∀ k, k + 48 ≤ w.length → Wp (BIG.frombytes ((w.drop k).take 48)) fun a => a.Lim (2 ^ 61) ∧
      0 ≤ a.val ∧ a.val ≤ 2 ^ 25 * p ∧ ((a.val : Int) : Fp) = (beNat ((w.drop k).take 48) : Fp) := by
    intro k hk
    have hl : ((w.drop k).take 48).length = 48 := by rw [List.length_take, List.length_drop]; omega
    have hN := beNat_lt48 hl
    refine (BIG.frombytes_wp (by rw [hl])).mono ?_
    rintro a ⟨na, va⟩
    rw [List.take_of_length_le (by rw [hl])] at va
    exact ⟨(na.lim58 (by omega) (by omega)).mono (by norm_num), by omega, by omega, by rw [va, Int.cast_natCast]⟩
  unfold fromblocks
  rw [if_neg (by omega)]
  refine Wp.bind (key k (by omega)) ?_
  rintro a ⟨la, a0, a1, ea⟩
  refine Wp.bind (key (k + 48) (by omega)) ?_
  rintro c ⟨lc, c0, c1, ec⟩
  refine (new_bigs_wp la lc a0 c0 a1 c1).mono ?_
  rintro X ⟨hX, -⟩
  rw [ea, ec] at hX
  exact hX

theorem fromblocks_none {w : List UInt8} {k : Nat} (hw : w.length < k + 96) : fromblocks w k = none := by
  rw [fromblocks, if_pos hw]
  rfl

theorem toblocks_wp {f : FP2} {L E : Int} {v : Fp2} (hf : Ok f L E v) (h : 1 ≤ L ∧ L ≤ 8 ∧ E ≤ 2 ^ 25) :
    Wp (toblocks f) fun s => s = toBE 48 (FP.outNat f.a v.re) ++ toBE 48 (FP.outNat f.b v.im) := by
  have hp := p_le_pow
  unfold toblocks geta getb
  refine Wp.bind (FP.redc_nat hf.a h) ?_
  rintro X ⟨nX, vX⟩
  have := FP.outNat_le f.a v.re
  refine Wp.bind (Wp.eq (nX.tobytes vX (by omega))) ?_
  rintro _ rfl
  refine Wp.bind (FP.redc_nat hf.b h) ?_
  rintro X ⟨nX, vX⟩
  have := FP.outNat_le f.b v.im
  refine Wp.bind (Wp.eq (nX.tobytes vX (by omega))) ?_
  rintro _ rfl
  exact Wp.ret rfl

end FP2

/-- A block inside the first part of a string. -/
theorem block2_left {l m : List UInt8} {k : Nat} (h : k + 96 ≤ l.length) : block2 (l ++ m) k = block2 l k := by
  have key : ∀ j, j + 48 ≤ l.length → ((l ++ m).drop j).take 48 = (l.drop j).take 48 := by
    intro j hj
    rw [List.drop_append_of_le_length (by omega), List.take_append_of_le_length (by rw [List.length_drop]; omega)]
  rw [block2, block2, key k (by omega), key (k + 48) (by omega)]

/-- A block inside the last part of a string. -/
theorem block2_right {l m : List UInt8} {k : Nat} (h : l.length ≤ k) :
    block2 (l ++ m) k = block2 m (k - l.length) := by
  have key : ∀ j, l.length ≤ j → (l ++ m).drop j = m.drop (j - l.length) := by
    intro j hj
    rw [List.drop_append, List.drop_of_length_le hj, List.nil_append]
  rw [block2, block2, key k h, key (k + 48) (by omega), show k + 48 - l.length = k - l.length + 48 by omega]

theorem block2_two {a b : Nat} (ha : a < 2 ^ 384) (hb : b < 2 ^ 384) :
    block2 (toBE 48 a ++ toBE 48 b) 0 = ⟨(a : Fp), (b : Fp)⟩ := by
  have v : ∀ n, n < 2 ^ 384 → beNat (toBE 48 n) = n := fun n hn => by
    rw [beNat_toBE, Nat.mod_eq_of_lt (by simpa using hn)]
  rw [block2, List.drop_zero, zero_add, List.take_append_of_le_length (by rw [length_toBE]),
    List.take_of_length_le (by rw [length_toBE]), List.drop_append_of_le_length (by rw [length_toBE]),
    List.drop_of_length_le (by rw [length_toBE]), List.nil_append, List.take_of_length_le (by rw [length_toBE]),
    v _ ha, v _ hb]

/-- Six strings of 96 bytes. -/
theorem block2_six {s1 s2 s3 s4 s5 s6 : List UInt8} (h1 : s1.length = 96) (h2 : s2.length = 96)
    (h3 : s3.length = 96) (h4 : s4.length = 96) (h5 : s5.length = 96) (h6 : s6.length = 96) :
    let s := s1 ++ s2 ++ s3 ++ s4 ++ s5 ++ s6
    block2 s 0 = block2 s1 0 ∧ block2 s 96 = block2 s2 0 ∧ block2 s 192 = block2 s3 0 ∧
      block2 s 288 = block2 s4 0 ∧ block2 s 384 = block2 s5 0 ∧ block2 s 480 = block2 s6 0 := by
  intro s
  have e : s = s1 ++ (s2 ++ (s3 ++ (s4 ++ (s5 ++ s6)))) := by simp [s]
  have stp : ∀ (l m : List UInt8) k, l.length = 96 → 96 ≤ k → block2 (l ++ m) k = block2 m (k - 96) := by
    intro l m k hl hk
    rw [block2_right (by omega), hl]
  have z : ∀ (l m : List UInt8), l.length = 96 → block2 (l ++ m) 0 = block2 l 0 := fun l m hl =>
    block2_left (by omega)
  rw [e]
  refine ⟨z _ _ h1, ?_, ?_, ?_, ?_, ?_⟩
  · rw [stp _ _ _ h1 (by norm_num)]; exact z _ _ h2
  · rw [stp _ _ _ h1 (by norm_num), stp _ _ _ h2 (by norm_num)]; exact z _ _ h3
  · rw [stp _ _ _ h1 (by norm_num), stp _ _ _ h2 (by norm_num), stp _ _ _ h3 (by norm_num)]; exact z _ _ h4
  · rw [stp _ _ _ h1 (by norm_num), stp _ _ _ h2 (by norm_num), stp _ _ _ h3 (by norm_num),
      stp _ _ _ h4 (by norm_num)]; exact z _ _ h5
  · rw [stp _ _ _ h1 (by norm_num), stp _ _ _ h2 (by norm_num), stp _ _ _ h3 (by norm_num),
      stp _ _ _ h4 (by norm_num), stp _ _ _ h5 (by norm_num)]

/-- What is written for an element of the quadratic extension. -/
def FP2.out (f : FP2) (v : Fp2) : List UInt8 := toBE 48 (FP.outNat f.a v.re) ++ toBE 48 (FP.outNat f.b v.im)

theorem FP2.length_out (f : FP2) (v : Fp2) : (FP2.out f v).length = 96 := by simp [FP2.out, length_toBE]

theorem FP2.block2_out (f : FP2) (v : Fp2) : block2 (FP2.out f v) 0 = v := by
  have hp := p_le_pow
  have le : ∀ (f : FP) (v : Fp), FP.outNat f v < 2 ^ 384 := fun f v => by have := FP.outNat_le f v; omega
  rw [FP2.out, block2_two (le _ _) (le _ _), FP.outNat_cast, FP.outNat_cast]

namespace FP12

theorem frombytes_wp {w : List UInt8} (hw : 576 ≤ w.length) : Wp (frombytes w) fun f => Ok f 1 2 (block12 w) := by
  unfold frombytes
  refine Wp.bind (FP2.fromblocks_wp (by omega)) fun f1 h1 => ?_
  refine Wp.bind (FP2.fromblocks_wp (by omega)) fun f2 h2 => ?_
  refine Wp.bind (FP2.fromblocks_wp (by omega)) fun f3 h3 => ?_
  refine Wp.bind (FP2.fromblocks_wp (by omega)) fun f4 h4 => ?_
  refine Wp.bind (FP2.fromblocks_wp (by omega)) fun f5 h5 => ?_
  refine Wp.bind (FP2.fromblocks_wp (by omega)) fun f6 h6 => ?_
  exact Wp.ret ⟨⟨_, _⟩, ⟨_, _⟩, ⟨_, _⟩, ⟨h1, h2⟩, ⟨h3, h4⟩, ⟨h5, h6⟩, rfl⟩

theorem frombytes_none {w : List UInt8} (hw : w.length < 576) : frombytes w = none := by
  have h6 : FP2.fromblocks w 480 = none := FP2.fromblocks_none (by omega)
  unfold frombytes
  rw [h6]
  simp only [Option.bind_eq_bind, Option.bind_none, Option.bind_fun_none]

theorem tobytes_wp {f : FP12} {L E : Int} {a b c : Fp4} (ha : FP4.Ok f.a L E a) (hb : FP4.Ok f.b L E b)
    (hc : FP4.Ok f.c L E c) (h : 1 ≤ L ∧ L ≤ 8 ∧ E ≤ 2 ^ 25) :
    Wp (tobytes f) fun s => s = FP2.out f.a.a a.re ++ FP2.out f.a.b a.im ++ FP2.out f.b.a b.re ++
      FP2.out f.b.b b.im ++ FP2.out f.c.a c.re ++ FP2.out f.c.b c.im := by
  unfold tobytes
  refine Wp.bind (FP2.toblocks_wp ha.a h) fun s1 e1 => ?_
  refine Wp.bind (FP2.toblocks_wp ha.b h) fun s2 e2 => ?_
  refine Wp.bind (FP2.toblocks_wp hb.a h) fun s3 e3 => ?_
  refine Wp.bind (FP2.toblocks_wp hb.b h) fun s4 e4 => ?_
  refine Wp.bind (FP2.toblocks_wp hc.a h) fun s5 e5 => ?_
  refine Wp.bind (FP2.toblocks_wp hc.b h) fun s6 e6 => ?_
  exact Wp.ret (by rw [e1, e2, e3, e4, e5, e6]; rfl)

end FP12

end Amcl
