import Verif.Proof.BigRest
import Verif.Proof.BigOr
/-!
# Property C78: the rest of `big.rs` and `dbig.rs`

The public number functions that nothing in the repository calls: general shifts, the inverse modulo a power
of two, random numbers, the bit length, the hexadecimal form and the splitting of double-length numbers.
-/

set_option exponentiation.threshold 2000

namespace Props

open Amcl Spec Rng

/-- **C78**, inverse. For an odd number the result is an inverse modulo `2^384` (`BIGBITS`), on 385 bits. -/
theorem C78_invmod2m (s : BIG) (a : Nat) (hs : s.Lim (2 ^ 62)) (sv : s.val = a) (sa : a < 2 ^ 406) (ho : a % 2 = 1) :
    Wp s.invmod2m fun r => r.Nrm ∧ 0 ≤ r.val ∧ r.val < 2 ^ 384 + 2 ^ 257 ∧ r.val * a % 2 ^ 384 = 1 :=
  (BIG.invmod2m_wp hs sv sa ho).mono fun _ ⟨h1, h2, h3, h4⟩ => ⟨h1, h2, h3, by rw [h4]; norm_num⟩

/-- The result is not reduced: the inverse of 1 comes out as `2^384 + 1`. -/
theorem C78_invmod2m_one : ∃ r, (BIG.new_int 1).invmod2m = some r ∧ r.val = 2 ^ 384 + 1 := by
  have h : (BIG.new_int 1).invmod2m.map BIG.val = some (2 ^ 384 + 1) := by decide +kernel
  obtain ⟨r, h1, h2⟩ := Option.map_eq_some_iff.1 h
  exact ⟨r, h1, h2⟩

/-- An odd number of 400 bits. -/
example : Wp (BIG.invmod2m ⟨7, 0, 0, 0, 0, 0, 2 ^ 51⟩) fun r => r.Nrm ∧ 0 ≤ r.val ∧ r.val < 2 ^ 384 + 2 ^ 257 ∧
    r.val * (7 + 2 ^ 399 : Nat) % 2 ^ 384 = 1 :=
  C78_invmod2m _ _ (by constructor <;> norm_num) (by norm_num [BIG.val]) (by norm_num) (by norm_num)

/-- **C78**, shifts. `BIG::shl` and `BIG::shr` by any number of bits, `DBIG::shr` likewise. -/
theorem C78_shifts (a : BIG) (ha : a.Nrm) (h0 : 0 ≤ a.val) (d : DBIG) (hd : d.Nrm) (d0 : 0 ≤ d.val) (d1 : d.val < 2 ^ 812)
    (k : Nat) :
    (k < 406 → a.val * 2 ^ k < 2 ^ 406 → Wp (a.shlAny k) fun r => r.Nrm ∧ r.val = a.val * 2 ^ k) ∧
    (k < 406 → a.val < 2 ^ 406 → Wp (a.shrAny k) fun r => r.Nrm ∧ r.val = a.val / 2 ^ k) ∧
    (k < 812 → Wp (d.shrAny k) fun r => r.Nrm ∧ r.val = d.val / 2 ^ k) :=
  ⟨fun h1 h2 => if h : k < 348 then BIG.shlAny_wp ha h0 h h2 else BIG.shlAny_top ha h0 ⟨by omega, h1⟩ h2, fun h1 h2 => BIG.shrAny_wp ha h0 h2 h1,
    fun h1 => DBIG.shrAny_wp hd d0 d1 h1⟩

/-- Past the last limb the shifts panic. -/
theorem C78_shifts_panic (a : BIG) (d : DBIG) (k : Nat) :
    (a.shlAny k = none ↔ 406 ≤ k) ∧ (a.shrAny k = none ↔ 406 ≤ k) ∧ (d.shrAny k = none ↔ 812 ≤ k) := by
  refine ⟨?_, ?_, ?_⟩
  · unfold BIG.shlAny; dsimp only; split <;> simp <;> omega
  · unfold BIG.shrAny; dsimp only; split <;> simp <;> omega
  · unfold DBIG.shrAny; dsimp only; split <;> simp <;> omega

/-- `3 · 2^300 / 2^299 = 6`. -/
example : ((BIG.new_int 3).shlAny 300 >>= fun b => b.shrAny 299) = some (BIG.new_int 6) := by decide +kernel

/-- **C78**, random numbers. From a generator at byte `i` of the stream of entropy `e`, `random` returns the number
of the next 384 bits and leaves the generator 48 bytes further. -/
theorem C78_random (e : List UInt8) (i : Nat) (g : RAND) (hg : RAND.Gen (sha256 e) i g) :
    Wp (BIG.random g) fun q => q.1.Nrm ∧ q.1.val = (numberAt e i 384 : Int) ∧ RAND.Gen (sha256 e) (i + 48) q.2 :=
  BIG.random_wp hg

/-- A generator seeded with three bytes. -/
example (g : RAND) : ∃ g' q, g.seed [1, 2, 3] = some g' ∧ BIG.random g' = some q ∧ q.1.val = (numberAt [1, 2, 3] 0 384 : Int) := by
  obtain ⟨g', h1, h2⟩ := RAND.seed_wp g [1, 2, 3] (by simp) (by simp)
  obtain ⟨q, h3, -, h4, -⟩ := C78_random _ _ _ h2
  exact ⟨g', q, h1, h3, h4⟩

/-- **C78**, length. `DBIG::nbits` is the bit length, for any sums of up to 16 numbers. -/
theorem C78_nbits (d : DBIG) (v : Nat) (hd : d.Lim (2 ^ 62)) (hv : d.val = v) (h1 : v < 2 ^ 812) :
    Wp d.nbits fun r => r.1 = Nat.size v ∧ r.2.Nrm ∧ r.2.val = v := by
  refine (DBIG.nbits_wp hd (by omega) (by omega)).mono ?_
  rintro r ⟨h2, h3, h4⟩
  exact ⟨by rw [h2, hv, Int.toNat_natCast], h3, h4.trans hv⟩

/-- **C78**, text. `DBIG::to_string` is the number in hexadecimal without leading zeros. -/
theorem C78_to_string (d : DBIG) (v : Nat) (hd : d.Lim (2 ^ 62)) (hv : d.val = v) (h1 : v < 2 ^ 812) :
    d.to_string = some (toHex ((Nat.size v + 3) / 4) v) :=
  DBIG.to_string_eq hd hv h1

/-- Zero is the empty string. -/
theorem C78_to_string_empty (d : DBIG) (v : Nat) (hd : d.Lim (2 ^ 62)) (hv : d.val = v) (h1 : v < 2 ^ 812) :
    d.to_string = some [] ↔ v = 0 := by
  rw [C78_to_string d v hd hv h1, Option.some.injEq]
  constructor
  · intro h
    by_contra h0
    have hs : 0 < Nat.size v := Nat.size_pos.2 (by omega)
    obtain ⟨m, e⟩ : ∃ m, (Nat.size v + 3) / 4 = m + 1 := ⟨(Nat.size v + 3) / 4 - 1, by omega⟩
    rw [e, toHex] at h
    simp at h
  · rintro rfl; rfl

/-- `2^406 + 431`. -/
example : DBIG.to_string ⟨BIG.new_int 431, BIG.new_int 1⟩ = some ('4' :: List.replicate 98 '0' ++ ['1', 'A', 'F']) := by
  decide +kernel

/-- **C78**, split. At a position inside limb 6 the result is the upper part, and the lower seven limbs of `self`
keep the lower part. The upper seven limbs of `self` stay. -/
theorem C78_split (d : DBIG) (h : d.Nrm) (h0 : 0 ≤ d.val) (n : Nat) (hn : 348 ≤ n ∧ n < 406) (h1 : d.val < 2 ^ (n + 406)) :
    (d.split n).1.Nrm ∧ (d.split n).1.val = d.val / 2 ^ n ∧ (d.split n).2.lo.Nrm ∧
      (d.split n).2.lo.val = d.val % 2 ^ n ∧ (d.split n).2.hi = d.hi :=
  DBIG.split_spec h h0 hn h1

/-- Only `n mod 58` counts: splitting at bit 0 is splitting at bit 348. -/
theorem C78_split_mod (d : DBIG) (n : Nat) : d.split n = d.split (348 + n % 58) := by
  have : (348 + n % 58) % 58 = n % 58 := by omega
  simp only [DBIG.split, this]

/-- `2^410 + 5` split at 400 is `2^10` and 5; split at 0 it is `2^62`, not the number itself. -/
example : ((DBIG.split ⟨BIG.new_int 5, BIG.new_int 16⟩ 400).1.val, (DBIG.split ⟨BIG.new_int 5, BIG.new_int 16⟩ 400).2.lo.val,
    (DBIG.split ⟨BIG.new_int 5, BIG.new_int 16⟩ 0).1.val) = (2 ^ 10, 5, 2 ^ 62) := by decide +kernel

/-- **C78**, limbs. `set` replaces one digit and panics past the end. -/
theorem C78_set (a : BIG) (i : Nat) (x : Int) :
    (a.set i x = none ↔ 7 ≤ i) ∧
    ∀ b, a.set i x = some b → b.val = a.val + (x - a.limb i) * 2 ^ (58 * i) ∧ ∀ j, b.limb j = if j = i then x else a.limb j := by
  by_cases hi : i < 7
  · refine ⟨?_, ?_⟩
    · interval_cases i <;> simp [BIG.set]
    · rintro b hb
      refine ⟨?_, fun j => ?_⟩
      · interval_cases i <;> simp only [BIG.set, Option.some.injEq] at hb <;> subst hb <;>
          simp only [BIG.val, BIG.limb] <;> ring
      · interval_cases i <;> simp only [BIG.set, Option.some.injEq] at hb <;> subst hb <;>
          rcases j with _ | _ | _ | _ | _ | _ | _ | j <;> simp [BIG.limb]
  · obtain ⟨k, rfl⟩ := Nat.exists_eq_add_of_le (not_lt.1 hi)
    rw [show 7 + k = k + 7 by omega]
    simp [BIG.set]

/-- **C78**, bits. `or` of two normalised numbers is their bitwise or. `isok` says that every limb is a digit. -/
theorem C78_or (a b : BIG) (x y : Nat) (ha : a.Nrm) (hb : b.Nrm) (hx : a.val = x) (hy : b.val = y) (x1 : x < 2 ^ 406)
    (y1 : y < 2 ^ 406) : (a.or b).Nrm ∧ (a.or b).val = ((x ||| y : Nat) : Int) :=
  BIG.or_bits ha hb hx hy x1 y1

/-- See `C78_or`. -/
theorem C78_isok (a : BIG) : a.isok = true ↔ ∀ i < 7, 0 ≤ a.limb i ∧ a.limb i < 2 ^ 58 := by
  rw [BIG.isok_iff]
  constructor
  · rintro ⟨⟨h0, h1, h2, h3, h4, h5⟩, h6⟩ i hi
    interval_cases i <;> assumption
  · intro h
    exact ⟨⟨h 0 (by norm_num), h 1 (by norm_num), h 2 (by norm_num), h 3 (by norm_num), h 4 (by norm_num), h 5 (by norm_num)⟩,
      h 6 (by norm_num)⟩

/-- `2^60 + 5` or `2^60 + 3` is `2^60 + 7`; a limb of `2^58` is not in order. -/
example : ((BIG.or ⟨5, 4, 0, 0, 0, 0, 0⟩ ⟨3, 4, 0, 0, 0, 0, 0⟩).val, (BIG.new_int (2 ^ 58)).isok, (BIG.new_int 5).isok) =
    (2 ^ 60 + 7, false, true) := by decide +kernel

/-- **C78**, top limb. `xortop` and `ortop` combine the bits of the top limb with those of `x` and leave the
other limbs. -/
theorem C78_top (a : BIG) (w x : Nat) (hw : a.w6 = w) (h1 : w < 2 ^ 63) (h2 : x < 2 ^ 63) :
    a.xortop x = { a with w6 := (w ^^^ x : Nat) } ∧ a.ortop x = { a with w6 := (w ||| x : Nat) } := by
  have ew : BitVec.ofInt 64 (w : Int) = BitVec.ofNat 64 w := BitVec.ofInt_natCast _ _
  have ex : BitVec.ofInt 64 (x : Int) = BitVec.ofNat 64 x := BitVec.ofInt_natCast _ _
  have hx := Nat.xor_lt_two_pow h1 h2
  have ho := Nat.or_lt_two_pow h1 h2
  constructor
  · rw [BIG.xortop, xor64, hw, ew, ex, ← BitVec.ofNat_xor, BitVec.toInt_eq_toNat_of_lt, BitVec.toNat_ofNat, Nat.mod_eq_of_lt (by omega)]
    rw [BitVec.toNat_ofNat, Nat.mod_eq_of_lt (by omega)]; omega
  · rw [BIG.ortop, or64, hw, ew, ex, ← BitVec.ofNat_or, BitVec.toInt_eq_toNat_of_lt, BitVec.toNat_ofNat, Nat.mod_eq_of_lt (by omega)]
    rw [BitVec.toNat_ofNat, Nat.mod_eq_of_lt (by omega)]; omega

/-- `5 xor 3 = 6`, `5 or 3 = 7`. -/
example : (BIG.xortop ⟨1, 2, 3, 4, 5, 6, 5⟩ 3, BIG.ortop ⟨1, 2, 3, 4, 5, 6, 5⟩ 3) =
    (⟨1, 2, 3, 4, 5, 6, 6⟩, ⟨1, 2, 3, 4, 5, 6, 7⟩) := by decide +kernel

end Props
