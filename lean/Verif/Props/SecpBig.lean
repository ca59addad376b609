import Verif.Proof.Secp.Show
import Verif.Props.SecpCurve
/-!
# Property C98: the rest of `big.rs` and `dbig.rs` of secp256k1, and its printed forms

`a.val` is the integer the five limbs denote; `a.Nrm` says that limbs 0-3 are base-`2^56` digits. A result `some r`
means that the loops end and nothing overflows on the way.
-/

set_option exponentiation.threshold 2000

namespace Props.Secp

open Amcl.Secp Spec.Secp Spec.Rng
open Amcl (Wp RAND)
open Spec (Pt toBE hexOf toHex sha256 hexOf_inj length_hexOf length_toBE beNat beNat_toBE)

seal Spec.toBE

/-- **C98**, division. The quotient is rounded down and the loops end, for every dividend below `2^277`
and every positive divisor. -/
theorem C98_div (s n : BIG) (hs : s.Nrm) (s0 : 0 ≤ s.val) (s1 : s.val < 2 ^ 277) (hn : n.Nrm)
    (n0 : 0 < n.val) (n1 : n.val < 2 ^ 278) :
    ∃ r, s.div n = some r ∧ r.Nrm ∧ r.val = s.val / n.val :=
  BIG.div_wp ((hs.lim56 s0 (by omega)).mono (by norm_num)) s0 s1 hn n0 n1

/-- **C98**, division of a double-length number, when the quotient fits. -/
theorem C98_ddiv (s : DBIG) (n : BIG) (hs : s.Nrm) (s0 : 0 ≤ s.val) (s1 : s.val < 2 ^ 560) (hn : n.Nrm)
    (n0 : 0 < n.val) (n1 : n.val < 2 ^ 280) (hq : s.val < n.val * 2 ^ 278) :
    ∃ r, s.div n = some r ∧ r.Nrm ∧ r.val = s.val / n.val :=
  DBIG.div_wp ((hs.lim (B := 2 ^ 60) s0 (by omega) (by norm_num)).mono (by norm_num)) s0 s1 hn n0 n1 hq

/-- **C98**, division by three, with its remainder; reduction modulo a power of two; the product modulo
`2^280` (exact when it fits); the product by a word. -/
theorem C98_small (a b : BIG) (ha : a.Nrm) (a0 : 0 ≤ a.val) (a1 : a.val < 2 ^ 280) (hb : b.Nrm)
    (b0 : 0 ≤ b.val) (b1 : b.val < 2 ^ 280) (m : Nat) (hm : m < 280) (c : Int)
    (hc : 0 ≤ c ∧ c < 2 ^ 56) :
    (∃ r, a.div3 = some r ∧ r.1.Nrm ∧ r.1.val = a.val / 3 ∧ r.2 = a.val % 3) ∧
    (∃ r, a.mod2m m = some r ∧ r.Nrm ∧ r.val = a.val % 2 ^ m) ∧
    (∃ r, a.smul b = some r ∧ r.Nrm ∧ r.val = a.val * b.val % 2 ^ 280) ∧
    (∃ r, a.pxmul c = some r ∧ r.Nrm ∧ r.val = a.val * c) := by
  have la := (ha.lim56 a0 a1).mono (show (2:Int) ^ 56 ≤ 2 ^ 62 by norm_num)
  refine ⟨BIG.div3_wp la a0 a1, BIG.mod2m_wp ha hm, BIG.smul_wp ha a0 a1 hb b0 b1,
    BIG.pxmul_wp ha a0 a1 hc⟩

/-- **C98**, sum of two numbers and product by a word, limb by limb without carries. -/
theorem C98_words (a b : BIG) (A B C c : Int) (ha : a.Lim A) (hb : b.Lim B) (hc : Amcl.Bd C c) :
    (A + B < 2 ^ 63 → ∃ r, a.plus b = some r ∧ r.Lim (A + B) ∧ r.val = a.val + b.val) ∧
    (A * C < 2 ^ 63 → ∃ r, a.imul c = some r ∧ r.Lim (A * C) ∧ r.val = a.val * c) :=
  ⟨BIG.plus_wp ha hb, BIG.imul_wp ha hc⟩

/-- **C98**, modular product. The factors come back reduced. -/
theorem C98_modmul (a b m : BIG) (ha : a.Nrm) (a0 : 0 ≤ a.val) (a1 : a.val < 2 ^ 280) (hb : b.Nrm)
    (b0 : 0 ≤ b.val) (b1 : b.val < 2 ^ 280) (hm : m.Nrm) (m0 : 0 < m.val) (m1 : m.val < 2 ^ 280) :
    ∃ r, a.modmul b m = some r ∧ (r.1.Nrm ∧ r.1.val = a.val * b.val % m.val) ∧
      (r.2.1.Nrm ∧ r.2.1.val = a.val % m.val) ∧ r.2.2.Nrm ∧ r.2.2.val = b.val % m.val :=
  BIG.modmul_wp ((ha.lim56 a0 a1).mono (by norm_num)) a0 (by omega) ((hb.lim56 b0 b1).mono (by norm_num)) b0 (by omega) hm m0 m1

/-- **C98**, modular square, negative and power. `modneg` leaves `m` for a multiple of `m`, not
0. -/
theorem C98_modular (a b m : BIG) (ha : a.Nrm) (a0 : 0 ≤ a.val) (a1 : a.val < 2 ^ 280) (hb : b.Nrm)
    (b0 : 0 ≤ b.val) (b1 : b.val < 2 ^ 280) (hm : m.Nrm) (m0 : 1 < m.val) (m1 : m.val < 2 ^ 280) :
    (∃ r, a.modsqr m = some r ∧ r.Nrm ∧ r.val = a.val ^ 2 % m.val) ∧
    (∃ r, a.modneg m = some r ∧ r.1.val = m.val - a.val % m.val) ∧
    (∃ r, a.powmod b m = some r ∧ r.Nrm ∧ r.val = a.val ^ b.val.toNat % m.val) := by
  have la := (ha.lim56 a0 a1).mono (show (2:Int) ^ 56 ≤ 2 ^ 62 by norm_num)
  have lb := (hb.lim56 b0 b1).mono (show (2:Int) ^ 56 ≤ 2 ^ 62 by norm_num)
  refine ⟨BIG.modsqr_wp la a0 (by omega) hm (by omega) m1, ?_, BIG.powmod_wp la a0 a1 lb b0 hm m0 m1⟩
  obtain ⟨r, e, -, h, -⟩ := BIG.modneg_wp la a0 (by omega) hm (by omega) m1
  exact ⟨r, e, h⟩

example : ∃ r, (BIG.new_int 3).powmod (BIG.new_int 100) (BIG.new_int 101) = some r ∧ r.val = 1 := by
  obtain ⟨r, e, -, v⟩ := (C98_modular (BIG.new_int 3) (BIG.new_int 100) (BIG.new_int 101)
    (BIG.new_int_nrm (by norm_num) (by norm_num)) (by norm_num [BIG.new_int_val])
    (by norm_num [BIG.new_int_val]) (BIG.new_int_nrm (by norm_num) (by norm_num))
    (by norm_num [BIG.new_int_val]) (by norm_num [BIG.new_int_val])
    (BIG.new_int_nrm (by norm_num) (by norm_num)) (by norm_num [BIG.new_int_val])
    (by norm_num [BIG.new_int_val])).2.2
  exact ⟨r, e, by rw [v, BIG.new_int_val, BIG.new_int_val, BIG.new_int_val]; decide +kernel⟩

/-- **C98**, inversion modulo an odd number. A number coprime to `p` is inverted; for every other one,
multiples of `p` included, the loop never ends. -/
theorem C98_invmodp (s p : BIG) (hs : s.Nrm) (s0 : 0 ≤ s.val) (s1 : s.val < 2 ^ 280) (hp : p.Nrm)
    (p0 : 1 < p.val) (p1 : p.val < 2 ^ 280) (podd : p.val % 2 = 1) :
    (Int.gcd s.val p.val = 1 → ∃ r, s.invmodp p = some r ∧ r.Nrm ∧ 0 ≤ r.val ∧ r.val < p.val ∧
      s.val * r.val % p.val = 1) ∧
    (Int.gcd s.val p.val ≠ 1 → s.invmodp p = none) := by
  have ls := (hs.lim56 s0 s1).mono (show (2:Int) ^ 56 ≤ 2 ^ 62 by norm_num)
  refine ⟨fun h => ?_, BIG.invmodp_none ls s0 (by omega) hp p0 p1 podd⟩
  obtain ⟨r, e, nr, r0, r1, hr⟩ := BIG.invmodp_wp ls s0 (by omega) hp p0 p1 podd h
  exact ⟨r, e, nr, r0, r1, by rw [hr.eq]; exact Int.emod_eq_of_lt (by norm_num) p0⟩

/-- 6 is invertible modulo 35, 5 is not. -/
example : (∃ r, (BIG.new_int 6).invmodp (BIG.new_int 35) = some r ∧ 6 * r.val % 35 = 1) ∧
    (BIG.new_int 5).invmodp (BIG.new_int 35) = none := by
  have h := fun s (hs : 0 ≤ s ∧ s < 2 ^ 50) => C98_invmodp (BIG.new_int s) (BIG.new_int 35)
    (BIG.new_int_nrm hs.1 (by omega)) (by rw [BIG.new_int_val]; omega)
    (by rw [BIG.new_int_val]; omega) (BIG.new_int_nrm (by norm_num) (by norm_num))
    (by norm_num [BIG.new_int_val]) (by norm_num [BIG.new_int_val]) (by norm_num [BIG.new_int_val])
  simp only [BIG.new_int_val] at h
  obtain ⟨r, e, -, -, -, v⟩ := (h 6 (by norm_num)).1 (by decide)
  exact ⟨⟨r, e, v⟩, (h 5 (by norm_num)).2 (by decide)⟩

/-- The product of `2^150` and `2^150 + 1` loses its bit 300. -/
example : ∃ r, (⟨0, 0, 2 ^ 38, 0, 0⟩ : BIG).smul ⟨1, 0, 2 ^ 38, 0, 0⟩ = some r ∧ r.val = 2 ^ 150 := by
  obtain ⟨r, e, -, v⟩ := (C98_small ⟨0, 0, 2 ^ 38, 0, 0⟩ ⟨1, 0, 2 ^ 38, 0, 0⟩
    (by constructor <;> norm_num) (by norm_num [BIG.val]) (by norm_num [BIG.val])
    (by constructor <;> norm_num) (by norm_num [BIG.val]) (by norm_num [BIG.val]) 0 (by norm_num) 0
    (by norm_num)).2.2.1
  exact ⟨r, e, by rw [v]; norm_num [BIG.val]⟩

/-- **C98**, inversion of an odd byte modulo 256: the domain is all 128 odd bytes. -/
theorem C98_invmod256 : ∀ i : Fin 128, (2 * (i : Int) + 1) * BIG.invmod256 (2 * i + 1) % 256 = 1 :=
  Amcl.BIG.invmod256_spec

/-- **C98**, inverse. For an odd number the result is an inverse modulo `2^256` (`BIGBITS`), below `2^256 + 2^226`. -/
theorem C98_invmod2m (s : BIG) (a : Nat) (hs : s.Lim (2 ^ 62)) (sv : s.val = a) (sa : a < 2 ^ 280) (ho : a % 2 = 1) :
    Wp s.invmod2m fun r => r.Nrm ∧ 0 ≤ r.val ∧ r.val < 2 ^ 256 + 2 ^ 226 ∧ r.val * a % 2 ^ 256 = 1 :=
  (BIG.invmod2m_wp hs sv sa ho).mono fun _ ⟨h1, h2, h3, h4⟩ => ⟨h1, h2, h3, by rw [h4]; norm_num⟩

/-- The result is not reduced: the inverse of 1 comes out as `2^256 + 1`. -/
theorem C98_invmod2m_one : ∃ r, (BIG.new_int 1).invmod2m = some r ∧ r.val = 2 ^ 256 + 1 := by
  have h : (BIG.new_int 1).invmod2m.map BIG.val = some (2 ^ 256 + 1) := by decide +kernel
  obtain ⟨r, h1, h2⟩ := Option.map_eq_some_iff.1 h
  exact ⟨r, h1, h2⟩

/-- An odd number of 276 bits. -/
example : Wp (BIG.invmod2m ⟨7, 0, 0, 0, 2 ^ 51⟩) fun r => r.Nrm ∧ 0 ≤ r.val ∧ r.val < 2 ^ 256 + 2 ^ 226 ∧
    r.val * (7 + 2 ^ 275 : Nat) % 2 ^ 256 = 1 :=
  C98_invmod2m _ _ (by constructor <;> norm_num) (by norm_num [BIG.val]) (by norm_num) (by norm_num)

/-- **C98**, shifts. `BIG::shl` and `BIG::shr` by any number of bits, `DBIG::shr` likewise. -/
theorem C98_shifts (a : BIG) (ha : a.Nrm) (h0 : 0 ≤ a.val) (d : DBIG) (hd : d.Nrm) (d0 : 0 ≤ d.val) (d1 : d.val < 2 ^ 560)
    (k : Nat) :
    (k < 280 → a.val * 2 ^ k < 2 ^ 280 → Wp (a.shl k) fun r => r.Nrm ∧ r.val = a.val * 2 ^ k) ∧
    (k < 280 → a.val < 2 ^ 280 → Wp (a.shrAny k) fun r => r.Nrm ∧ r.val = a.val / 2 ^ k) ∧
    (k < 560 → Wp (d.shrAny k) fun r => r.Nrm ∧ r.val = d.val / 2 ^ k) :=
  ⟨fun h1 h2 => if h : k < 224 then BIG.shl_wp ha h0 h h2 else BIG.shl_top ha h0 ⟨by omega, h1⟩ h2, fun h1 h2 => BIG.shrAny_wp ha h0 h2 h1,
    fun h1 => DBIG.shrAny_wp hd d0 d1 h1⟩

/-- Past the last limb the shifts panic. -/
theorem C98_shifts_panic (a : BIG) (d : DBIG) (k : Nat) :
    (a.shl k = none ↔ 280 ≤ k) ∧ (a.shrAny k = none ↔ 280 ≤ k) ∧ (d.shrAny k = none ↔ 560 ≤ k) := by
  refine ⟨?_, ?_, ?_⟩
  · unfold BIG.shl; dsimp only; split <;> simp <;> omega
  · unfold BIG.shrAny; dsimp only; split <;> simp <;> omega
  · unfold DBIG.shrAny; dsimp only; split <;> simp <;> omega

/-- `3 · 2^200 / 2^199 = 6`. -/
example : ((BIG.new_int 3).shl 200 >>= fun b => b.shrAny 199) = some (BIG.new_int 6) := by decide +kernel

/-- **C98**, random numbers. From a generator at byte `i` of the stream of entropy `e`, `random` returns the number
of the next 256 bits and leaves the generator 32 bytes further. -/
theorem C98_random (e : List UInt8) (i : Nat) (g : RAND) (hg : RAND.Gen (sha256 e) i g) :
    Wp (BIG.random g) fun q => q.1.Nrm ∧ q.1.val = (numberAt e i 256 : Int) ∧ RAND.Gen (sha256 e) (i + 32) q.2 :=
  BIG.random_wp hg

/-- A generator seeded with three bytes. -/
example (g : RAND) : ∃ g' q, g.seed [1, 2, 3] = some g' ∧ BIG.random g' = some q ∧ q.1.val = (numberAt [1, 2, 3] 0 256 : Int) := by
  obtain ⟨g', h1, h2⟩ := RAND.seed_wp g [1, 2, 3] (by simp) (by simp)
  obtain ⟨q, h3, -, h4, -⟩ := C98_random _ _ _ h2
  exact ⟨g', q, h1, h3, h4⟩

/-- **C98**, length. `DBIG::nbits` is the bit length, for any sums of up to 16 numbers. -/
theorem C98_nbits (d : DBIG) (v : Nat) (hd : d.Lim (2 ^ 62)) (hv : d.val = v) (h1 : v < 2 ^ 560) :
    Wp d.nbits fun r => r.1 = Nat.size v ∧ r.2.Nrm ∧ r.2.val = v := by
  refine (DBIG.nbits_wp hd (by omega) (by omega)).mono ?_
  rintro r ⟨h2, h3, h4⟩
  exact ⟨by rw [h2, hv, Int.toNat_natCast], h3, h4.trans hv⟩

/-- **C98**, text. `DBIG::to_string` is the number in hexadecimal without leading zeros. -/
theorem C98_to_string (d : DBIG) (v : Nat) (hd : d.Lim (2 ^ 62)) (hv : d.val = v) (h1 : v < 2 ^ 560) :
    d.to_string = some (toHex ((Nat.size v + 3) / 4) v) :=
  DBIG.to_string_eq hd hv h1

/-- Zero is the empty string. -/
theorem C98_to_string_empty (d : DBIG) (v : Nat) (hd : d.Lim (2 ^ 62)) (hv : d.val = v) (h1 : v < 2 ^ 560) :
    d.to_string = some [] ↔ v = 0 := by
  rw [C98_to_string d v hd hv h1, Option.some.injEq]
  constructor
  · intro h
    by_contra h0
    have hs : 0 < Nat.size v := Nat.size_pos.2 (by omega)
    obtain ⟨m, e⟩ : ∃ m, (Nat.size v + 3) / 4 = m + 1 := ⟨(Nat.size v + 3) / 4 - 1, by omega⟩
    rw [e, toHex] at h
    simp at h
  · rintro rfl; rfl

/-- `2^280 + 431`. -/
example : DBIG.to_string ⟨BIG.new_int 431, BIG.new_int 1⟩ = some ('1' :: List.replicate 67 '0' ++ ['1', 'A', 'F']) := by
  decide +kernel

/-- **C98**, split. At a position inside limb 4 the result is the upper part, and the lower five limbs of `self`
keep the lower part. The upper five limbs of `self` stay. -/
theorem C98_split (d : DBIG) (h : d.Nrm) (h0 : 0 ≤ d.val) (n : Nat) (hn : 224 ≤ n ∧ n < 280) (h1 : d.val < 2 ^ (n + 280)) :
    (d.split n).1.Nrm ∧ (d.split n).1.val = d.val / 2 ^ n ∧ (d.split n).2.lo.Nrm ∧
      (d.split n).2.lo.val = d.val % 2 ^ n ∧ (d.split n).2.hi = d.hi :=
  DBIG.split_spec h h0 hn h1

/-- Only `n mod 56` counts: splitting at bit 0 is splitting at bit 224. -/
theorem C98_split_mod (d : DBIG) (n : Nat) : d.split n = d.split (224 + n % 56) := by
  have : (224 + n % 56) % 56 = n % 56 := by omega
  simp only [DBIG.split, this]

/-- `2^284 + 5` split at 270 is `2^14` and 5; split at 0 it is `2^60`, not the number itself. -/
example : ((DBIG.split ⟨BIG.new_int 5, BIG.new_int 16⟩ 270).1.val, (DBIG.split ⟨BIG.new_int 5, BIG.new_int 16⟩ 270).2.lo.val,
    (DBIG.split ⟨BIG.new_int 5, BIG.new_int 16⟩ 0).1.val) = (2 ^ 14, 5, 2 ^ 60) := by decide +kernel

/-- **C98**, limbs. `set` replaces one digit and panics past the end. -/
theorem C98_set (a : BIG) (i : Nat) (x : Int) :
    (a.set i x = none ↔ 5 ≤ i) ∧
    ∀ b, a.set i x = some b → b.val = a.val + (x - a.digit i) * 2 ^ (56 * i) ∧ ∀ j, b.digit j = if j = i then x else a.digit j := by
  by_cases hi : i < 5
  · refine ⟨?_, ?_⟩
    · interval_cases i <;> simp [BIG.set]
    · rintro b hb
      refine ⟨?_, fun j => ?_⟩
      · interval_cases i <;> simp only [BIG.set, Option.some.injEq] at hb <;> subst hb <;>
          simp only [BIG.val, BIG.digit] <;> ring
      · interval_cases i <;> simp only [BIG.set, Option.some.injEq] at hb <;> subst hb <;>
          rcases j with _ | _ | _ | _ | _ | j <;> simp [BIG.digit]
  · obtain ⟨k, rfl⟩ := Nat.exists_eq_add_of_le (not_lt.1 hi)
    rw [show 5 + k = k + 5 by omega]
    simp [BIG.set]

/-- **C98**, bits. `or` of two normalised numbers is their bitwise or. `isok` says that every limb is a digit. -/
theorem C98_or (a b : BIG) (x y : Nat) (ha : a.Nrm) (hb : b.Nrm) (hx : a.val = x) (hy : b.val = y) (x1 : x < 2 ^ 280)
    (y1 : y < 2 ^ 280) : (a.or b).Nrm ∧ (a.or b).val = ((x ||| y : Nat) : Int) :=
  BIG.or_bits ha hb hx hy x1 y1

/-- See `C98_or`. -/
theorem C98_isok (a : BIG) : a.isok = true ↔ ∀ i < 5, 0 ≤ a.digit i ∧ a.digit i < 2 ^ 56 := by
  rw [BIG.isok_iff]
  constructor
  · rintro ⟨⟨h0, h1, h2, h3⟩, h4⟩ i hi
    interval_cases i <;> assumption
  · intro h
    exact ⟨⟨h 0 (by norm_num), h 1 (by norm_num), h 2 (by norm_num), h 3 (by norm_num)⟩,
      h 4 (by norm_num)⟩

/-- `2^60 + 5` or `2^60 + 3` is `2^60 + 7`; a limb of `2^56` is not in order. -/
example : ((BIG.or ⟨5, 4, 0, 0, 0⟩ ⟨3, 4, 0, 0, 0⟩).val, (BIG.new_int (2 ^ 56)).isok, (BIG.new_int 5).isok) =
    (2 ^ 58 + 7, false, true) := by decide +kernel

/-- **C98**, top limb. `xortop` and `ortop` combine the bits of the top limb with those of `x` and leave the
other limbs. -/
theorem C98_top (a : BIG) (w x : Nat) (hw : a.w4 = w) (h1 : w < 2 ^ 63) (h2 : x < 2 ^ 63) :
    a.xortop x = { a with w4 := (w ^^^ x : Nat) } ∧ a.ortop x = { a with w4 := (w ||| x : Nat) } := by
  have ew : BitVec.ofInt 64 (w : Int) = BitVec.ofNat 64 w := BitVec.ofInt_natCast _ _
  have ex : BitVec.ofInt 64 (x : Int) = BitVec.ofNat 64 x := BitVec.ofInt_natCast _ _
  have hx := Nat.xor_lt_two_pow h1 h2
  have ho := Nat.or_lt_two_pow h1 h2
  constructor
  · rw [BIG.xortop, Amcl.xor64, hw, ew, ex, ← BitVec.ofNat_xor, BitVec.toInt_eq_toNat_of_lt, BitVec.toNat_ofNat, Nat.mod_eq_of_lt (by omega)]
    rw [BitVec.toNat_ofNat, Nat.mod_eq_of_lt (by omega)]; omega
  · rw [BIG.ortop, Amcl.or64, hw, ew, ex, ← BitVec.ofNat_or, BitVec.toInt_eq_toNat_of_lt, BitVec.toNat_ofNat, Nat.mod_eq_of_lt (by omega)]
    rw [BitVec.toNat_ofNat, Nat.mod_eq_of_lt (by omega)]; omega

/-- `5 xor 3 = 6`, `5 or 3 = 7`. -/
example : (BIG.xortop ⟨1, 2, 3, 4, 5⟩ 3, BIG.ortop ⟨1, 2, 3, 4, 5⟩ 3) =
    (⟨1, 2, 3, 4, 6⟩, ⟨1, 2, 3, 4, 7⟩) := by decide +kernel

/-- **C98**, printed forms. `BIG::tostring` writes a number in upper-case hexadecimal, on 64 digits or on as many as it
needs. A field element prints as its least residue, but a nonzero representation of 0 as the prime. A point prints as
its coordinates or as the word `infinity`. -/
theorem C98_tostring_big (a : BIG) (v : Nat) (ha : a.Nrm) (hv : a.val = v) (h : v < 2 ^ 280) :
    a.tostring = some (toHex (max 64 ((Nat.size v + 3) / 4)) v) :=
  BIG.tostring_eq ha hv h

/-- 431 is 60 zeros and `01AF`. -/
example : (BIG.new_int 431).tostring = some (List.replicate 60 '0' ++ ['0', '1', 'A', 'F']) := by
  rw [C98_tostring_big (BIG.new_int 431) 431 (BIG.new_int_nrm (by norm_num) (by norm_num)) (BIG.new_int_val _) (by norm_num),
    show max 64 ((Nat.size 431 + 3) / 4) = 64 by decide +kernel]
  decide +kernel

/-- See `C98_tostring_big`. -/
theorem C98_tostring_fp (f : FP) (E : Int) (v : Fp) (hf : FP.Ok f 1 E v) (hE : E ≤ 2 ^ 24) :
    (v ≠ 0 ∨ f.x.val = 0 → f.tostring = some (hexOf (toBE 32 v.val))) ∧
    (v = 0 → f.x.val ≠ 0 → f.tostring = some (hexOf (toBE 32 p))) := by
  rw [FP.tostring_wp hf (by omega), FP.outNat]
  constructor
  · intro h
    rw [if_neg (by tauto)]
  · intro h1 h2
    rw [if_pos ⟨h1, h2⟩]

/-- See `C98_tostring_big`. -/
theorem C98_tostring_point (P : ECP) :
    (∀ x y (h : y ^ 2 = x ^ 3 + b1), P.OkY (2 ^ 24) (Pt.mk x y h) →
      P.tostring = some ('(' :: hexOf (toBE 32 x.val) ++ ',' :: hexOf (toBE 32 y.val) ++ [')'])) ∧
    (P.OkY (2 ^ 24) 0 → P.tostring = some "infinity".toList) :=
  ⟨fun _ _ _ h => ECP.tostring_wp h le_rfl, fun h => ECP.tostring_inf h le_rfl⟩

/-- **C98**, equal strings come from equal points. -/
theorem C98_tostring_inj (P Q : ECP) (g g' : G1) (hP : P.OkY (2 ^ 24) g) (hQ : Q.OkY (2 ^ 24) g') :
    P.tostring = Q.tostring ↔ g = g' := by
  rcases g.cases with rfl | ⟨x, y, h, rfl⟩ <;> rcases g'.cases with rfl | ⟨x', y', h', rfl⟩
  · rw [ECP.tostring_inf hP le_rfl, ECP.tostring_inf hQ le_rfl]; simp
  · rw [ECP.tostring_inf hP le_rfl, ECP.tostring_wp hQ le_rfl]
    exact ⟨fun e => by simp at e, fun e => absurd e.symm (Pt.mk_ne h')⟩
  · rw [ECP.tostring_inf hQ le_rfl, ECP.tostring_wp hP le_rfl]
    exact ⟨fun e => by simp at e, fun e => absurd e (Pt.mk_ne h)⟩
  · rw [ECP.tostring_wp hP le_rfl, ECP.tostring_wp hQ le_rfl, Pt.mk_inj]
    constructor
    · intro e
      have val : ∀ a b : Fp, hexOf (toBE 32 a.val) = hexOf (toBE 32 b.val) → a = b := by
        intro a b e
        have e := congrArg beNat (hexOf_inj e)
        have ha := ZMod.val_lt a
        have hb := ZMod.val_lt b
        have := p_le_pow
        rw [beNat_toBE, beNat_toBE, Nat.mod_eq_of_lt (by omega), Nat.mod_eq_of_lt (by omega)] at e
        exact ZMod.val_injective p e
      simp only [List.cons_append, List.append_assoc, Option.some.injEq, List.cons.injEq, true_and] at e
      obtain ⟨e1, e2⟩ := List.append_inj e (by simp [length_hexOf, length_toBE])
      simp only [List.cons.injEq, true_and] at e2
      obtain ⟨e3, -⟩ := List.append_inj e2 (by simp [length_hexOf, length_toBE])
      exact ⟨val _ _ e1, val _ _ e3⟩
    · rintro ⟨rfl, rfl⟩; rfl

/-- The generator prints as its two coordinates. -/
example : ∃ G, ECP.generator = some G ∧ G.tostring =
    some ("(79BE667EF9DCBBAC55A06295CE870B07029BFCDB2DCE28D959F2815B16F81798,".toList ++
      "483ADA7726A3C4655DA4FBFC0E1108A8FD17B448A68554199C47D08FFB10D4B8)".toList) := by
  obtain ⟨G, e, hG⟩ := C69_group.2.1
  refine ⟨G, e, ?_⟩
  rw [(C98_tostring_point G).1 gx gy g_on (hG.mono (by norm_num)), ZMod.val_natCast_of_lt (by norm_num [gx, p]),
    ZMod.val_natCast_of_lt (by norm_num [gy, p])]
  decide +kernel

end Props.Secp
