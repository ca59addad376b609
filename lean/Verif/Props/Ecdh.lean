import Verif.Proof.EcdhPb
/-!
# C67: HMAC, KDF1, KDF2 and PBKDF2 of `ecdh.rs`

The references are FIPS 198-1, ISO/IEC 18033-2 and RFC 8018 (`Verif/Spec/Ecdh.lean`). HMAC and KDF2 are computed. KDF1 is
not: the number 0 of the first block is left out. PBKDF2 is computed with SHA-512 for at most 32 bytes, and with one
iteration with SHA-256 for any length and with SHA-384 for at most 32 bytes; otherwise the code computes something else,
which is stated too.
-/

namespace Props
open Amcl Amcl.ecdh
open Spec (toBE)
open Spec.Kdf (H ceilDiv)

/-! ## HMAC -/

/-- `hmac` writes the first `olen` bytes of `HMAC(k, m)`, with zeros in front of it if it is shorter. -/
theorem C67_hmac {sha : Nat} (hs : sha = 32 ∨ sha = 48 ∨ sha = 64) {m k : List UInt8} (hm : m.length + 145 ≤ 2 ^ 29) (hk : k.length + 17 ≤ 2 ^ 29)
    {olen : Nat} (ho : 4 ≤ olen) {tag : List UInt8} (ht : olen ≤ tag.length) :
    ecdh.hmac sha m k olen tag =
      some (true, List.replicate (olen - sha) 0 ++ (Spec.Kdf.hmac sha k m).take olen ++ tag.drop olen) := by
  rw [hmac_eq hs hm hk ho ht, fit, if_neg (by omega)]
  have hl := length_hmac hs hm hk
  split
  · rename_i c
    rw [show olen - sha = 0 by omega, List.replicate_zero, List.nil_append]
  · rw [List.take_of_length_le (by omega)]

/-- A tag of less than 4 bytes is refused and left as it is, with any other arguments. -/
theorem C67_hmac_short (sha : Nat) (m k : List UInt8) {olen : Nat} (ho : olen < 4) (tag : List UInt8) :
    ecdh.hmac sha m k olen tag = some (false, tag) := by
  rw [ecdh.hmac, if_pos ho]; rfl

/-- The case of RFC 4231, 4.3 (SHA-256). -/
example : ecdh.hmac 32 "what do ya want for nothing?".toUTF8.toList "Jefe".toUTF8.toList 4 [0, 0, 0, 0, 9] =
    some (true, [0x5b, 0xdc, 0xc1, 0x46, 9]) := by decide +kernel

/-! ## KDF1 and KDF2 -/

/-- `kdf2` computes KDF2; an absent `p` is empty. -/
theorem C67_kdf2 {sha : Nat} (hs : sha = 32 ∨ sha = 48 ∨ sha = 64) {z : List UInt8} {p : Option (List UInt8)}
    (hl : z.length + (p.getD []).length + 21 ≤ 2 ^ 29) {olen : Nat} (hn : ceilDiv olen sha < 2 ^ 32) {k : List UInt8} (ho : olen ≤ k.length) :
    ecdh.kdf2 sha z p olen k = some (Spec.Kdf.kdf2 sha z (p.getD []) olen ++ k.drop olen) := by
  rw [ecdh.kdf2, threshold_eq (by omega), Option.bind_eq_bind, Option.bind_some, kdfAll_eq hs (by omega) ho (by omega), cblocks_eq _ _ _ _ _ (by omega)]
  rfl

/-- `kdf1` hashes `z` alone for the first block; the others are those of KDF1. -/
theorem C67_kdf1 {sha : Nat} (hs : sha = 32 ∨ sha = 48 ∨ sha = 64) {z : List UInt8} (hl : z.length + 21 ≤ 2 ^ 29) {olen : Nat} (h0 : 0 < olen)
    (hn : ceilDiv olen sha < 2 ^ 32) {k : List UInt8} (ho : olen ≤ k.length) :
    ecdh.kdf1 sha z olen k = some ((H sha z ++ Spec.Kdf.blocks sha z [] (ceilDiv olen sha - 1) 1).take olen ++ k.drop olen) := by
  rw [ecdh.kdf1, threshold_eq (by omega), Option.bind_eq_bind, Option.bind_some, kdfAll_eq hs (by simpa using by omega) ho (by omega)]
  have hc := ceil_bounds (by omega : 0 < sha) olen
  obtain ⟨n, h⟩ : ∃ n, ceilDiv olen sha = n + 1 := by
    cases h : ceilDiv olen sha with
    | zero => rw [h] at hc; omega
    | succ n => exact ⟨n, rfl⟩
  rw [h, cblocks, cblocks_eq _ _ _ _ _ (by omega), Nat.add_sub_cancel, ecdh.data, if_neg (by omega), List.append_nil]
  simp

/-- So up to the length of a hash value `kdf1` is KDF1 only if the hash values of `z` and of `z` with four zeros agree on
that length. -/
theorem C67_kdf1_iff {sha : Nat} (hs : sha = 32 ∨ sha = 48 ∨ sha = 64) {z : List UInt8} (hl : z.length + 21 ≤ 2 ^ 29) {olen : Nat} (h0 : 0 < olen)
    (h1 : olen ≤ sha) {k : List UInt8} (ho : olen ≤ k.length) :
    ecdh.kdf1 sha z olen k = some (Spec.Kdf.kdf1 sha z olen ++ k.drop olen) ↔ (H sha z).take olen = (H sha (z ++ [0, 0, 0, 0])).take olen := by
  have hc := ceil_bounds (by omega : 0 < sha) olen
  have h : ceilDiv olen sha = 1 := by
    rcases Nat.lt_or_ge (ceilDiv olen sha) 2 with h | h
    · cases h' : ceilDiv olen sha with
      | zero => rw [h'] at hc; omega
      | succ n => omega
    · have : sha * 2 ≤ sha * ceilDiv olen sha := Nat.mul_le_mul_left _ h
      omega
  rw [C67_kdf1 hs hl h0 (by omega) ho, Spec.Kdf.kdf1, h, Nat.sub_self, Spec.Kdf.blocks, Spec.Kdf.blocks, Spec.Kdf.blocks,
    List.append_nil, List.append_nil, List.append_nil, show toBE 4 0 = [0, 0, 0, 0] by decide]
  constructor
  · intro e
    exact List.append_cancel_right (Option.some.inj e)
  · intro e
    rw [e]

/-- For example, with SHA-256 the first byte for the secret 7 differs from that of KDF1. -/
theorem C67_kdf1_wrong : ecdh.kdf1 32 [7] 1 [0] ≠ some (Spec.Kdf.kdf1 32 [7] 1 ++ [0].drop 1) := by
  rw [Ne, C67_kdf1_iff (Or.inl rfl) (by decide) (by omega) (by omega) (by decide)]
  intro h
  have e1 := digest_eq (Or.inl rfl : IsSha 32) (m := [7]) (by decide)
  have e2 := digest_eq (Or.inl rfl : IsSha 32) (m := [7] ++ [0, 0, 0, 0]) (by decide)
  have : (mpin.digest 32 [7]).map (·.map (·.take 1)) = (mpin.digest 32 ([7] ++ [0, 0, 0, 0])).map (·.map (·.take 1)) := by
    rw [e1.1, e2.1, Option.map_some, Option.map_some, Option.map_some, Option.map_some, h]
  revert this
  decide +kernel

/-- Three bytes of KDF2. -/
example : ecdh.kdf2 32 [1, 2] (some [3]) 3 [0, 0, 0, 9] = some (Spec.Kdf.kdf2 32 [1, 2] [3] 3 ++ [9]) :=
  C67_kdf2 (Or.inl rfl) (by decide) (by decide) (by decide)

/-- No hash function with values of length 0: a division by 0. -/
theorem C67_zero (z p s : List UInt8) (q : Option (List UInt8)) (rep olen : Nat) (k : List UInt8) :
    ecdh.kdf1 0 z olen k = none ∧ ecdh.kdf2 0 z q olen k = none ∧ ecdh.pbkdf2 0 p s rep olen k = none := ⟨rfl, rfl, rfl⟩

/-! ## PBKDF2 -/

/-- What `pbkdf2` computes: of every block `T_i` only the first 32 bytes, and in the chain `U_j` the hash values filled up
with zeros to 64 bytes. Bytes of `k` that are not reached keep their contents. -/
theorem C67_pbkdf2 {sha : Nat} (hs : sha = 32 ∨ sha = 48 ∨ sha = 64) {pass salt : List UInt8} (hk : pass.length + 17 ≤ 2 ^ 29)
    (hsl : salt.length ≤ 32) (rep : Nat) {olen : Nat} {k : List UInt8} (ho : olen ≤ k.length) :
    ecdh.pbkdf2 sha pass salt rep olen k =
      some ((heads sha pass salt rep (ceilDiv olen sha) 1).take olen ++ k.drop (min (ceilDiv olen sha * 32) olen)) :=
  (pbkdf2_eq hs hk hsl rep ho).1

theorem chain_iter64 (pass u : List UInt8) : ∀ j, chain 64 pass u j = Spec.Kdf.iter (Spec.Kdf.hmac 64 pass) u j
  | 0 => rfl
  | j + 1 => by rw [chain, chain_iter64 pass u j, Nat.sub_self, List.replicate_zero, List.append_nil]; rfl

theorem chainSum_sum64 (pass u : List UInt8) : ∀ j, chainSum 64 pass u j = Spec.Kdf.xorSum (Spec.Kdf.hmac 64 pass) u j
  | 0 => rfl
  | j + 1 => by rw [chainSum, chainSum_sum64 pass u j, chain_iter64]; rfl

theorem ceil_one {sha olen : Nat} (h0 : 0 < olen) (h : olen ≤ sha) : ceilDiv olen sha = 1 := by
  have hc := ceil_bounds (by omega : 0 < sha) olen
  rcases Nat.lt_or_ge (ceilDiv olen sha) 2 with h' | h'
  · cases h'' : ceilDiv olen sha with
    | zero => rw [h''] at hc; omega
    | succ n => omega
  · have : sha * 2 ≤ sha * ceilDiv olen sha := Nat.mul_le_mul_left _ h'
    omega

/-- With SHA-512 and at most 32 bytes the code computes PBKDF2, for every number of iterations. -/
theorem C67_pbkdf2_512 {pass salt : List UInt8} (hk : pass.length + 17 ≤ 2 ^ 29) (hsl : salt.length ≤ 32) (rep : Nat) {olen : Nat}
    (h0 : olen ≤ 32) {k : List UInt8} (ho : olen ≤ k.length) :
    ecdh.pbkdf2 64 pass salt rep olen k = some (Spec.Kdf.pbkdf2 64 pass salt rep olen ++ k.drop olen) := by
  rw [C67_pbkdf2 (by omega) hk hsl rep ho, Spec.Kdf.pbkdf2]
  rcases Nat.eq_zero_or_pos olen with rfl | hp
  · simp
  · rw [ceil_one hp (by omega), heads, heads, Spec.Kdf.tBlocks, Spec.Kdf.tBlocks, List.append_nil, List.append_nil, chainSum_sum64, List.take_take,
      show min olen 32 = olen by omega, show min (1 * 32) olen = olen by omega]

theorem heads_one (pass salt : List UInt8) {rep : Nat} (hr : rep ≤ 1) (hk : pass.length + 17 ≤ 2 ^ 29) (hsl : salt.length ≤ 32) :
    ∀ n i, heads 32 pass salt rep n i = Spec.Kdf.tBlocks 32 pass salt rep n i
  | 0, _ => rfl
  | n + 1, i => by
    have hl : (Spec.Kdf.hmac 32 pass (salt ++ toBE 4 i)).length = 32 :=
      length_hmac (Or.inl rfl) (by rw [List.length_append, Spec.length_toBE]; omega) hk
    rw [heads, Spec.Kdf.tBlocks, heads_one pass salt hr hk hsl n, show rep - 1 = 0 by omega, chainSum, chain, Spec.Kdf.xorSum, Spec.Kdf.iter,
      List.take_of_length_le (by omega)]

/-- With SHA-256 and one iteration the code computes PBKDF2, for every length. -/
theorem C67_pbkdf2_256 {pass salt : List UInt8} (hk : pass.length + 17 ≤ 2 ^ 29) (hsl : salt.length ≤ 32) {olen : Nat} {k : List UInt8}
    (ho : olen ≤ k.length) : ecdh.pbkdf2 32 pass salt 1 olen k = some (Spec.Kdf.pbkdf2 32 pass salt 1 olen ++ k.drop olen) := by
  have hc := ceil_bounds (by omega : 0 < 32) olen
  rw [C67_pbkdf2 (by omega) hk hsl 1 ho, Spec.Kdf.pbkdf2, heads_one pass salt (le_refl 1) hk hsl, show min (ceilDiv olen 32 * 32) olen = olen by omega]

/-- With one iteration and at most 32 bytes the code computes PBKDF2 with every hash function. -/
theorem C67_pbkdf2_once {sha : Nat} (hs : sha = 32 ∨ sha = 48 ∨ sha = 64) {pass salt : List UInt8} (hk : pass.length + 17 ≤ 2 ^ 29)
    (hsl : salt.length ≤ 32) {olen : Nat} (h0 : olen ≤ 32) {k : List UInt8} (ho : olen ≤ k.length) :
    ecdh.pbkdf2 sha pass salt 1 olen k = some (Spec.Kdf.pbkdf2 sha pass salt 1 olen ++ k.drop olen) := by
  rw [C67_pbkdf2 hs hk hsl 1 ho, Spec.Kdf.pbkdf2]
  rcases Nat.eq_zero_or_pos olen with rfl | hp
  · simp
  · rw [ceil_one hp (by omega), heads, heads, Spec.Kdf.tBlocks, Spec.Kdf.tBlocks, List.append_nil, List.append_nil, chainSum, chain, Spec.Kdf.xorSum,
      Spec.Kdf.iter, List.take_take, show min olen 32 = olen by omega, show min (1 * 32) olen = olen by omega]

theorem hmac_val {m k v : List UInt8} (hm : m.length + 145 ≤ 2 ^ 29) (hk : k.length + 17 ≤ 2 ^ 29)
    (h : ecdh.hmac 32 m k 32 (List.replicate 32 0) = some (true, v)) : Spec.Kdf.hmac 32 k m = v := by
  have hl := length_hmac (Or.inl rfl : IsSha 32) hm hk
  rw [C67_hmac (Or.inl rfl) hm hk (by omega) (by simp), List.take_of_length_le (by omega)] at h
  simpa using h

/-- For example, with SHA-256 and two iterations the first byte for the password 1 and the salt 2 is 77, not 109 ^ 86. -/
theorem C67_pbkdf2_wrong : ecdh.pbkdf2 32 [1] [2] 2 1 [0] ≠ some (Spec.Kdf.pbkdf2 32 [1] [2] 2 1 ++ [0].drop 1) := by
  have h1 : Spec.Kdf.hmac 32 [1] ([2] ++ toBE 4 1) =
      [109, 7, 63, 2, 184, 248, 42, 153, 21, 89, 231, 206, 45, 191, 171, 195, 130, 65, 234, 154, 128, 189, 149, 46, 201, 23, 202, 156, 97, 157, 242, 144] :=
    hmac_val (by decide) (by decide) (by decide +kernel)
  have h2 : Spec.Kdf.hmac 32 [1]
      [109, 7, 63, 2, 184, 248, 42, 153, 21, 89, 231, 206, 45, 191, 171, 195, 130, 65, 234, 154, 128, 189, 149, 46, 201, 23, 202, 156, 97, 157, 242, 144] =
      [86, 230, 71, 54, 10, 49, 152, 156, 180, 98, 232, 217, 179, 191, 26, 34, 76, 13, 237, 229, 5, 79, 34, 217, 45, 118, 12, 108, 186, 74, 218, 199] :=
    hmac_val (by decide) (by decide) (by decide +kernel)
  rw [Spec.Kdf.pbkdf2, ceil_one (by omega) (by omega), Spec.Kdf.tBlocks, Spec.Kdf.tBlocks, List.append_nil, show 2 - 1 = 0 + 1 from rfl, Spec.Kdf.xorSum,
    Spec.Kdf.xorSum, Spec.Kdf.iter, Spec.Kdf.iter, Spec.Kdf.iter, h1, h2]
  decide +kernel

/-- With SHA-384 and SHA-512 a key of 33 bytes to one block, or of at least two blocks, is not filled: the last bytes keep their contents. -/
theorem C67_pbkdf2_unfilled {sha : Nat} (hs : sha = 48 ∨ sha = 64) {pass salt : List UInt8} (hk : pass.length + 17 ≤ 2 ^ 29)
    (hsl : salt.length ≤ 32) (rep : Nat) {olen : Nat} (h0 : (32 < olen ∧ olen ≤ sha) ∨ 2 * sha ≤ olen) {k : List UInt8} (ho : olen ≤ k.length) :
    ∃ d, ecdh.pbkdf2 sha pass salt rep olen k = some (d ++ k.drop d.length) ∧ d.length < olen := by
  have hs' : IsSha sha := Or.inr hs
  obtain ⟨h1, h2⟩ := pbkdf2_eq hs' hk hsl rep ho
  have hc := ceil_bounds (by omega : 0 < sha) olen
  have hlt : ceilDiv olen sha * 32 < olen := by
    rcases h0 with h0 | h0
    · rw [ceil_one (by omega) h0.2]; omega
    · rcases hs with rfl | rfl <;> omega
  refine ⟨heads sha pass salt rep (ceilDiv olen sha) 1, ?_, by omega⟩
  rw [h1, h2, List.take_of_length_le (by omega), Nat.min_eq_left (by omega)]

/-- A salt of more than 32 bytes: an index out of range. -/
theorem C67_pbkdf2_salt {sha : Nat} (hs : sha = 32 ∨ sha = 48 ∨ sha = 64) {salt : List UInt8} (hsl : 32 < salt.length) (pass : List UInt8)
    (rep : Nat) {olen : Nat} (ho : 0 < olen) (k : List UInt8) : ecdh.pbkdf2 sha pass salt rep olen k = none :=
  pbkdf2_salt hs hsl pass rep ho k

end Props
