import Verif.Proof.Sha256
/-!
# Property C35: the internal hash is SHA-256
-/

namespace Props

open Amcl Spec

/-- **C35.** Feeding any message of at most `2^29 - 9` bytes to a new `HASH256` and finishing gives the
SHA-256 value of FIPS 180-4; nothing panics. -/
theorem C35_sha256 (m : List UInt8) (hm : m.length + 9 ≤ 2 ^ 29) :
    ∃ t d, HASH256.new.process_array m = some t ∧ t.hash = some d ∧ d.toList = sha256 m := by
  obtain ⟨t, e, ht⟩ := HASH256.foldlM_wp HASH256.After.new m (by simp; omega)
  obtain ⟨d, ed, hd⟩ := HASH256.hash_wp ht (by simpa using hm)
  exact ⟨t, d, e, ed, hd⟩

/-- **C35**, the bound is sharp: for every longer message the bit counter overflows, which panics in a
debug build. -/
theorem C35_too_long (m : List UInt8) (hm : 2 ^ 29 < m.length + 9) :
    (HASH256.new.process_array m).bind HASH256.hash = none := by
  by_cases h : m.length < 2 ^ 29
  · obtain ⟨t, e, ht⟩ := HASH256.foldlM_wp HASH256.After.new m (by simpa using h)
    rw [HASH256.process_array, e]
    exact HASH256.hash_none ht (by simpa using h) (by simpa using hm)
  · rw [HASH256.process_array, HASH256.foldlM_none HASH256.After.new m (by norm_num) (by simpa using h)]
    rfl

/-- The first example of the standard: the value at `abc`, obtained by running the model. -/
example : sha256 [0x61, 0x62, 0x63] =
    [0xba, 0x78, 0x16, 0xbf, 0x8f, 0x01, 0xcf, 0xea, 0x41, 0x41, 0x40, 0xde, 0x5d, 0xae, 0x22, 0x23,
     0xb0, 0x03, 0x61, 0xa3, 0x96, 0x17, 0x7a, 0x9c, 0xb4, 0x10, 0xff, 0x61, 0xf2, 0x00, 0x15, 0xad] := by
  obtain ⟨t, d, e, ed, hd⟩ := C35_sha256 [0x61, 0x62, 0x63] (by norm_num)
  have h : (HASH256.new.process_array [0x61, 0x62, 0x63]).bind HASH256.hash = some #v[
     0xba, 0x78, 0x16, 0xbf, 0x8f, 0x01, 0xcf, 0xea, 0x41, 0x41, 0x40, 0xde, 0x5d, 0xae, 0x22, 0x23,
     0xb0, 0x03, 0x61, 0xa3, 0x96, 0x17, 0x7a, 0x9c, 0xb4, 0x10, 0xff, 0x61, 0xf2, 0x00, 0x15, 0xad] := by decide +kernel
  rw [e, Option.bind_some, ed, Option.some_inj] at h
  rw [← hd, h]
  rfl

end Props
