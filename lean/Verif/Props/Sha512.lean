import Verif.Proof.Sha512
/-!
# Property C46: the longer hashes are SHA-512 and SHA-384, except that SHA-384 panics in a debug build
-/

namespace Props

open Amcl Spec

/-- Hash the messages of a list one after the other with the same object. -/
def hashAll {n : Nat} (feed : Sha64 → List UInt8 → Option Sha64) (fin : Sha64 → Option (Vector UInt8 n × Sha64)) :
    Sha64 → List (List UInt8) → Option (List (Vector UInt8 n))
  | _, [] => some []
  | t, m :: ms => do
    let r ← fin (← feed t m)
    return r.1 :: (← hashAll feed fin r.2 ms)

/-- **C46.** Feeding any messages of at most `2^61 - 17` bytes, one after the other, to one `HASH512` object and
finishing after each gives the SHA-512 values of FIPS 180-4; nothing panics, and what `init` leaves behind in the last
sixteen words of the schedule does no harm. -/
theorem C46_sha512 (ms : List (List UInt8)) (hm : ∀ m ∈ ms, m.length + 17 ≤ 2 ^ 61) :
    ∃ ds, hashAll HASH512.process_array HASH512.hash HASH512.new ms = some ds ∧
      ds.map Vector.toList = ms.map sha512 := by
  suffices H : ∀ t, Sha64.After (Sha512.init 0) t [] → ∃ ds, hashAll HASH512.process_array HASH512.hash t ms = some ds ∧
      ds.map Vector.toList = ms.map sha512 from H _ (Sha64.After.init Sha64.st_512 _)
  induction ms with
  | nil => exact fun t _ => ⟨[], rfl, rfl⟩
  | cons m ms ih =>
    intro t ht
    have hl := hm m (by simp)
    obtain ⟨t1, e1, h1⟩ := Sha64.foldlM_wp ht m (by simp; omega)
    obtain ⟨d, e2, hd, h2⟩ := Sha64.hash512_wp h1 (by simpa using hl)
    obtain ⟨ds, e3, h3⟩ := ih (fun m' h' => hm m' (by simp [h'])) d.2 h2
    refine ⟨d.1 :: ds, ?_, ?_⟩
    · rw [hashAll, HASH512.process_array, Sha64.process_array, e1]
      simp only [Option.bind_eq_bind, Option.bind_some, e2, e3]
      rfl
    · rw [List.map_cons, List.map_cons, h3, hd, List.nil_append]

/-- **C46**, the same for SHA-384 in a release build. -/
theorem C46_sha384_release (ms : List (List UInt8)) (hm : ∀ m ∈ ms, m.length + 17 ≤ 2 ^ 61) :
    ∃ ds, hashAll (HASH384.process_array false) (HASH384.hash false) HASH384.new ms = some ds ∧
      ds.map Vector.toList = ms.map sha384 := by
  suffices H : ∀ t, Sha64.After (Sha512.init 8) t [] →
      ∃ ds, hashAll (HASH384.process_array false) (HASH384.hash false) t ms = some ds ∧
        ds.map Vector.toList = ms.map sha384 from H _ (Sha64.After.init Sha64.st_384 _)
  induction ms with
  | nil => exact fun t _ => ⟨[], rfl, rfl⟩
  | cons m ms ih =>
    intro t ht
    have hl := hm m (by simp)
    obtain ⟨t1, e1, h1⟩ := Sha64.foldlM_wp ht m (by simp; omega)
    obtain ⟨d, e2, hd, h2⟩ := Sha64.hash384_wp h1 (by simpa using hl)
    obtain ⟨ds, e3, h3⟩ := ih (fun m' h' => hm m' (by simp [h'])) d.2 h2
    refine ⟨d.1 :: ds, ?_, ?_⟩
    · rw [hashAll, HASH384.process_array, Sha64.process_array, e1]
      simp only [Option.bind_eq_bind, Option.bind_some, e2, e3]
      rfl
    · rw [List.map_cons, List.map_cons, h3, hd, List.nil_append]

/-- **C46**, SHA-384 in a debug build: a digest that is returned at all is right. -/
theorem C46_sha384_debug (m : List UInt8) (hm : m.length + 17 ≤ 2 ^ 61) (t : Sha64) (d : Vector UInt8 48 × Sha64)
    (ht : HASH384.process_array true HASH384.new m = some t) (hd : HASH384.hash true t = some d) :
    d.1.toList = sha384 m := by
  obtain ⟨t1, e1, h1⟩ := Sha64.foldlM_wp (Sha64.After.init Sha64.st_384 _) m (by simp; omega)
  have e := Sha64.foldlM_mono m ht
  rw [HASH384.new, Sha64.new, e1, Option.some_inj] at e
  subst e
  obtain ⟨d', e2, h2, -⟩ := Sha64.hash384_wp h1 (by simpa using hm)
  rw [Sha64.hash384_mono hd, Option.some_inj] at e2
  subst e2
  exact h2

/-- **C46**, the finding: in a debug build the additions of the message schedule overflow and panic, already for the
empty message and for the example of the standard. -/
theorem C46_sha384_debug_panics :
    (HASH384.process_array true HASH384.new []).bind (HASH384.hash true) = none ∧
    (HASH384.process_array true HASH384.new [0x61, 0x62, 0x63]).bind (HASH384.hash true) = none := by
  decide +kernel

/-- A state of the 64-bit hash from which the checked schedule does not overflow exists (all words zero), so the
hypotheses of `C46_sha384_debug` concern runs that the code can make; such messages are merely rare. -/
example : (Sha64.transform true ⟨0, 0, HASH384.H0, Vector.replicate 80 0⟩).isSome = true := by decide +kernel

/-- The first example of the standard, twice with the same object, obtained by running the model. -/
example : sha512 [0x61, 0x62, 0x63] =
    [0xdd, 0xaf, 0x35, 0xa1, 0x93, 0x61, 0x7a, 0xba, 0xcc, 0x41, 0x73, 0x49, 0xae, 0x20, 0x41, 0x31,
     0x12, 0xe6, 0xfa, 0x4e, 0x89, 0xa9, 0x7e, 0xa2, 0x0a, 0x9e, 0xee, 0xe6, 0x4b, 0x55, 0xd3, 0x9a,
     0x21, 0x92, 0x99, 0x2a, 0x27, 0x4f, 0xc1, 0xa8, 0x36, 0xba, 0x3c, 0x23, 0xa3, 0xfe, 0xeb, 0xbd,
     0x45, 0x4d, 0x44, 0x23, 0x64, 0x3c, 0xe8, 0x0e, 0x2a, 0x9a, 0xc9, 0x4f, 0xa5, 0x4c, 0xa4, 0x9f] := by
  obtain ⟨ds, e, h⟩ := C46_sha512 [[], [0x61, 0x62, 0x63]] (by simp)
  have h2 : (hashAll HASH512.process_array HASH512.hash HASH512.new [[], [0x61, 0x62, 0x63]]).map (fun l => l[1]?) =
      some (some #v[
     0xdd, 0xaf, 0x35, 0xa1, 0x93, 0x61, 0x7a, 0xba, 0xcc, 0x41, 0x73, 0x49, 0xae, 0x20, 0x41, 0x31,
     0x12, 0xe6, 0xfa, 0x4e, 0x89, 0xa9, 0x7e, 0xa2, 0x0a, 0x9e, 0xee, 0xe6, 0x4b, 0x55, 0xd3, 0x9a,
     0x21, 0x92, 0x99, 0x2a, 0x27, 0x4f, 0xc1, 0xa8, 0x36, 0xba, 0x3c, 0x23, 0xa3, 0xfe, 0xeb, 0xbd,
     0x45, 0x4d, 0x44, 0x23, 0x64, 0x3c, 0xe8, 0x0e, 0x2a, 0x9a, 0xc9, 0x4f, 0xa5, 0x4c, 0xa4, 0x9f]) := by decide +kernel
  rw [e, Option.map_some, Option.some_inj] at h2
  have h3 : (ds.map Vector.toList)[1]? = some (sha512 [0x61, 0x62, 0x63]) := by rw [h]; rfl
  rw [List.getElem?_map, h2, Option.map_some, Option.some_inj] at h3
  rw [← h3]
  rfl

/-- The same for SHA-384. -/
example : sha384 [0x61, 0x62, 0x63] =
    [0xcb, 0x00, 0x75, 0x3f, 0x45, 0xa3, 0x5e, 0x8b, 0xb5, 0xa0, 0x3d, 0x69, 0x9a, 0xc6, 0x50, 0x07,
     0x27, 0x2c, 0x32, 0xab, 0x0e, 0xde, 0xd1, 0x63, 0x1a, 0x8b, 0x60, 0x5a, 0x43, 0xff, 0x5b, 0xed,
     0x80, 0x86, 0x07, 0x2b, 0xa1, 0xe7, 0xcc, 0x23, 0x58, 0xba, 0xec, 0xa1, 0x34, 0xc8, 0x25, 0xa7] := by
  obtain ⟨ds, e, h⟩ := C46_sha384_release [[], [0x61, 0x62, 0x63]] (by simp)
  have h2 : (hashAll (HASH384.process_array false) (HASH384.hash false) HASH384.new [[], [0x61, 0x62, 0x63]]).map
      (fun l => l[1]?) = some (some #v[
     0xcb, 0x00, 0x75, 0x3f, 0x45, 0xa3, 0x5e, 0x8b, 0xb5, 0xa0, 0x3d, 0x69, 0x9a, 0xc6, 0x50, 0x07,
     0x27, 0x2c, 0x32, 0xab, 0x0e, 0xde, 0xd1, 0x63, 0x1a, 0x8b, 0x60, 0x5a, 0x43, 0xff, 0x5b, 0xed,
     0x80, 0x86, 0x07, 0x2b, 0xa1, 0xe7, 0xcc, 0x23, 0x58, 0xba, 0xec, 0xa1, 0x34, 0xc8, 0x25, 0xa7]) := by decide +kernel
  rw [e, Option.map_some, Option.some_inj] at h2
  have h3 : (ds.map Vector.toList)[1]? = some (sha384 [0x61, 0x62, 0x63]) := by rw [h]; rfl
  rw [List.getElem?_map, h2, Option.map_some, Option.some_inj] at h3
  rw [← h3]
  rfl

end Props
