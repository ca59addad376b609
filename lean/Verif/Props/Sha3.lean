import Verif.Proof.Sha3
/-!
# Property C60: SHA-3 and SHAKE

`Spec.Keccak` is FIPS 202 on bit strings. `bits` gives the bits of a byte string; it is injective, so the
equations below determine every byte of the output.
-/

namespace Props

open Amcl Spec.Keccak

/-- A byte string is determined by its bits. -/
theorem bits_injective {l l' : List UInt8} (h : bits l = bits l') : l = l' := by
  have hl : l.length = l'.length := by
    have := congrArg List.length h
    rw [SHA3.bits_length, SHA3.bits_length] at this
    omega
  apply List.ext_getElem hl
  intro n h1 h2
  have e : ∀ z, z < 8 → (l.getD n 0).toBitVec.getLsbD z = (l'.getD n 0).toBitVec.getLsbD z := by
    intro z hz
    have h3 := SHA3.bits_getD l (8 * n + z)
    have h4 := SHA3.bits_getD l' (8 * n + z)
    rw [show (8 * n + z) / 8 = n by omega, show (8 * n + z) % 8 = z by omega] at h3 h4
    rw [← h3, ← h4, h]
  rw [List.getD_eq_getElem _ _ h1, List.getD_eq_getElem _ _ h2] at e
  exact UInt8.toBitVec_inj.1 (BitVec.eq_of_getLsbD_eq e)

/-- **C60**, the permutation: the unrolled rounds are `KECCAK-f[1600]`, with the offsets and constants that the
standard defines by a walk and a shift register. -/
theorem C60_permutation (t : SHA3) : ∃ t', t.transform = some t' ∧
    (fun x y => t'.s[x][y].toBitVec) = keccakF fun x y => t.s[x][y].toBitVec := by
  obtain ⟨t', e, -, -, -, h⟩ := SHA3.transform_eq t
  exact ⟨t', e, h⟩

/-- **C60**, `hash`. For every length parameter below 100, every message, and every buffer that is long enough:
whatever the object was used for before, `init`, one `process` for each byte and `hash` write the digest of `SHA3`
for `8·olen` bits to the front of the buffer and leave the rest as it is. The parameters 28, 32, 48 and 64 are the
four functions of the standard. -/
theorem C60_hash (t0 : SHA3) (olen : Nat) (h : 0 < olen ∧ olen < 100) (m buff : List UInt8) (hm : m.length + 200 < 2 ^ 64)
    (hb : olen ≤ buff.length) :
    ∃ t1 t2 t3 d, t0.init olen = some t1 ∧ m.foldlM SHA3.process t1 = some t2 ∧ t2.hash buff = some (d, t3) ∧
      bits (d.take olen) = sha3 (8 * olen) m ∧ d.drop olen = buff.drop olen ∧ d.length = buff.length := by
  obtain ⟨t1, e1, h1⟩ := SHA3.new_in olen (by omega)
  obtain ⟨t2, e2, h2⟩ := SHA3.all_wp (by omega) m t1 [] h1 (by simp; omega)
  rw [List.nil_append] at h2
  obtain ⟨⟨d, t3⟩, e3, h3, h4, h5⟩ := SHA3.hash_wp h2 (by omega) hm h.1 hb
  refine ⟨t1, t2, t3, d, e1, e2, e3, ?_, h5, h3⟩
  rw [h4, sha3, show 1600 - 2 * (8 * olen) = 8 * (200 - 2 * olen) by omega]

/-- **C60**, `shake`, for every output length other than 0. The parameters 16 and 32 are `SHAKE128` and
`SHAKE256`. -/
theorem C60_shake (t0 : SHA3) (k : Nat) (h : k < 100) (m buff : List UInt8) (olen : Nat) (h0 : 0 < olen) (hm : m.length + 200 < 2 ^ 64)
    (hb : olen ≤ buff.length) :
    ∃ t1 t2 t3 d, t0.init k = some t1 ∧ m.foldlM SHA3.process t1 = some t2 ∧ t2.shake buff olen = some (d, t3) ∧
      bits (d.take olen) = shake (8 * k) m (8 * olen) ∧ d.drop olen = buff.drop olen ∧ d.length = buff.length := by
  obtain ⟨t1, e1, h1⟩ := SHA3.new_in k (by omega)
  obtain ⟨t2, e2, h2⟩ := SHA3.all_wp (by omega) m t1 [] h1 (by simp; omega)
  rw [List.nil_append] at h2
  obtain ⟨⟨d, t3⟩, e3, h3, h4, h5⟩ := SHA3.shake_wp h2 (by omega) hm h0 hb
  refine ⟨t1, t2, t3, d, e1, e2, e3, ?_, h5, h3⟩
  rw [h4, shake, show 1600 - 2 * (8 * k) = 8 * (200 - 2 * k) by omega]

/-- **C60**, `shake` with an output length of 0 writes a byte all the same, or panics on an empty buffer. -/
theorem C60_shake_nothing (t0 : SHA3) (k : Nat) (h : k < 100) (m : List UInt8) (hm : m.length + 200 < 2 ^ 64) (b : UInt8) (buff : List UInt8) :
    ∃ t1 t2 t3 d, t0.init k = some t1 ∧ m.foldlM SHA3.process t1 = some t2 ∧ t2.shake (b :: buff) 0 = some (d :: buff, t3) ∧
      bits [d] = shake (8 * k) m 8 ∧ t2.shake [] 0 = none := by
  obtain ⟨t1, e1, h1⟩ := SHA3.new_in k (by omega)
  obtain ⟨t2, e2, h2⟩ := SHA3.all_wp (by omega) m t1 [] h1 (by simp; omega)
  rw [List.nil_append] at h2
  obtain ⟨t3, e3, r3, -, l3⟩ := SHA3.pad_state h2 (by omega) hm 0x9f 0x1f [true, true, true, true] (by decide) (by decide) (by decide)
  obtain ⟨z1, z2⟩ := SHA3.squeeze_zero t3 b buff
  refine ⟨t1, t2, t3, SHA3.byteOf (SHA3.lanes t3.s) 0, e1, e2, ?_, ?_, ?_⟩
  · rw [SHA3.shake, e3]; exact z2
  · obtain ⟨⟨d, t4⟩, e4, h4, h5, h6⟩ := SHA3.squeeze_wp (olen := 1) (b0 := [b]) (by omega) (by norm_num) (by simp) r3 l3
    have e5 : d = [SHA3.byteOf (SHA3.lanes t3.s) 0] := by
      obtain ⟨g1, g2⟩ := SHA3.squeezeLoop_wp (A := SHA3.lanes t3.s) (b0 := [b]) (R := 200 - 2 * k) (olen := 1) (by omega) (by simp) 1 0 t3 [b] (by omega)
        (by omega) r3 rfl ⟨rfl, fun x => by rw [if_neg (by omega)]⟩
      rw [Nat.zero_mul] at g2
      rw [SHA3.squeeze, g2.1] at e4
      cases e4
      have g3 := g2.2.2 0
      rw [if_pos (by omega), Nat.zero_div, Nat.zero_mod] at g3
      dsimp only at g3 h4
      rcases d with _ | ⟨x, _ | ⟨y, d⟩⟩
      · simp at h4
      · simpa using g3
      · simp at h4
    dsimp only at h5
    rw [e5] at h5
    rw [shake, show 1600 - 2 * (8 * k) = 8 * (200 - 2 * k) by omega]
    exact h5
  · rw [SHA3.shake, e3]; exact z1

/-- **C60**, parameters out of range: above 100 the subtraction overflows, at 100 the first byte divides by 0. -/
theorem C60_range (t0 : SHA3) (olen : Nat) (h : 100 ≤ olen) :
    (100 < olen → t0.init olen = none) ∧ (olen = 100 → ∃ t, t0.init olen = some t ∧ ∀ b, t.process b = none) := by
  constructor
  · intro h
    rw [SHA3.init, if_pos (by omega)]
    rfl
  · rintro rfl
    exact ⟨_, rfl, fun b => rfl⟩

/-- `SHA3-256` of three bytes into a buffer of 34, and `SHAKE128` with an output of two blocks and a byte. -/
example : (∃ t1 t2 t3 d, SHA3.new SHA3.HASH256 = some t1 ∧ [0x61, 0x62, 0x63].foldlM SHA3.process t1 = some t2 ∧
      t2.hash (List.replicate 34 7) = some (d, t3) ∧ bits (d.take 32) = sha3 256 [0x61, 0x62, 0x63] ∧ d.drop 32 = [7, 7]) ∧
    ∃ t1 t2 t3 d, SHA3.new SHA3.SHAKE128 = some t1 ∧ [0x61].foldlM SHA3.process t1 = some t2 ∧
      t2.shake (List.replicate 337 0) 337 = some (d, t3) ∧ bits d = shake 128 [0x61] 2696 := by
  constructor
  · obtain ⟨t1, t2, t3, d, e1, e2, e3, h1, h2, -⟩ := C60_hash _ SHA3.HASH256 (by decide) [0x61, 0x62, 0x63] (List.replicate 34 7) (by decide) (by decide)
    exact ⟨t1, t2, t3, d, e1, e2, e3, h1, h2⟩
  · obtain ⟨t1, t2, t3, d, e1, e2, e3, h1, -, h2⟩ := C60_shake _ SHA3.SHAKE128 (by decide) [0x61] (List.replicate 337 0) 337 (by decide) (by decide) (by rw [List.length_replicate])
    refine ⟨t1, t2, t3, d, e1, e2, e3, ?_⟩
    rwa [List.take_of_length_le (by rw [h2, List.length_replicate])] at h1

/-- The first round constants and offsets of the standard. -/
example : Spec.Keccak.RC 0 = 1 ∧ Spec.Keccak.RC 1 = 0x8082 ∧ offset 1 0 = 1 ∧ offset 0 2 = 3 ∧ offset 4 0 % 64 = 27 := by decide +kernel

end Props
