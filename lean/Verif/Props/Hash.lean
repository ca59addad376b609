import Verif.Proof.Hash
import Verif.Props.Codec2
/-!
# Properties C04, C27, C28: message points and signatures
-/

set_option exponentiation.threshold 2000

namespace Props

open Amcl Spec

seal Spec.toBE Spec.signBit Spec.enc1

/-! ### A concrete run of the map: 0 and 1 are not usable, 2 is -/

theorem nonsquare_of_pow {a : Nat} (h0 : a % p ≠ 0) (h : Primes.powMod p a 400 (p / 2) ≠ 1) : ¬ IsSquare (a : Fp) := by
  have ha : (a : Fp) ≠ 0 := by
    rw [Ne, ZMod.natCast_eq_zero_iff]
    exact fun h => h0 (Nat.mod_eq_zero_of_dvd h)
  rw [ZMod.euler_criterion p ha]
  intro h1
  apply h
  have h3 : ((a ^ (p / 2) : Nat) : Fp) = ((1 : Nat) : Fp) := by
    rw [Nat.cast_pow, h1, Nat.cast_one]
  rw [ZMod.natCast_eq_natCast_iff, Nat.ModEq, ← Primes.powMod_eq p a 400 _ (by norm_num [p])] at h3
  rw [h3]
  norm_num [p]

theorem not_usable_of_norm {x : Fp2} (h : ¬ IsSquare ((x ^ 3 + b2).re ^ 2 + (x ^ 3 + b2).im ^ 2)) : ¬ Usable x := by
  rintro ⟨y, hy, -⟩
  apply h
  rw [← hy, pow_two y, QuadraticAlgebra.re_mul, QuadraticAlgebra.im_mul]
  exact ⟨y.re ^ 2 + y.im ^ 2, by ring⟩

theorem zero_not_usable : ¬ Usable (⟨0, 0⟩ : Fp2) := by
  apply not_usable_of_norm
  rw [(cube_add_b2 _).1, (cube_add_b2 _).2]
  have := nonsquare_of_pow (a := 32) (by norm_num [p]) (by decide +kernel)
  convert this using 1
  norm_num

theorem one_not_usable : ¬ Usable (⟨1, 0⟩ : Fp2) := by
  apply not_usable_of_norm
  rw [(cube_add_b2 _).1, (cube_add_b2 _).2]
  have := nonsquare_of_pow (a := 41) (by norm_num [p]) (by decide +kernel)
  convert this using 1
  norm_num

theorem two_usable : Usable (⟨((2 : Nat) : Fp), ((0 : Nat) : Fp)⟩ : Fp2) := by
  refine ⟨_, two_on, ?_⟩
  show (two_ya : Fp) ≠ 0
  rw [Ne, ZMod.natCast_eq_zero_iff]
  norm_num [two_ya, p]

theorem two_larger : Larger (⟨(two_ya : Fp), (two_yb : Fp)⟩ : Fp2) := by
  have e : (two_yb : Fp).val = two_yb := by
    rw [ZMod.val_natCast, Nat.mod_eq_of_lt (by norm_num [two_yb, p])]
  have h0 : (two_yb : Fp) ≠ 0 := by
    rw [Ne, ZMod.natCast_eq_zero_iff]
    norm_num [two_yb, p]
  obtain ⟨h, -⟩ := val_neg_add h0
  refine .inl ⟨h0, ?_⟩
  show (-(two_yb : Fp)).val < (two_yb : Fp).val
  have : 2 * two_yb > p := by norm_num [two_yb, p]
  omega

/-- The point over the abscissa 2 is the image of 0. -/
theorem zero_mapsTo : MapsTo (⟨0, 0⟩ : Fp2) (h2 • Pt.mk _ _ two_on) := by
  have e : (⟨0, 0⟩ : Fp2) + ((2 : Nat) : Fp2) = ⟨((2 : Nat) : Fp), ((0 : Nat) : Fp)⟩ := by
    ext
    · rw [QuadraticAlgebra.re_add, QuadraticAlgebra.re_natCast]; simp
    · rw [QuadraticAlgebra.im_add, QuadraticAlgebra.im_natCast]; simp
  refine ⟨2, _, by rw [e]; exact two_on, ?_, by rw [e]; exact two_usable, two_larger, ?_⟩
  · intro j hj
    have h01 : j = 0 ∨ j = 1 := by omega
    rcases h01 with rfl | rfl
    · rw [Nat.cast_zero, add_zero]
      exact zero_not_usable
    · have : (⟨0, 0⟩ : Fp2) + ((1 : Nat) : Fp2) = ⟨1, 0⟩ := by
        ext
        · rw [QuadraticAlgebra.re_add, QuadraticAlgebra.re_natCast]; simp
        · rw [QuadraticAlgebra.im_add, QuadraticAlgebra.im_natCast]; simp
      rw [this]
      exact one_not_usable
  · congr 1

/-! ### C04 -/

/-- **C04**, pre-hashed form: for two byte strings of 48 bytes (further bytes are ignored) the signature
stands for `n • g`, `g` the image of the two numbers under the map to the second group, `n` the integer
of the secret key; nothing panics, overflows or runs forever. -/
theorem C04_sign_hashed (re im : List UInt8) (hr : 48 ≤ re.length) (hi : 48 ≤ im.length) (sk : SecretKey)
    (n : Nat) (hn : sk.Rep n) :
    ∃ g sg, MapsTo ⟨(beNat (re.take 48) : Fp), (beNat (im.take 48) : Fp)⟩ g ∧
      Signature.new_hashed re im sk = some sg ∧ sg.Rep (n • g) := by
  obtain ⟨P, e, g, hg, hP⟩ := map_to_g2_total hr hi
  obtain ⟨sg, es, hs, -⟩ := Signature.sign_wp (hP.mono (by norm_num)) hn
  exact ⟨g, sg, hg, by rw [Signature.new_hashed, e]; exact es, hs⟩

/-- The all-zero hash signed with the key 5: five times the cofactor multiple of the point over 2. -/
example : ∃ sk sg, SecretKey.Rep sk 5 ∧
    Signature.new_hashed (List.replicate 48 0) (List.replicate 48 0) sk = some sg ∧
    sg.Rep (5 • (h2 • Pt.mk _ _ two_on : G2)) := by
  obtain ⟨sk, hk⟩ := SecretKey.exists_rep (n := 5) (by norm_num)
  obtain ⟨g, sg, hg, e, hs⟩ := C04_sign_hashed (List.replicate 48 0) (List.replicate 48 0) (by simp) (by simp) sk 5 hk
  have e0 : beNat ((List.replicate 48 (0 : UInt8)).take 48) = 0 := by decide
  rw [e0, Nat.cast_zero] at hg
  rw [hg.unique zero_mapsTo] at hs
  exact ⟨sk, sg, hk, e, hs⟩

/-- **C04.** For every hash function with 32-byte values, every message and every domain, the signature
stands for `n • g`, `g` the image of the two message hashes. -/
theorem C04_sign (H : Keccak) (msg : List UInt8) (d : UInt64) (sk : SecretKey) (n : Nat) (hn : sk.Rep n) :
    ∃ g sg, MapsTo (hashX (fun m => (H m).toList) msg d.toNat) g ∧
      Signature.new H msg d sk = some sg ∧ sg.Rep (n • g) := by
  obtain ⟨P, e, g, hg, hP⟩ := hash_on_g2_wp H msg d
  obtain ⟨sg, es, hs, -⟩ := Signature.sign_wp (hP.mono (by norm_num)) hn
  exact ⟨g, sg, hg, by rw [Signature.new, e]; exact es, hs⟩

/-- With a hash that is constantly 0, every message is signed on the point over 2. -/
example (msg : List UInt8) (d : UInt64) : ∃ sk sg, SecretKey.Rep sk 7 ∧
    Signature.new (fun _ => Vector.replicate 32 0) msg d sk = some sg ∧
    sg.Rep (7 • (h2 • Pt.mk _ _ two_on : G2)) := by
  obtain ⟨sk, hk⟩ := SecretKey.exists_rep (n := 7) (by norm_num)
  obtain ⟨g, sg, hg, e, hs⟩ := C04_sign (fun _ => Vector.replicate 32 0) msg d sk 7 hk
  have e0 : beNat (Vector.replicate 32 (0 : UInt8)).toList = 0 := by decide
  rw [hashX, e0, Nat.cast_zero] at hg
  rw [hg.unique zero_mapsTo] at hs
  exact ⟨sk, sg, hk, e, hs⟩

/-- **C04**, the short input: fewer than 48 bytes make the pre-hashed form panic. -/
theorem C04_short_panics (re im : List UInt8) (h : re.length < 48 ∨ im.length < 48) (sk : SecretKey) :
    Signature.new_hashed re im sk = none := by
  rw [Signature.new_hashed, utils.map_to_g2]
  by_cases hr : re.length < 48
  · rw [BIG.frombytes, if_pos hr]
    rfl
  · have hi := h.resolve_left hr
    obtain ⟨a, ea, -⟩ := BIG.frombytes_wp (b := re) (by omega)
    rw [ea]
    rw [BIG.frombytes, if_pos hi]
    rfl

/-! ### C27 -/

/-- **C27.** The image of two byte strings is the cofactor multiple of the point over the first usable
abscissa with the larger ordinate: of `y` and `-y`, when the imaginary part is not 0, the one whose
imaginary part is the larger number below `p`. This determines the image, whatever square root the field
code finds. -/
theorem C27_chosen_ordinate (re im : List UInt8) (hr : 48 ≤ re.length) (hi : 48 ≤ im.length) :
    ∃ P g, utils.map_to_g2 re im = some P ∧ P.Rep g ∧
      ∃ (k : Nat) (y : Fp2) (h : y ^ 2 = (⟨(beNat (re.take 48) : Fp), (beNat (im.take 48) : Fp)⟩ + (k : Fp2)) ^ 3 + b2),
        (∀ j < k, ¬ Usable (⟨(beNat (re.take 48) : Fp), (beNat (im.take 48) : Fp)⟩ + (j : Fp2))) ∧
        g = h2 • Pt.mk _ y h ∧
        (y.im ≠ 0 → ∀ y', y' ^ 2 = y ^ 2 → y' = y ∨ y'.im.val < y.im.val) ∧
        (y.im = 0 → ¬ IsSquare y.re) := by
  obtain ⟨P, e, g, ⟨k, y, h, hn, hu, hL, hg⟩, hP⟩ := map_to_g2_total hr hi
  refine ⟨P, g, e, hP.mono (by norm_num), k, y, h, hn, hg, ?_, ?_⟩
  · intro h0 y' hy'
    have : (y' - y) * (y' + y) = 0 := by linear_combination hy'
    rcases mul_eq_zero.1 this with h | h
    · exact .inl (by linear_combination h)
    · right
      rw [show y' = -y by linear_combination h, QuadraticAlgebra.im_neg]
      rcases hL with ⟨-, h2⟩ | ⟨h1, -⟩
      · exact h2
      · exact absurd h1 h0
  · intro h0
    rcases hL with ⟨h1, -⟩ | ⟨-, h2⟩
    · exact absurd h0 h1
    · exact h2

/-- For the all-zero strings the abscissa is 2 and the ordinate the published one with the larger
imaginary part. -/
example : ∃ P, utils.map_to_g2 (List.replicate 48 0) (List.replicate 48 0) = some P ∧
    P.Rep (h2 • Pt.mk _ _ two_on : G2) := by
  obtain ⟨P, e, g, hg, hP⟩ := map_to_g2_total (re := List.replicate 48 0) (im := List.replicate 48 0) (by simp) (by simp)
  have e0 : beNat ((List.replicate 48 (0 : UInt8)).take 48) = 0 := by decide
  rw [e0, Nat.cast_zero] at hg
  rw [hg.unique zero_mapsTo] at hP
  exact ⟨P, e, hP.mono (by norm_num)⟩

/-! ### C28 -/

/-- **C28.** The strings fed to the hash determine the message, the domain and the part. -/
theorem C28_domain_separation (msg msg' : List UInt8) (d d' : UInt64) (k k' : UInt8) :
    msg ++ utils.be64 d ++ [k] = msg' ++ utils.be64 d' ++ [k'] ↔ msg = msg' ∧ d = d' ∧ k = k' := by
  constructor
  · intro h
    obtain ⟨h1, h2⟩ := List.append_inj' h rfl
    obtain ⟨h3, h4⟩ := List.append_inj' h1 (by rw [be64_eq, be64_eq, length_toBE, length_toBE])
    rw [be64_eq, be64_eq] at h4
    have h5 := congrArg beNat h4
    rw [beNat_toBE, beNat_toBE, show 256 ^ 8 = 2 ^ 64 by norm_num, Nat.mod_eq_of_lt d.toNat_lt, Nat.mod_eq_of_lt d'.toNat_lt] at h5
    exact ⟨h3, UInt64.toNat_inj.1 h5, by simpa using h2⟩
  · rintro ⟨rfl, rfl, rfl⟩
    rfl

/-- **C28**, on the library: the two calls of the hash are on exactly these strings, so that replacing the
hash function on other strings changes nothing. -/
theorem C28_only_these_inputs (H H' : Keccak) (msg : List UInt8) (d : UInt64)
    (h : ∀ k : UInt8, k = 1 ∨ k = 2 → H (hashInput msg d.toNat k) = H' (hashInput msg d.toNat k)) :
    utils.hash_on_g2 H msg d = utils.hash_on_g2 H' msg d := by
  have h1 := h 1 (.inl rfl)
  have h2 := h 2 (.inr rfl)
  rw [hashInput, ← be64_eq] at h1 h2
  rw [utils.hash_on_g2, utils.hash_on_g2, h1, h2]

/-- A byte moved from the message into the domain gives a different string, as does the other part. -/
example : ([1, 2] : List UInt8) ++ utils.be64 3 ++ [1] ≠ [1] ++ utils.be64 (2 + 256 * 3) ++ [1] ∧
    ([] : List UInt8) ++ utils.be64 1 ++ [1] ≠ [] ++ utils.be64 1 ++ [2] := by
  constructor
  · rw [Ne, C28_domain_separation]; decide
  · rw [Ne, C28_domain_separation]; decide

/-- Two different hash functions that agree on the two strings of a message. -/
example : ∃ H H' : Keccak, H ≠ H' ∧
    ∀ k : UInt8, k = 1 ∨ k = 2 → H (hashInput [] 0 k) = H' (hashInput [] 0 k) := by
  refine ⟨fun _ => Vector.replicate 32 0, fun m => if m = [] then Vector.replicate 32 1 else Vector.replicate 32 0, ?_, ?_⟩
  · intro h
    have := congrFun h []
    simp at this
  · intro k _
    simp [hashInput]

end Props
