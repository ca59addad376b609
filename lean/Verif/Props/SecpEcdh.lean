import Verif.Proof.Secp.EcdhShort
/-!
# Properties C72, C73, C74, C75: keys, Diffie-Hellman and ECDSA of `secp256k1/ecdh.rs`

The references are SEC 1, sections 3.2, 3.3.1 and 4.1: `Verif/Spec/Secp/Ecdsa.lean`. `RAND.Gen (sha256 e) i g` says that `g` is
the generator seeded with `e` after `i` bytes; `seeded` shows that every seed gives one. `none` is a panic or a loop without end.
-/

set_option exponentiation.threshold 2000

namespace Props.Secp

open Amcl.Secp Amcl.Secp.ecdh Spec.Secp
open Amcl (Wp RAND)
open Spec (Pt toBE beNat length_toBE beNat_toBE sha256)
open Spec.Rng (numberAt)
open Amcl.ecdh (IsSha)

seal Spec.toBE

theorem num_be {a : Nat} (h : a < 2 ^ 256) : beNat ((toBE 32 a).take 32) = a := by
  rw [List.take_of_length_le (by rw [length_toBE]), beNat_toBE, Nat.mod_eq_of_lt (by omega)]

theorem gx_lt : gx < p := by norm_num [gx, p]

theorem octets_gen : octets (gx : Fp) (gy : Fp) = 4 :: (toBE 32 gx ++ toBE 32 gy) := by
  have h : gy < p := by norm_num [gy, p]
  rw [octets, ZMod.val_natCast, ZMod.val_natCast, Nat.mod_eq_of_lt gx_lt, Nat.mod_eq_of_lt h]

/-- The states of the generator that the theorems speak of: first after seeding, and then after each of the calls. -/
theorem seeded (g : RAND) (e : List UInt8) (h : e ≠ []) (h' : e.length + 9 ≤ 2 ^ 29) : ∃ g', g.seed e = some g' ∧ RAND.Gen (sha256 e) 0 g' :=
  RAND.seed_wp g e h h'

/-! ## C72: key pairs -/

/-- **C72**: without a generator the secret key is the number in `s`, reduced, and is written back; the public key is the string
of `d • gen`. -/
theorem C72_from_secret (s w : List UInt8) (hs : 32 ≤ s.length) (hw : 65 ≤ w.length) :
    ∃ l, KeyString (beNat (s.take 32) % n) l ∧
      key_pair_generate none s w = some (none, 0, toBE 32 (beNat (s.take 32) % n) ++ s.drop 32, l ++ w.drop 65) := by
  obtain ⟨sc, e, h1, h2⟩ := secret_none hs
  obtain ⟨⟨r, a, b, c⟩, e', rfl, rfl, rfl, l, hl, rfl⟩ := key_pair_wp e h1 h2 (Nat.mod_lt _ n_pos) hs hw
  exact ⟨l, hl, e'⟩

/-- **C72**: with a generator it is made of 64 bytes of the generator. -/
theorem C72_random (e : List UInt8) (i : Nat) (g : RAND) (hg : RAND.Gen (sha256 e) i g) (s w : List UInt8) (hs : 32 ≤ s.length)
    (hw : 65 ≤ w.length) : ∃ l g', KeyString (numberAt e i 512 % n) l ∧ RAND.Gen (sha256 e) (i + 64) g' ∧
      key_pair_generate (some g) s w = some (some g', 0, toBE 32 (numberAt e i 512 % n) ++ s.drop 32, l ++ w.drop 65) := by
  obtain ⟨sc, g', e, h1, h2, h3⟩ := secret_some hg s
  obtain ⟨⟨r, a, b, c⟩, e', rfl, rfl, rfl, l, hl, rfl⟩ := key_pair_wp e h1 h2 (Nat.mod_lt _ n_pos) hs hw
  exact ⟨l, g', hl, h3, e'⟩

/-- **C72**: slices that are too short make it panic. -/
theorem C72_short (s w : List UInt8) (h : s.length < 32 ∨ w.length < 65) : key_pair_generate none s w = none ∧
    ∀ (e : List UInt8) (i : Nat) (g : RAND), RAND.Gen (sha256 e) i g → key_pair_generate (some g) s w = none := by
  constructor
  · by_cases hs : s.length < 32
    · obtain ⟨G, e, -⟩ := ECP.generator_wp
      unfold key_pair_generate secret
      rw [e, frombytes_short hs]; rfl
    · obtain ⟨sc, e, h1, h2⟩ := secret_none (Nat.not_lt.1 hs)
      exact key_pair_short e h1 h2 (Nat.mod_lt _ n_pos) h
  · intro e i g hg
    obtain ⟨sc, g', e, h1, h2, -⟩ := secret_some hg s
    exact key_pair_short e h1 h2 (Nat.mod_lt _ n_pos) h

/-- **C72**: `public_key_validate` returns 0 exactly for the strings that begin with a string of a finite point of the curve, in
either form; it panics exactly if the string is too short for its form, and returns `INVALID_PUBLIC_KEY` for the rest. -/
theorem C72_validate (w : List UInt8) :
    (public_key_validate w = none ↔ w.length < 33 ∨ (w.length < 65 ∧ w.head? = some 4 ∧ beNat ((w.drop 1).take 32) < p)) ∧
    (public_key_validate w = some 0 ↔ ∃ Q, Begins w Q) ∧
    (public_key_validate w = none ∨ public_key_validate w = some 0 ∨ public_key_validate w = some (-2)) := by
  rw [← ECP.frombytes_none]
  by_cases h : ECP.frombytes w = none
  · have hv : public_key_validate w = none := by rw [public_key_validate, h]; rfl
    rw [hv]
    refine ⟨by simp [h], ⟨fun h => (by simp at h), ?_⟩, Or.inl rfl⟩
    rintro ⟨Q, hQ⟩
    obtain ⟨P, e, -⟩ := decode_wp hQ
    rw [h] at e
    cases e
  · by_cases hQ : ∃ Q, Begins w Q
    · obtain ⟨Q, hQ⟩ := hQ
      rw [validate_ok hQ]
      exact ⟨by simp [h], ⟨fun _ => ⟨Q, hQ⟩, fun _ => rfl⟩, Or.inr (Or.inl rfl)⟩
    · have hQ' : ∀ Q, ¬ Begins w Q := fun Q h => hQ ⟨Q, h⟩
      rw [validate_bad hQ' h]
      exact ⟨by simp [h], ⟨fun h => absurd h (by decide), fun h => absurd h hQ⟩, Or.inr (Or.inr rfl)⟩

theorem key_begins {d : Nat} {l : List UInt8} (hl : KeyString d l) (hd : d % n ≠ 0) (t : List UInt8) : Begins (l ++ t) (d • gen) := by
  have hne : d • gen ≠ 0 := fun h => hd ((smul_eq_zero gen_ne).1 h)
  obtain ⟨x, y, h, e⟩ := hasX_of_ne hne
  rw [e, hl.2 x y h e]
  exact begins_octets h t

theorem zero_begins {l : List UInt8} (hl : KeyString 0 l) (t : List UInt8) : ECP.frombytes (l ++ t) ≠ none ∧ ∀ Q, ¬ Begins (l ++ t) Q := by
  have e : l = 4 :: (toBE 32 0 ++ toBE 32 1) := hl.1 rfl
  subst e
  have h1 : ECP.frombytes (4 :: (toBE 32 0 ++ toBE 32 1) ++ t) ≠ none := by
    rw [Ne, ECP.frombytes_none]
    simp [length_toBE]
    omega
  refine ⟨h1, ?_⟩
  rintro Q ⟨x, y, h, -, hp | hp⟩
  · have : toBE 32 x.val = toBE 32 0 := by
      rw [octets, List.cons_append, List.cons_prefix_cons] at hp
      have h2 := hp.2
      rw [List.append_assoc] at h2
      have h3 : toBE 32 x.val <+: toBE 32 0 ++ (toBE 32 1 ++ t) := (List.prefix_append _ _).trans h2
      obtain ⟨q, hq⟩ := h3
      exact (List.append_inj hq (by rw [length_toBE, length_toBE])).1
    have h2 := congrArg beNat this
    rw [beNat_toBE, beNat_toBE, Nat.mod_eq_of_lt (by have := val_lt_pow x; omega)] at h2
    exact x_ne h ((ZMod.val_eq_zero x).1 (by simpa using h2))
  · rw [octetsC, List.cons_append, List.cons_prefix_cons] at hp
    have h2 := congrArg UInt8.toNat hp.1
    have h3 : (2 + y.val % 2) % 256 = 4 := by simpa using h2
    omega

/-- **C72**: so a generated public key is valid if and only if the secret number is not 0. The number 0 is not excluded: its
public key is a string that no point has. -/
theorem C72_generated_valid (d : Nat) (l t : List UInt8) (hd : d < n) (hl : KeyString d l) :
    public_key_validate (l ++ t) = some (if d = 0 then -2 else 0) := by
  by_cases h0 : d = 0
  · subst h0
    obtain ⟨h1, h2⟩ := zero_begins hl t
    exact validate_bad h2 h1
  · rw [if_neg h0]
    exact validate_ok (key_begins hl (by rw [Nat.mod_eq_of_lt hd]; exact h0) t)

/-- The keys 1 and 0: the public key 1 is the generator. -/
example : key_pair_generate none (toBE 32 1) (List.replicate 65 0) = some (none, 0, toBE 32 1, 4 :: (toBE 32 gx ++ toBE 32 gy)) ∧
    key_pair_generate none (toBE 32 n) (List.replicate 65 0) = some (none, 0, toBE 32 0, 4 :: (toBE 32 0 ++ toBE 32 1)) := by
  have hn : n < 2 ^ 256 := n_lt
  have h1 : 1 % n = 1 := by norm_num [n]
  constructor
  · obtain ⟨l, hl, e⟩ := C72_from_secret (toBE 32 1) (List.replicate 65 0) (by simp [length_toBE]) (by simp)
    rw [num_be (by norm_num), h1] at e hl
    have hg : l = 4 :: (toBE 32 gx ++ toBE 32 gy) := by
      rw [hl.2 gx gy g_on (one_nsmul gen), octets_gen]
    rw [e, hg]
    simp [length_toBE]
  · obtain ⟨l, hl, e⟩ := C72_from_secret (toBE 32 n) (List.replicate 65 0) (by simp [length_toBE]) (by simp)
    rw [num_be hn, Nat.mod_self] at e hl
    rw [e, hl.1 rfl]
    simp [length_toBE]

/-- A random key pair after seeding with one byte. -/
example : ∃ g g' d l, RAND.new.seed [1] = some g ∧ d < n ∧ KeyString d l ∧
    key_pair_generate (some g) (List.replicate 32 0) (List.replicate 65 0) = some (some g', 0, toBE 32 d, l) := by
  obtain ⟨g, e, hg⟩ := seeded RAND.new [1] (by simp) (by simp)
  obtain ⟨l, g', hl, -, e'⟩ := C72_random [1] 0 g hg (List.replicate 32 0) (List.replicate 65 0) (by simp) (by simp)
  exact ⟨g, g', _, l, e, Nat.mod_lt _ n_pos, hl, by simpa using e'⟩

/-! ## C73: Diffie-Hellman -/

/-- **C73**: for a public key `Q`, in either form, the result is the abscissa of `d • Q`, `d` the number in `s`, which need not be
reduced. The only error is `d ≡ 0`. -/
theorem C73_dh (s wd z : List UInt8) (hs : 32 ≤ s.length) (Q : G1) (hQ : Begins wd Q) :
    (beNat (s.take 32) % n = 0 → ecpsvdp_dh s wd z = some (-3, z)) ∧
    (beNat (s.take 32) % n ≠ 0 → z.length < 32 → ecpsvdp_dh s wd z = none) ∧
    (beNat (s.take 32) % n ≠ 0 → 32 ≤ z.length →
      ∃ x, HasX (beNat (s.take 32) • Q) x ∧ ecpsvdp_dh s wd z = some (0, toBE 32 x.val ++ z.drop 32)) := by
  refine ⟨fun h => dh_zero hs hQ ((smul_eq_zero hQ.ne).2 h), fun h hz => ?_, fun h hz => ?_⟩
  · exact dh_short_z hs hQ (fun e => h ((smul_eq_zero hQ.ne).1 e)) hz
  · obtain ⟨x, hx⟩ := hasX_of_ne fun e => h ((smul_eq_zero hQ.ne).1 e)
    exact ⟨x, hx, dh_wp hs hQ hx hz⟩

/-- **C73**: every other string, in particular a point that is not on the curve, is refused, and `z` is left alone; strings that
are too short make it panic. -/
theorem C73_dh_bad (s wd z : List UInt8) (hQ : ∀ Q, ¬ Begins wd Q) :
    ecpsvdp_dh s wd z = if s.length < 32 ∨ wd.length < 33 ∨ (wd.length < 65 ∧ wd.head? = some 4 ∧ beNat ((wd.drop 1).take 32) < p)
      then none else some (-3, z) := by
  split
  · rename_i h
    rw [← ECP.frombytes_none] at h
    exact dh_short h
  · rename_i h
    rw [← ECP.frombytes_none, not_or] at h
    exact dh_bad (Nat.not_lt.1 h.1) hQ h.2

theorem dh_generated {d e : Nat} {l t s z : List UInt8} (he : e < n) (hl : KeyString e l) (hs : s.take 32 = toBE 32 d) (h32 : 32 ≤ s.length)
    (hd : d < n) (hz : 32 ≤ z.length) :
    ∃ r, ecpsvdp_dh s (l ++ t) z = some r ∧ (d * e % n = 0 → r = (-3, z)) ∧
      ∀ x, HasX ((d * e) • gen) x → r = (0, toBE 32 x.val ++ z.drop 32) := by
  have hn := n_lt
  have hv : beNat (s.take 32) = d := by rw [hs, beNat_toBE, Nat.mod_eq_of_lt (by omega)]
  have hpr : Fact n.Prime := ⟨prime_n⟩
  by_cases h0 : e = 0
  · subst h0
    obtain ⟨h1, h2⟩ := zero_begins hl t
    refine ⟨_, dh_bad h32 h2 h1, fun _ => rfl, fun x hx => ?_⟩
    exact absurd (by simp) hx.ne
  · have hQ := key_begins hl (by rw [Nat.mod_eq_of_lt he]; exact h0) t
    obtain ⟨c1, -, c3⟩ := C73_dh s (l ++ t) z h32 _ hQ
    rw [hv, Nat.mod_eq_of_lt hd] at c1 c3
    by_cases hd0 : d = 0
    · refine ⟨_, c1 hd0, fun _ => rfl, fun x hx => ?_⟩
      subst hd0
      exact absurd (by simp) hx.ne
    · obtain ⟨x, hx, e'⟩ := c3 hd0 hz
      refine ⟨_, e', fun h => ?_, fun x' hx' => ?_⟩
      · exfalso
        rw [← Nat.dvd_iff_mod_eq_zero, prime_n.dvd_mul] at h
        rcases h with h | h
        · exact hd0 (Nat.eq_zero_of_dvd_of_lt h hd)
        · exact h0 (Nat.eq_zero_of_dvd_of_lt h he)
      · rw [← mul_nsmul'] at hx
        rw [hx'.inj (by rwa [mul_comm] at hx ⊢)]

/-- **C73**: two parties with any two secret strings obtain the same result from each other's public keys: the abscissa of
`(d₁·d₂) • gen`, or both the error if one of the numbers is 0. -/
theorem C73_agree (s₁ s₂ w₁ w₂ z : List UInt8) (h₁ : 32 ≤ s₁.length) (h₂ : 32 ≤ s₂.length) (k₁ : 65 ≤ w₁.length) (k₂ : 65 ≤ w₂.length)
    (hz : 32 ≤ z.length) : ∃ t₁ t₂ v₁ v₂ r, key_pair_generate none s₁ w₁ = some (none, 0, t₁, v₁) ∧
      key_pair_generate none s₂ w₂ = some (none, 0, t₂, v₂) ∧ ecpsvdp_dh t₁ v₂ z = some r ∧ ecpsvdp_dh t₂ v₁ z = some r ∧
      (beNat (s₁.take 32) * beNat (s₂.take 32) % n = 0 → r = (-3, z)) ∧
      ∀ x, HasX ((beNat (s₁.take 32) * beNat (s₂.take 32)) • gen) x → r = (0, toBE 32 x.val ++ z.drop 32) := by
  obtain ⟨l₁, g₁, e₁⟩ := C72_from_secret s₁ w₁ h₁ k₁
  obtain ⟨l₂, g₂, e₂⟩ := C72_from_secret s₂ w₂ h₂ k₂
  have m₁ := Nat.mod_lt (beNat (s₁.take 32)) n_pos
  have m₂ := Nat.mod_lt (beNat (s₂.take 32)) n_pos
  obtain ⟨r₁, q₁, a₁, b₁⟩ := dh_generated (d := beNat (s₁.take 32) % n) (t := w₂.drop 65)
    (s := toBE 32 (beNat (s₁.take 32) % n) ++ s₁.drop 32) (z := z) m₂ g₂ (List.take_left' (length_toBE _ _)) (by simp [length_toBE]) m₁ hz
  obtain ⟨r₂, q₂, a₂, b₂⟩ := dh_generated (d := beNat (s₂.take 32) % n) (t := w₁.drop 65)
    (s := toBE 32 (beNat (s₂.take 32) % n) ++ s₂.drop 32) (z := z) m₁ g₁ (List.take_left' (length_toBE _ _)) (by simp [length_toBE]) m₂ hz
  rw [← Nat.mul_mod] at a₁ a₂
  have hs : ∀ a b : Nat, (a % n * (b % n)) • gen = (a * b) • gen := by
    intro a b
    rw [← smul_mod, ← Nat.mul_mod, smul_mod]
  rw [hs] at b₁ b₂
  rw [mul_comm (beNat (s₂.take 32))] at a₂ b₂
  have hr : r₁ = r₂ := by
    by_cases h0 : beNat (s₁.take 32) * beNat (s₂.take 32) % n = 0
    · rw [a₁ h0, a₂ h0]
    · obtain ⟨x, hx⟩ := hasX_of_ne fun e => h0 ((smul_eq_zero gen_ne).1 e)
      rw [b₁ x hx, b₂ x hx]
  subst hr
  exact ⟨_, _, _, _, r₁, e₁, e₂, q₁, q₂, a₁, b₁⟩

/-- The secrets 1 and 1 give the abscissa of the generator; the public key `(0, 1)` is refused. -/
example : ecpsvdp_dh (toBE 32 1) (4 :: (toBE 32 gx ++ toBE 32 gy)) (List.replicate 32 0) = some (0, toBE 32 gx) ∧
    ecpsvdp_dh (toBE 32 1) (4 :: (toBE 32 0 ++ toBE 32 1)) (List.replicate 32 0) = some (-3, List.replicate 32 0) := by
  have h1 : 1 % n = 1 := by norm_num [n]
  have v1 : beNat ((toBE 32 1).take 32) = 1 := num_be (by norm_num)
  constructor
  · have hb := begins_octets g_on []
    rw [List.append_nil, octets_gen] at hb
    have hx : HasX (beNat ((toBE 32 1).take 32) • Pt.mk (gx : Fp) (gy : Fp) g_on) (gx : Fp) := by
      rw [v1, one_nsmul]; exact ⟨_, g_on, rfl⟩
    have := dh_wp (z := List.replicate 32 0) (by simp [length_toBE]) hb hx (by simp)
    rw [this, ZMod.val_natCast, Nat.mod_eq_of_lt gx_lt]
    simp
  · obtain ⟨h2, h3⟩ := zero_begins (l := 4 :: (toBE 32 0 ++ toBE 32 1)) ⟨fun _ => rfl, fun x y h e => by
      rw [zero_nsmul] at e; exact absurd e.symm (Pt.mk_ne h)⟩ []
    rw [List.append_nil] at h2 h3
    exact dh_bad (by simp [length_toBE]) h3 h2

/-! ## C74: signing -/

/-- **C74**: if the first `k` passes have to be repeated and the next gives a signature, then that is the result: the one-time
secret is the number that bytes `i + 128·k` of the generator give, and the mask has no influence. Only the leftmost 256 bits of
the hash value count; with an unknown `sha` the number signed is 0. The secret need not be reduced. -/
theorem C74_sign (sha : Nat) (s f c c' seed : List UInt8) (i : Nat) (g : RAND) (hf : f.length + 17 ≤ 2 ^ 29) (h32 : 32 ≤ s.length)
    (hc : 32 ≤ c.length) (hc' : 32 ≤ c'.length) (hg : RAND.Gen (sha256 seed) i g) (k r t : Nat)
    (h0 : ∀ j < k, Retry (beNat (s.take 32)) (hashNum sha f) seed (i + 128 * j)) (h1 : ¬ Stuck seed (i + 128 * k))
    (h2 : IsSignature (beNat (s.take 32)) (hashNum sha f) (oneTime seed (i + 128 * k)) r t) :
    ∃ g', ecpsp_dsa sha g s f c c' = some (g', 0, toBE 32 r ++ c.drop 32, toBE 32 t ++ c'.drop 32) ∧
      RAND.Gen (sha256 seed) (i + 128 * (k + 1)) g' := by
  obtain ⟨⟨g', q⟩, e, h3, rfl⟩ := sign_good (c := c) (c' := c') hf h32 hc hc' hg k h0 h1 h2
  exact ⟨g', e, h3⟩

/-- **C74**: and there is no other result: whatever signing returns is a signature in the sense of SEC 1 with a one-time secret
from the generator. -/
theorem C74_only (sha : Nat) (s f c c' seed : List UInt8) (i : Nat) (g g' : RAND) (v : Int) (d d' : List UInt8) (hf : f.length + 17 ≤ 2 ^ 29)
    (hg : RAND.Gen (sha256 seed) i g) (h : ecpsp_dsa sha g s f c c' = some (g', v, d, d')) :
    ∃ k r t, IsSignature (beNat (s.take 32)) (hashNum sha f) (oneTime seed (i + 128 * k)) r t ∧ v = 0 ∧
      d = toBE 32 r ++ c.drop 32 ∧ d' = toBE 32 t ++ c'.drop 32 ∧ RAND.Gen (sha256 seed) (i + 128 * (k + 1)) g' := by
  have hl : 32 ≤ s.length ∧ 32 ≤ c.length ∧ 32 ≤ c'.length := by
    by_contra hn
    rw [sign_short hf hg (by omega)] at h
    cases h
  rcases sign_cases (beNat (s.take 32)) (hashNum sha f) seed i with ⟨k, h0, h1, r, t, h2⟩ | hx
  · obtain ⟨g'', e, h3⟩ := C74_sign sha s f c c' seed i g hf hl.1 hl.2.1 hl.2.2 hg k r t h0 h1 h2
    rw [e] at h
    cases h
    exact ⟨k, r, t, h2, rfl, rfl, rfl, h3⟩
  · rw [sign_none hf hl.1 hg hx] at h
    cases h

/-- **C74**: signing does not return if a mask is 0 that is used: the inversion of 0 does not end. Nor does it if a slice is too
short. -/
theorem C74_stuck (sha : Nat) (s f c c' seed : List UInt8) (i : Nat) (g : RAND) (hf : f.length + 17 ≤ 2 ^ 29)
    (hg : RAND.Gen (sha256 seed) i g)
    (h : s.length < 32 ∨ c.length < 32 ∨ c'.length < 32 ∨
      ∃ k, (∀ j < k, Retry (beNat (s.take 32)) (hashNum sha f) seed (i + 128 * j)) ∧ Stuck seed (i + 128 * k)) :
    ecpsp_dsa sha g s f c c' = none := by
  by_cases hs : s.length < 32 ∨ c.length < 32 ∨ c'.length < 32
  · exact sign_short hf hg hs
  · exact sign_none hf (by omega) hg (Or.inl (by tauto))

/-- **C74**: one of three things happens: a signature after some number of passes, a mask 0, or passes without end. -/
theorem C74_cases (d e : Nat) (seed : List UInt8) (i : Nat) :
    (∃ k, (∀ j < k, Retry d e seed (i + 128 * j)) ∧ ¬ Stuck seed (i + 128 * k) ∧ ∃ r s, IsSignature d e (oneTime seed (i + 128 * k)) r s) ∨
    (∃ k, (∀ j < k, Retry d e seed (i + 128 * j)) ∧ Stuck seed (i + 128 * k)) ∨ ∀ j, Retry d e seed (i + 128 * j) := sign_cases d e seed i

theorem gen_hasX : HasX gen (gx : Fp) := ⟨_, g_on, rfl⟩

theorem gx_val : (gx : Fp).val % n = gx := by
  have h1 : gx < p := by norm_num [gx, p]
  have h2 : gx < n := by norm_num [gx, n]
  rw [ZMod.val_natCast, Nat.mod_eq_of_lt h1, Nat.mod_eq_of_lt h2]

/-- With `d = 3`, `e = 5` and the one-time secret 1: `r` is the abscissa of the generator and `s = 5 + 3·r`. -/
example : IsSignature 3 5 1 gx ((5 + gx * 3) % n) := by
  refine ⟨gx, by rw [one_nsmul]; exact gen_hasX, gx_val.symm, by norm_num [gx], Nat.mod_lt _ n_pos, by norm_num [gx, n], ?_⟩
  rw [ZMod.natCast_mod]
  push_cast
  rw [inv_one, one_mul]

/-! ## C75: verification -/

/-- **C75**: for a public key `Q` verification accepts exactly as in SEC 1; numbers outside `1 … n - 1` are refused. -/
theorem C75_verify (sha : Nat) (w f c c' : List UInt8) (hf : f.length + 17 ≤ 2 ^ 29) (hc : 32 ≤ c.length) (hc' : 32 ≤ c'.length)
    (Q : G1) (hQ : Begins w Q) :
    (Accepts Q (hashNum sha f) (beNat (c.take 32)) (beNat (c'.take 32)) → ecpvp_dsa sha w f c c' = some 0) ∧
    (¬ Accepts Q (hashNum sha f) (beNat (c.take 32)) (beNat (c'.take 32)) → ecpvp_dsa sha w f c c' = some (-4)) := by
  obtain ⟨b, e, hb, hb'⟩ := hash_wp sha hf
  rw [← hb']
  by_cases h : 0 < beNat (c.take 32) ∧ beNat (c.take 32) < n ∧ 0 < beNat (c'.take 32) ∧ beNat (c'.take 32) < n
  · obtain ⟨q, e, h1, h2⟩ := verify_main e hb hc hc' h hQ
    rw [e]
    exact ⟨fun h => by rw [h1 h], fun h => by rw [h2 h]; rfl⟩
  · rw [verify_range e hb hc hc' h]
    exact ⟨fun a => absurd ⟨a.1, a.2.1, a.2.2.1, a.2.2.2.1⟩ h, fun _ => rfl⟩

/-- **C75**: with a key that is no point nothing is accepted; with a key that is too short for its form the function panics,
unless the numbers are out of range; and it panics if `c` or `d` are too short. -/
theorem C75_verify_bad (sha : Nat) (w f c c' : List UInt8) (hf : f.length + 17 ≤ 2 ^ 29) (hQ : ∀ Q, ¬ Begins w Q) :
    ecpvp_dsa sha w f c c' = if c.length < 32 ∨ c'.length < 32 then none
      else if ¬ (0 < beNat (c.take 32) ∧ beNat (c.take 32) < n ∧ 0 < beNat (c'.take 32) ∧ beNat (c'.take 32) < n) then some (-4)
      else if w.length < 33 ∨ (w.length < 65 ∧ w.head? = some 4 ∧ beNat ((w.drop 1).take 32) < p) then none else some (-3) := by
  obtain ⟨b, e, hb, -⟩ := hash_wp sha hf
  by_cases hc : c.length < 32 ∨ c'.length < 32
  · rw [if_pos hc, verify_short hc]
  · rw [if_neg hc]
    by_cases h : 0 < beNat (c.take 32) ∧ beNat (c.take 32) < n ∧ 0 < beNat (c'.take 32) ∧ beNat (c'.take 32) < n
    · rw [if_neg (not_not.2 h)]
      split <;> rename_i hw <;> rw [← ECP.frombytes_none] at hw
      · exact verify_panic e hb (by omega) (by omega) h hw
      · exact verify_key e hb (by omega) (by omega) h hQ hw
    · rw [if_pos h]
      exact verify_range e hb (by omega) (by omega) h

/-- **C75**: what signing returns is accepted with the public key of the secret key, if that is not 0 modulo the order. -/
theorem C75_sign_verify (sha : Nat) (s f c c' seed w : List UInt8) (i : Nat) (g g' : RAND) (v : Int) (d d' : List UInt8)
    (hf : f.length + 17 ≤ 2 ^ 29) (hg : RAND.Gen (sha256 seed) i g) (h : ecpsp_dsa sha g s f c c' = some (g', v, d, d'))
    (hw : Begins w (beNat (s.take 32) • gen)) : ecpvp_dsa sha w f d d' = some 0 := by
  obtain ⟨k, r, t, h1, -, rfl, rfl, -⟩ := C74_only sha s f c c' seed i g g' v d d' hf hg h
  have hlt := IsSignature.lt h1
  have hn := n_lt
  refine (C75_verify sha w f _ _ hf (by simp [length_toBE]) (by simp [length_toBE]) _ hw).1 ?_
  rw [List.take_left' (length_toBE _ _), List.take_left' (length_toBE _ _), beNat_toBE, beNat_toBE, Nat.mod_eq_of_lt (by omega),
    Nat.mod_eq_of_lt (by omega)]
  exact signature_accepts h1

/-- **C75**: the same with both calls of the key pair: generate, sign, verify. -/
theorem C75_generate_sign_verify (sha : Nat) (s w s' w' f c c' seed : List UInt8) (i : Nat) (g g' : RAND) (v u : Int) (d d' : List UInt8)
    (hf : f.length + 17 ≤ 2 ^ 29) (hs : 32 ≤ s.length) (h65 : 65 ≤ w.length) (hg : RAND.Gen (sha256 seed) i g)
    (hk : key_pair_generate none s w = some (none, u, s', w')) (h : ecpsp_dsa sha g s' f c c' = some (g', v, d, d')) :
    ecpvp_dsa sha w' f d d' = some (if beNat (s.take 32) % n = 0 then -3 else 0) := by
  obtain ⟨l, hl, e⟩ := C72_from_secret s w hs h65
  rw [hk] at e
  cases e
  have hn := n_lt
  have hm := Nat.mod_lt (beNat (s.take 32)) n_pos
  have hv : beNat ((toBE 32 (beNat (s.take 32) % n) ++ s.drop 32).take 32) = beNat (s.take 32) % n := by
    rw [List.take_left' (length_toBE _ _), beNat_toBE, Nat.mod_eq_of_lt (by omega)]
  by_cases h0 : beNat (s.take 32) % n = 0
  · rw [if_pos h0]
    rw [h0] at hl
    obtain ⟨z1, z2⟩ := zero_begins hl (w.drop 65)
    obtain ⟨k, r, t, h1, -, rfl, rfl, -⟩ := C74_only sha _ f c c' seed i g g' v d d' hf hg h
    have hlt := IsSignature.lt h1
    obtain ⟨x, -, hr, hr0, ht, ht0, -⟩ := h1
    obtain ⟨b, e, hb, -⟩ := hash_wp sha hf
    refine verify_key e hb (by simp [length_toBE]) (by simp [length_toBE]) ?_ z2 z1
    rw [List.take_left' (length_toBE _ _), List.take_left' (length_toBE _ _), beNat_toBE, beNat_toBE, Nat.mod_eq_of_lt (by omega),
      Nat.mod_eq_of_lt (by omega)]
    omega
  · rw [if_neg h0]
    refine C75_sign_verify sha _ f c c' seed _ i g g' v d d' hf hg h ?_
    rw [hv]
    exact key_begins hl (by rw [Nat.mod_mod]; exact h0) _

/-- **C75**: with `(r, s)` also `(r, n - s)` is accepted. -/
theorem C75_malleable (sha : Nat) (w f c c' : List UInt8) (hf : f.length + 17 ≤ 2 ^ 29) (h : ecpvp_dsa sha w f c c' = some 0) :
    ecpvp_dsa sha w f c (toBE 32 (n - beNat (c'.take 32))) = some 0 ∧ n - beNat (c'.take 32) ≠ beNat (c'.take 32) := by
  have hn := n_lt
  by_cases hQ : ∃ Q, Begins w Q
  · obtain ⟨Q, hQ⟩ := hQ
    have hc : ¬ (c.length < 32 ∨ c'.length < 32) := fun hc => by rw [verify_short hc] at h; cases h
    have h1 := C75_verify sha w f c c' hf (by omega) (by omega) Q hQ
    have ha : Accepts Q (hashNum sha f) (beNat (c.take 32)) (beNat (c'.take 32)) := by
      by_contra hn
      rw [h1.2 hn] at h
      exact absurd h (by decide)
    have hodd : n % 2 = 1 := by norm_num [n]
    have hr := ha.2.2.2.1
    have hp := ha.2.2.1
    refine ⟨?_, by omega⟩
    refine (C75_verify sha w f c _ hf (by omega) (by simp [length_toBE]) Q hQ).1 ?_
    rw [num_be (by omega)]
    exact accepts_neg ha
  · have := C75_verify_bad sha w f c c' hf fun Q h => hQ ⟨Q, h⟩
    rw [h] at this
    split_ifs at this <;> exact absurd this (by decide)

/-- **C75**: with an unknown `sha` the message has no influence, neither on the signature nor on verification. -/
theorem C75_unknown_hash (sha : Nat) (hs : ¬ IsSha sha) (f f' : List UInt8) :
    (∀ w c c', ecpvp_dsa sha w f c c' = ecpvp_dsa sha w f' c c') ∧ ∀ g s c c', ecpsp_dsa sha g s f c c' = ecpsp_dsa sha g s f' c c' := by
  constructor
  · intros; unfold ecpvp_dsa; rw [hash_unknown hs, hash_unknown hs]
  · intros; unfold ecpsp_dsa; rw [hash_unknown hs, hash_unknown hs]

/-- **C75**: and then anyone can make a signature for every message from the public key alone: `r` and `s` are its abscissa. -/
theorem C75_unknown_forgery (sha : Nat) (hs : ¬ IsSha sha) (f w : List UInt8) (x y : Fp) (h : y ^ 2 = x ^ 3 + b1) (hx : x.val % n ≠ 0)
    (hw : Begins w (Pt.mk x y h)) (hf : f.length + 17 ≤ 2 ^ 29) :
    ecpvp_dsa sha w f (toBE 32 (x.val % n)) (toBE 32 (x.val % n)) = some 0 := by
  have hn := n_lt
  have hm := Nat.mod_lt x.val n_pos
  refine (C75_verify sha w f _ _ hf (by simp [length_toBE]) (by simp [length_toBE]) _ hw).1 ?_
  rw [num_be (by omega), hashNum_unknown hs]
  have hpr : Fact n.Prime := ⟨prime_n⟩
  have hz : ((x.val % n : Nat) : ZMod n) ≠ 0 := by rw [zmod_ne, Nat.mod_mod]; exact hx
  refine ⟨by omega, hm, by omega, hm, x, ?_, rfl⟩
  rw [mul_inv_cancel₀ hz, Nat.cast_zero, zero_mul, ZMod.val_zero, zero_nsmul, zero_add, ZMod.val_one, one_nsmul]
  exact ⟨y, h, rfl⟩

/-- With the generator as public key and the message "a", under the hash name 20. -/
example : ecpvp_dsa 20 (octets gx gy) [97] (toBE 32 gx) (toBE 32 gx) = some 0 ∧
    ecpvp_dsa 20 (octets gx gy) [98] (toBE 32 gx) (toBE 32 (n - gx)) = some 0 := by
  have hb := begins_octets g_on []
  rw [List.append_nil] at hb
  have h1 := C75_unknown_forgery 20 (by unfold IsSha; decide) [97] (octets gx gy) gx gy g_on (by rw [gx_val]; norm_num [gx]) hb (by simp)
  have h2 := C75_unknown_forgery 20 (by unfold IsSha; decide) [98] (octets gx gy) gx gy g_on (by rw [gx_val]; norm_num [gx]) hb (by simp)
  rw [gx_val] at h1 h2
  have h3 := (C75_malleable 20 _ _ _ _ (by simp) h2).1
  rw [num_be (by norm_num [gx])] at h3
  exact ⟨h1, h3⟩

end Props.Secp
