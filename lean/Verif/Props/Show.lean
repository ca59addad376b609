import Verif.Proof.Show
import Verif.Proof.Aggregate
import Verif.Props.Keys
import Verif.Proof.Fp12
/-!
# Property C77: what `{:?}` prints

A secret key prints as its own 48 bytes in hexadecimal, also inside a `Keypair`. A point prints as its affine
coordinates. Equal strings come from equal values.
-/

set_option exponentiation.threshold 2000

namespace Props

open Amcl Spec

seal Spec.toBE Spec.signBit Spec.enc1

/-- **C77**, numbers. `BIG::tostring` of a normalised number writes it in upper-case hexadecimal, on 96 digits
or on as many as it needs when it has more than 384 bits. -/
theorem C77_big (a : BIG) (v : Nat) (ha : a.Nrm) (hv : a.val = v) (h : v < 2 ^ 406) :
    a.tostring = some (toHex (max 96 ((Nat.size v + 3) / 4)) v) :=
  BIG.tostring_eq ha hv h

/-- 431 is 92 zeros and `01AF`. -/
example : (BIG.new_int 431).tostring = some (List.replicate 92 '0' ++ ['0', '1', 'A', 'F']) := by
  rw [C77_big (BIG.new_int 431) 431 (BIG.new_int_nrm (by norm_num) (by norm_num)) (BIG.new_int_val _) (by norm_num),
    show max 96 ((Nat.size 431 + 3) / 4) = 96 by decide +kernel]
  decide +kernel

/-- **C77**, secret keys. `{:?}` of the key read from 48 bytes is those bytes in hexadecimal. -/
theorem C77_secret_bytes (b : List UInt8) (hb : b.length = 48) :
    ∃ sk, SecretKey.from_bytes b = some (.ok sk) ∧ sk.debug = some (hexOf b) := by
  obtain ⟨sk, h1, h2, -⟩ := (C01_secret_key_round_trip b).2 hb
  refine ⟨sk, h1, ?_⟩
  rw [SecretKey.debug, BIG.tostring_384 h2.nrm h2.val h2.lt, ← toBE_of_bytes hb]

/-- **C77**, secret keys however produced; two keys print alike exactly when they hold the same integer. -/
theorem C77_secret (sk sk' : SecretKey) (n m : Nat) (h : sk.Rep n) (h' : sk'.Rep m) :
    sk.debug = some (hexOf (toBE 48 n)) ∧ (sk.debug = sk'.debug ↔ n = m) := by
  have e := BIG.tostring_384 h.nrm h.val h.lt
  have e' := BIG.tostring_384 h'.nrm h'.val h'.lt
  refine ⟨e, ?_⟩
  rw [SecretKey.debug, SecretKey.debug, e, e']
  constructor
  · intro hh
    have := congrArg beNat (hexOf_inj (Option.some.inj hh))
    have hl := h.lt
    have hl' := h'.lt
    rwa [beNat_toBE, beNat_toBE, Nat.mod_eq_of_lt (by omega), Nat.mod_eq_of_lt (by omega)] at this
  · rintro rfl; rfl

/-- Two keys that differ modulo nothing but the order of the group print differently. -/
example : ∃ sk sk' : SecretKey, sk.Rep 1 ∧ sk'.Rep (r + 1) ∧ sk.debug ≠ sk'.debug := by
  obtain ⟨sk, h⟩ := SecretKey.exists_rep (n := 1) (by norm_num)
  obtain ⟨sk', h'⟩ := SecretKey.exists_rep (n := r + 1) (by norm_num [r])
  exact ⟨sk, sk', h, h', fun e => absurd ((C77_secret sk sk' _ _ h h').2.1 e) (by norm_num [r])⟩

/-- **C77**, public keys. The point at infinity prints as `infinity`; another point as its coordinates, a zero
abscissa possibly as `p`. -/
theorem C77_public_key (pk : PublicKey) (g : G1) (h : pk.Rep g) :
    (g = 0 → pk.debug = some "PublicKey { point: infinity }".toList) ∧
    ∀ x y hh, g = Pt.mk x y hh → ∃ s, Shown s x ∧
      pk.debug = some ("PublicKey { point: (".toList ++ s ++ ",".toList ++ hexOf (toBE 48 y.val) ++ ") }".toList) := by
  refine ⟨?_, ?_⟩
  · rintro rfl
    rw [PublicKey.debug, ECP.tostring_inf h (by norm_num)]
    rfl
  · rintro x y hh rfl
    refine ⟨hexOf (toBE 48 (pk.point.xOut x)), ?_, ?_⟩
    · rw [ECP.xOut]
      split
      · rename_i hc; exact .inr ⟨hc.1, rfl⟩
      · exact .inl rfl
    · rw [PublicKey.debug, ECP.tostring_wp h (by norm_num)]
      simp

/-- **C77**, key pairs. Everything about a key pair, the secret integer included, is printed. -/
theorem C77_keypair (k : Keypair) (n : Nat) (hs : k.sk.Rep n) (hp : k.pk.Rep (n • gen1)) :
    (n % r = 0 → k.debug = some ("Keypair { sk: ".toList ++ hexOf (toBE 48 n) ++
      ", pk: PublicKey { point: infinity } }".toList)) ∧
    ∀ x y hh, n • gen1 = Pt.mk x y hh →
      k.debug = some ("Keypair { sk: ".toList ++ hexOf (toBE 48 n) ++ ", pk: PublicKey { point: (".toList ++
        hexOf (toBE 48 x.val) ++ ",".toList ++ hexOf (toBE 48 y.val) ++ ") } }".toList) := by
  have e := (C77_secret k.sk k.sk n n hs hs).1
  refine ⟨?_, ?_⟩
  · intro h0
    have h0 : n • gen1 = 0 := by
      have := (smul_gen1_iff (n := n) (m := 0)).2 (by simpa using h0)
      rwa [zero_nsmul] at this
    rw [Keypair.debug, e, (C77_public_key k.pk _ hp).1 h0]
    simp
  · intro x y hh hg
    have hx : x ≠ 0 := by
      apply Pt.x_ne_of_order (b := b1) (y := y) (h := hh)
      rw [← hg, smul_comm, r_gen1, smul_zero]
    obtain ⟨s, hs, e'⟩ := (C77_public_key k.pk _ hp).2 x y hh hg
    rcases hs with hs | hs
    · rw [Keypair.debug, e, e', hs]
      simp
    · exact absurd hs.1 hx

/-- The pair of the integer 1: the key and the generator. -/
example : ∃ k : Keypair, k.debug = some ("Keypair { sk: ".toList ++ List.replicate 95 '0' ++
    "1, pk: PublicKey { point: (".toList ++ hexOf (toBE 48 g1x) ++ ",".toList ++ hexOf (toBE 48 g1y) ++
      ") } }".toList) := by
  obtain ⟨sk, h⟩ := SecretKey.exists_rep (n := 1) (by norm_num)
  obtain ⟨pk, h'⟩ := PublicKey.exists_rep (1 • gen1)
  refine ⟨⟨sk, pk⟩, ?_⟩
  rw [(C77_keypair ⟨sk, pk⟩ 1 h h').2 _ _ g1_on (one_nsmul _), ZMod.val_natCast, ZMod.val_natCast,
    Nat.mod_eq_of_lt (by norm_num [g1x, p]), Nat.mod_eq_of_lt (by norm_num [g1y, p])]
  have : hexOf (toBE 48 1) = List.replicate 95 '0' ++ ['1'] := by decide +kernel
  rw [this]
  simp

/-- **C77**, signatures. -/
theorem C77_signature (sg : Signature) (g : G2) (h : sg.Rep g) :
    (g = 0 → sg.debug = some "Signature { point: infinity }".toList) ∧
    ∀ x y hh, g = Pt.mk x y hh → ∃ a b c d, Shown a x.re ∧ Shown b x.im ∧ Shown c y.re ∧ Shown d y.im ∧
      sg.debug = some ("Signature { point: ([".toList ++ a ++ ",".toList ++ b ++ "],[".toList ++ c ++
        ",".toList ++ d ++ "]) }".toList) := by
  refine ⟨?_, ?_⟩
  · rintro rfl
    rw [Signature.debug, ECP2.tostring_inf h (by norm_num)]
    rfl
  · rintro x y hh rfl
    obtain ⟨a, b, c, d, e, h1, h2, h3, h4⟩ := ECP2.tostring_wp h (by norm_num)
    refine ⟨a, b, c, d, h1, h2, h3, h4, ?_⟩
    rw [Signature.debug, e]
    simp

/-- **C77**, aggregate keys. -/
theorem C77_aggregate_key (a : AggregatePublicKey) (g : G1) (h : a.Rep g) :
    (g = 0 → a.debug = some "AggregatePublicKey { point: infinity }".toList) ∧
    ∀ x y hh, g = Pt.mk x y hh → ∃ s, Shown s x ∧ a.debug =
      some ("AggregatePublicKey { point: (".toList ++ s ++ ",".toList ++ hexOf (toBE 48 y.val) ++ ") }".toList) := by
  refine ⟨?_, ?_⟩
  · rintro rfl
    rw [AggregatePublicKey.debug, ECP.tostring_inf h (by norm_num)]
    rfl
  · rintro x y hh rfl
    refine ⟨hexOf (toBE 48 (a.point.xOut x)), ?_, ?_⟩
    · rw [ECP.xOut]
      split
      · rename_i hc; exact .inr ⟨hc.1, rfl⟩
      · exact .inl rfl
    · rw [AggregatePublicKey.debug, ECP.tostring_wp h (by norm_num)]
      simp

/-- **C77**, aggregate signatures. -/
theorem C77_aggregate_signature (sg : AggregateSignature) (g : G2) (h : sg.Rep g) :
    (g = 0 → sg.debug = some "AggregateSignature { point: infinity }".toList) ∧
    ∀ x y hh, g = Pt.mk x y hh → ∃ a b c d, Shown a x.re ∧ Shown b x.im ∧ Shown c y.re ∧ Shown d y.im ∧
      sg.debug = some ("AggregateSignature { point: ([".toList ++ a ++ ",".toList ++ b ++ "],[".toList ++ c ++
        ",".toList ++ d ++ "]) }".toList) := by
  refine ⟨?_, ?_⟩
  · rintro rfl
    rw [AggregateSignature.debug, ECP2.tostring_inf h (by norm_num)]
    rfl
  · rintro x y hh rfl
    obtain ⟨a, b, c, d, e, h1, h2, h3, h4⟩ := ECP2.tostring_wp h (by norm_num)
    refine ⟨a, b, c, d, h1, h2, h3, h4, ?_⟩
    rw [AggregateSignature.debug, e]
    simp

/-- New aggregates hold the point at infinity. -/
example : ∃ a, AggregatePublicKey.new = some a ∧
    a.debug = some "AggregatePublicKey { point: infinity }".toList := by
  obtain ⟨a, e, h⟩ := AggregatePublicKey.new_wp
  exact ⟨a, e, (C77_aggregate_key a 0 h).1 rfl⟩

/-- The generator of the second group as a signature: its four published coordinates. -/
example : ∃ sg : Signature, sg.debug = some ("Signature { point: ([".toList ++ hexOf (toBE 48 g2xa) ++ ",".toList ++
    hexOf (toBE 48 g2xb) ++ "],[".toList ++ hexOf (toBE 48 g2ya) ++ ",".toList ++ hexOf (toBE 48 g2yb) ++
      "]) }".toList) := by
  have hv : ∀ (n : Nat) (s : List Char), n < p → n ≠ 0 → Shown s (n : Fp) → s = hexOf (toBE 48 n) := by
    intro n s hn h0 hs
    have e : ((n : Fp)).val = n := by rw [ZMod.val_natCast, Nat.mod_eq_of_lt hn]
    rcases hs with hs | ⟨hz, -⟩
    · rw [hs, e]
    · rw [hz, ZMod.val_zero] at e
      exact absurd e.symm h0
  obtain ⟨sg, h⟩ := Signature.exists_rep (Pt.mk _ _ g2_on)
  obtain ⟨a, b, c, d, h1, h2, h3, h4, e⟩ := (C77_signature sg _ h).2 _ _ g2_on rfl
  refine ⟨sg, ?_⟩
  rw [e, hv _ a (by norm_num [g2xa, p]) (by norm_num [g2xa]) h1, hv _ b (by norm_num [g2xb, p]) (by norm_num [g2xb]) h2,
    hv _ c (by norm_num [g2ya, p]) (by norm_num [g2ya]) h3, hv _ d (by norm_num [g2yb, p]) (by norm_num [g2yb]) h4]

/-- The printed text of a coordinate determines it. -/
theorem Shown_inj {s : List Char} {v w : Fp} (h : Shown s v) (h' : Shown s w) : v = w := by
  have key : ∀ {v : Fp}, Shown s v → ∃ n : Nat, n ≤ p ∧ s = hexOf (toBE 48 n) ∧ (n : Fp) = v := by
    intro v h
    rcases h with h | ⟨h0, h⟩
    · exact ⟨v.val, (ZMod.val_lt v).le, h, ZMod.natCast_zmod_val v⟩
    · exact ⟨p, le_rfl, h, by rw [h0]; exact ZMod.natCast_self p⟩
  obtain ⟨n, hn, e, rfl⟩ := key h
  obtain ⟨m, hm, e', rfl⟩ := key h'
  have := congrArg beNat (hexOf_inj (e.symm.trans e'))
  have hp := p_le_pow
  rw [beNat_toBE, beNat_toBE, Nat.mod_eq_of_lt (by omega), Nat.mod_eq_of_lt (by omega)] at this
  rw [this]

theorem Shown_length {s : List Char} {v : Fp} (h : Shown s v) : s.length = 96 := by
  rcases h with h | ⟨-, h⟩ <;> rw [h, length_hexOf, length_toBE]

/-- **C77**, keys that print alike are equal. -/
theorem C77_public_key_inj (pk pk' : PublicKey) (g g' : G1) (h : pk.Rep g) (h' : pk'.Rep g')
    (e : pk.debug = pk'.debug) : g = g' := by
  rcases Pt.cases g with h0 | ⟨x, y, hh, h0⟩ <;> rcases Pt.cases g' with h1 | ⟨x', y', hh', h1⟩
  · rw [h0, h1]
  · obtain ⟨s, -, e'⟩ := (C77_public_key pk' g' h').2 _ _ _ h1
    rw [(C77_public_key pk g h).1 h0, e'] at e
    simp at e
  · obtain ⟨s, -, e'⟩ := (C77_public_key pk g h).2 _ _ _ h0
    rw [(C77_public_key pk' g' h').1 h1, e'] at e
    simp at e
  · obtain ⟨s, hs, e1⟩ := (C77_public_key pk g h).2 _ _ _ h0
    obtain ⟨s', hs', e2⟩ := (C77_public_key pk' g' h').2 _ _ _ h1
    rw [e1, e2] at e
    simp only [List.append_assoc, Option.some.injEq, List.append_cancel_left_eq] at e
    obtain ⟨rfl, e⟩ := List.append_inj e ((Shown_length hs).trans (Shown_length hs').symm)
    simp only [List.append_cancel_left_eq, List.append_cancel_right_eq] at e
    have ey := Shown_inj (.inl rfl) (show Shown (hexOf (toBE 48 y.val)) y' from .inl e)
    rw [h0, h1, Pt.mk_inj]
    exact ⟨Shown_inj hs hs', ey⟩

/-- **C77**, signatures that print alike are equal. -/
theorem C77_signature_inj (sg sg' : Signature) (g g' : G2) (h : sg.Rep g) (h' : sg'.Rep g')
    (e : sg.debug = sg'.debug) : g = g' := by
  rcases Pt.cases g with h0 | ⟨x, y, hh, h0⟩ <;> rcases Pt.cases g' with h1 | ⟨x', y', hh', h1⟩
  · rw [h0, h1]
  · obtain ⟨_, _, _, _, -, -, -, -, e'⟩ := (C77_signature sg' g' h').2 _ _ _ h1
    rw [(C77_signature sg g h).1 h0, e'] at e
    simp at e
  · obtain ⟨_, _, _, _, -, -, -, -, e'⟩ := (C77_signature sg g h).2 _ _ _ h0
    rw [(C77_signature sg' g' h').1 h1, e'] at e
    simp at e
  · obtain ⟨a, b, c, d, k1, k2, k3, k4, e1⟩ := (C77_signature sg g h).2 _ _ _ h0
    obtain ⟨a', b', c', d', l1, l2, l3, l4, e2⟩ := (C77_signature sg' g' h').2 _ _ _ h1
    rw [e1, e2] at e
    simp only [List.append_assoc, Option.some.injEq, List.append_cancel_left_eq] at e
    obtain ⟨rfl, e⟩ := List.append_inj e ((Shown_length k1).trans (Shown_length l1).symm)
    simp only [List.append_cancel_left_eq] at e
    obtain ⟨rfl, e⟩ := List.append_inj e ((Shown_length k2).trans (Shown_length l2).symm)
    simp only [List.append_cancel_left_eq] at e
    obtain ⟨rfl, e⟩ := List.append_inj e ((Shown_length k3).trans (Shown_length l3).symm)
    simp only [List.append_cancel_left_eq, List.append_cancel_right_eq] at e
    obtain rfl := e
    rw [h0, h1, Pt.mk_inj]
    exact ⟨QuadraticAlgebra.ext (Shown_inj k1 l1) (Shown_inj k2 l2), QuadraticAlgebra.ext (Shown_inj k3 l3) (Shown_inj k4 l4)⟩

/-- The text of an element of the field with `p²` elements: its two coordinates. -/
def Shown2 (s : List Char) (v : Fp2) : Prop := ∃ a b, s = "[".toList ++ a ++ ",".toList ++ b ++ "]".toList ∧ Shown a v.re ∧ Shown b v.im

/-- The text of an element of the field with `p⁴` elements. -/
def Shown4 (s : List Char) (v : Fp4) : Prop := ∃ a b, s = "[".toList ++ a ++ ",".toList ++ b ++ "]".toList ∧ Shown2 a v.re ∧ Shown2 b v.im

theorem Shown2.length {s : List Char} {v : Fp2} : Shown2 s v → s.length = 195 := by
  rintro ⟨a, b, rfl, ha, hb⟩
  simp [Shown_length ha, Shown_length hb]

theorem Shown4.length {s : List Char} {v : Fp4} : Shown4 s v → s.length = 393 := by
  rintro ⟨a, b, rfl, ha, hb⟩
  simp [ha.length, hb.length]

theorem Shown2.inj {s : List Char} {v w : Fp2} : Shown2 s v → Shown2 s w → v = w := by
  rintro ⟨a, b, rfl, ha, hb⟩ ⟨c, d, e, hc, hd⟩
  simp only [List.append_assoc, List.append_cancel_left_eq] at e
  obtain ⟨rfl, e⟩ := List.append_inj e ((Shown_length ha).trans (Shown_length hc).symm)
  simp only [List.append_cancel_left_eq, List.append_cancel_right_eq] at e
  obtain rfl := e
  exact QuadraticAlgebra.ext (Shown_inj ha hc) (Shown_inj hb hd)

theorem Shown4.inj {s : List Char} {v w : Fp4} : Shown4 s v → Shown4 s w → v = w := by
  rintro ⟨a, b, rfl, ha, hb⟩ ⟨c, d, e, hc, hd⟩
  simp only [List.append_assoc, List.append_cancel_left_eq] at e
  obtain ⟨rfl, e⟩ := List.append_inj e (ha.length.trans hc.length.symm)
  simp only [List.append_cancel_left_eq, List.append_cancel_right_eq] at e
  obtain rfl := e
  exact QuadraticAlgebra.ext (ha.inj hc) (hb.inj hd)

theorem tostring2 {f : FP2} {v : Fp2} (hf : FP2.Ok f 1 (2 ^ 20) v) : ∃ s, f.tostring = some s ∧ Shown2 s v := by
  obtain ⟨a, b, e, ha, hb⟩ := FP2.tostring_wp hf (by norm_num)
  exact ⟨_, e, a, b, by simp, ha, hb⟩

theorem tostring4 {f : FP4} {v : Fp4} (hf : FP4.Ok f 1 (2 ^ 20) v) : ∃ s, f.tostring = some s ∧ Shown4 s v := by
  obtain ⟨a, e, ha⟩ := tostring2 hf.a
  obtain ⟨b, e', hb⟩ := tostring2 hf.b
  refine ⟨"[".toList ++ a ++ ",".toList ++ b ++ "]".toList, ?_, a, b, rfl, ha, hb⟩
  rw [FP4.tostring, e, e']
  simp

/-- **C77**, pairing values: `FP12::tostring` writes the coordinates with respect to the basis of C54, and values that print
alike are equal. -/
theorem C77_fp12 (f g : FP12) (v w : Fp12) (hf : FP12.Ok f 1 (2 ^ 20) v) (hg : FP12.Ok g 1 (2 ^ 20) w) :
    (∃ a b c x y z, f.tostring = some ("[".toList ++ a ++ ",".toList ++ b ++ ",".toList ++ c ++ "]".toList) ∧
      Shown4 a x ∧ Shown4 b y ∧ Shown4 c z ∧ v = ι4 x + ι4 y * W + ι4 z * W ^ 2) ∧
    (f.tostring = g.tostring → v = w) := by
  have key : ∀ {f : FP12} {v : Fp12}, FP12.Ok f 1 (2 ^ 20) v → ∃ a b c x y z,
      f.tostring = some ("[".toList ++ a ++ ",".toList ++ b ++ ",".toList ++ c ++ "]".toList) ∧
      Shown4 a x ∧ Shown4 b y ∧ Shown4 c z ∧ v = ι4 x + ι4 y * W + ι4 z * W ^ 2 := by
    rintro f v ⟨x, y, z, hx, hy, hz, e⟩
    obtain ⟨a, ea, ha⟩ := tostring4 hx
    obtain ⟨b, eb, hb⟩ := tostring4 hy
    obtain ⟨c, ec, hc⟩ := tostring4 hz
    refine ⟨a, b, c, x, y, z, ?_, ha, hb, hc, e⟩
    rw [FP12.tostring, ea, eb, ec]
    simp
  refine ⟨key hf, fun h => ?_⟩
  obtain ⟨a, b, c, x, y, z, e, ha, hb, hc, rfl⟩ := key hf
  obtain ⟨a', b', c', x', y', z', e', ha', hb', hc', rfl⟩ := key hg
  rw [e, e', Option.some.injEq] at h
  simp only [List.append_assoc, List.append_cancel_left_eq] at h
  obtain ⟨rfl, h⟩ := List.append_inj h (ha.length.trans ha'.length.symm)
  simp only [List.append_cancel_left_eq] at h
  obtain ⟨rfl, h⟩ := List.append_inj h (hb.length.trans hb'.length.symm)
  simp only [List.append_cancel_left_eq, List.append_cancel_right_eq] at h
  obtain rfl := h
  rw [ha.inj ha', hb.inj hb', hc.inj hc']

/-- The unit prints, and not like zero. -/
example : ∃ f g s t, FP12.new_int 1 = some f ∧ FP12.new_int 0 = some g ∧ f.tostring = some s ∧ g.tostring = some t ∧ s ≠ t := by
  obtain ⟨f, e, hf⟩ := FP12.new_int_wp (a := 1) (by norm_num) (by norm_num)
  obtain ⟨g, e', hg⟩ := FP12.new_int_wp (a := 0) (by norm_num) (by norm_num)
  have hf := FP12.Ok.mono hf (L' := 1) (E' := 2 ^ 20) (by norm_num)
  have hg := FP12.Ok.mono hg (L' := 1) (E' := 2 ^ 20) (by norm_num)
  obtain ⟨⟨_, _, _, _, _, _, h1, -⟩, h2⟩ := C77_fp12 f g _ _ hf hg
  obtain ⟨⟨_, _, _, _, _, _, h3, -⟩, -⟩ := C77_fp12 g f _ _ hg hf
  refine ⟨f, g, _, _, e, e', h1, h3, fun h => ?_⟩
  have := h2 (by rw [h1, h3, h])
  simp at this

end Props
