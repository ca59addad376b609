import Verif.Props.Multi
import Verif.Props.Equality
import Verif.Props.Random
/-!
# Properties C30, C37: no call of the public interface panics or overflows

The five inductive predicates list every way in which safe code outside the crate obtains the values of the
five types, except by `PublicKey::new_from_raw` and by writing to the public fields. In the model a function
returns `none` if the Rust function panics, reads outside an array, overflows a 64- or 128-bit number, or does
not terminate.
-/

set_option exponentiation.threshold 6000

namespace Props

open Amcl Spec

seal Spec.finalExp Spec.toBE Spec.signBit Spec.enc1

/-- Secret keys made by the interface. -/
inductive SkMade : SecretKey → Prop
  | random {e sk} : e.length = 256 → SecretKey.random e = some sk → SkMade sk
  | from_bytes {b sk} : SecretKey.from_bytes b = some (.ok sk) → SkMade sk

/-- Public keys made by the interface. -/
inductive PkMade : PublicKey → Prop
  | from_secret_key {sk pk} : SkMade sk → PublicKey.from_secret_key sk = some pk → PkMade pk
  | from_bytes {b pk} : PublicKey.from_bytes b = some (.ok pk) → PkMade pk
  | from_uncompressed_bytes {b pk} : PublicKey.from_uncompressed_bytes b = some (.ok pk) → PkMade pk
  | as_uncompressed_bytes {pk b pk'} : PkMade pk → pk.as_uncompressed_bytes = some (b, pk') → PkMade pk'

/-- Signatures made by the interface. -/
inductive SigMade : Signature → Prop
  | new {H msg d sk s} : SkMade sk → Signature.new H msg d sk = some s → SigMade s
  | new_hashed {re im sk s} : SkMade sk → Signature.new_hashed re im sk = some s → SigMade s
  | from_bytes {b s} : Signature.from_bytes b = some (.ok s) → SigMade s

/-- Aggregate keys made by the interface. -/
inductive ApkMade : AggregatePublicKey → Prop
  | new {a} : AggregatePublicKey.new = some a → ApkMade a
  | from_public_keys {ks a} : (∀ k ∈ ks, PkMade k) → AggregatePublicKey.from_public_keys ks = some a → ApkMade a
  | from_bytes {b a} : AggregatePublicKey.from_bytes b = some (.ok a) → ApkMade a
  | add {a k a'} : ApkMade a → PkMade k → a.add k = some a' → ApkMade a'
  | add_aggregate {a b a'} : ApkMade a → ApkMade b → a.add_aggregate b = some a' → ApkMade a'

/-- Aggregate signatures made by the interface. -/
inductive AsigMade : AggregateSignature → Prop
  | new {a} : AggregateSignature.new = some a → AsigMade a
  | from_bytes {b a} : AggregateSignature.from_bytes b = some (.ok a) → AsigMade a
  | add {a s a'} : AsigMade a → SigMade s → a.add s = some a' → AsigMade a'
  | add_aggregate {a b a'} : AsigMade a → AsigMade b → a.add_aggregate b = some a' → AsigMade a'

theorem SkMade.rep {sk : SecretKey} (h : SkMade sk) : ∃ n, sk.Rep n := by
  cases h with
  | random he e =>
    obtain ⟨sk', e', h⟩ := C36_random_key _ he
    rw [e] at e'
    cases e'
    exact ⟨_, h⟩
  | @from_bytes b _ e =>
    by_cases hb : b.length = 48
    · obtain ⟨sk', e', h, -⟩ := (C01_secret_key_round_trip b).2 hb
      rw [e] at e'
      cases e'
      exact ⟨_, h⟩
    · rw [(C01_secret_key_round_trip b).1 hb] at e
      cases e

theorem PkMade.aff {pk : PublicKey} (h : PkMade pk) : ∃ g, pk.Aff g := by
  induction h with
  | from_secret_key hs e =>
    obtain ⟨n, hn⟩ := hs.rep
    exact ⟨_, (C06_keys_affine _).1 _ _ hn e⟩
  | from_bytes e => exact (C06_keys_affine _).2.1 _ e
  | from_uncompressed_bytes e => exact (C06_keys_affine _).2.2.1 _ e
  | as_uncompressed_bytes _ e ih =>
    obtain ⟨g, hg⟩ := ih
    exact ⟨g, (C06_keys_affine _).2.2.2 _ _ _ hg e⟩

theorem SigMade.aff {s : Signature} (h : SigMade s) : ∃ g, s.Aff g := by
  cases h with
  | new hs e =>
    obtain ⟨n, hn⟩ := hs.rep
    exact (C06_signatures_affine s).1 _ _ _ _ _ hn e
  | new_hashed hs e =>
    obtain ⟨n, hn⟩ := hs.rep
    exact (C06_signatures_affine s).2.1 _ _ _ _ hn e
  | from_bytes e => exact (C06_signatures_affine s).2.2 _ e

theorem pks_rep {ks : List PublicKey} (h : ∀ k ∈ ks, PkMade k) : ∃ gs, List.Forall₂ PublicKey.Rep ks gs := by
  induction ks with
  | nil => exact ⟨[], .nil⟩
  | cons k ks ih =>
    obtain ⟨g, hg⟩ := (h k (by simp)).aff
    obtain ⟨gs, hgs⟩ := ih fun k hk => h k (by simp [hk])
    exact ⟨g :: gs, .cons hg.1 hgs⟩

theorem ApkMade.rep {a : AggregatePublicKey} (h : ApkMade a) : ∃ g, a.Rep g := by
  induction h with
  | new e => exact ⟨_, AggregatePublicKey.new_wp.elim e⟩
  | from_public_keys hk e =>
    obtain ⟨gs, hgs⟩ := pks_rep hk
    obtain ⟨a, e', h⟩ := C07_from_public_keys_is_sum _ gs hgs
    rw [e] at e'
    cases e'
    exact ⟨_, h⟩
  | from_bytes e => exact (C14_key_decoders_on_curve _).2.1 _ e
  | add _ hk e ih =>
    obtain ⟨g, hg⟩ := ih
    obtain ⟨k, hk⟩ := hk.aff
    exact ⟨_, (AggregatePublicKey.add_wp hg hk.1).elim e⟩
  | add_aggregate _ _ e ih ih' =>
    obtain ⟨g, hg⟩ := ih
    obtain ⟨k, hk⟩ := ih'
    exact ⟨_, (AggregatePublicKey.add_aggregate_wp hg hk).elim e⟩

theorem AsigMade.rep {a : AggregateSignature} (h : AsigMade a) : ∃ g, a.Rep g := by
  induction h with
  | new e => exact ⟨_, AggregateSignature.new_wp.elim e⟩
  | from_bytes e => exact (C14_signature_decoders_on_curve _).2 _ e
  | add _ hk e ih =>
    obtain ⟨g, hg⟩ := ih
    obtain ⟨k, hk⟩ := hk.aff
    exact ⟨_, (AggregateSignature.add_wp hg hk.1).elim e⟩
  | add_aggregate _ _ e ih ih' =>
    obtain ⟨g, hg⟩ := ih
    obtain ⟨k, hk⟩ := ih'
    exact ⟨_, (AggregateSignature.add_aggregate_wp hg hk).elim e⟩

/-- The call returns. -/
def Returns {α : Type} (m : Option α) : Prop := ∃ a, m = some a

theorem compress_g1_returns {P : ECP} {g : G1} (h : P.Rep g) : Returns (utils.compress_g1 P) := by
  rcases Pt.cases g with rfl | ⟨x, y, hc, rfl⟩
  · exact ⟨_, compress_g1_inf h (by norm_num)⟩
  · exact ⟨_, compress_g1_eq h (by norm_num)⟩

theorem compress_g2_returns {P : ECP2} {g : G2} (h : P.Rep g) : Returns (utils.compress_g2 P) := by
  rcases Pt.cases g with rfl | ⟨x, y, hc, rfl⟩
  · exact ⟨_, compress_g2_inf h (by norm_num)⟩
  · exact ⟨_, compress_g2_eq h (by norm_num)⟩

theorem as_uncompressed_returns {k : PublicKey} {g : G1} (h : k.Rep g) : Returns k.as_uncompressed_bytes := by
  rcases Pt.cases g with rfl | ⟨x, y, hc, rfl⟩
  · exact ⟨_, as_uncompressed_inf h⟩
  · obtain ⟨b, e, -⟩ := as_uncompressed_wp h
    exact ⟨b, e⟩

theorem check_returns {sig hp : ECP2} {pk : ECP} {S H : G2} {K : G1} (hs : sig.Aff S) (hh : hp.Rep H) (hk : pk.Rep K) :
    Returns (Signature.check sig hp pk) := by
  obtain ⟨b, e, -⟩ := check_general_wp hs hh (hk.x.mono (by norm_num) : FP.Ok pk.x 1 (2 ^ 20) _)
    (hk.y.mono (by norm_num) : FP.Ok pk.y 1 (2 ^ 20) _)
  exact ⟨b, e⟩

theorem verify_multiple_returns (H : Keccak) (s : AggregateSignature) (S : G2) (hs : s.Rep S) (msg : List UInt8)
    (d : UInt64) (avks : List AggregatePublicKey) (hk : ∀ k ∈ avks, ∃ g, k.Rep g) :
    Returns (s.verify_multiple H msg d avks) := by
  by_cases hb : avks = [] ∨ msg.length ≠ 32 * avks.length
  · exact ⟨_, C12_bad_input H s S hs msg d avks hb⟩
  · simp only [not_or, not_not] at hb
    have hx : ∀ i, ∃ c : Fp × Fp, ∀ hi : i < avks.length, Coords (avks[i]'hi).point c.1 c.2 := by
      intro i
      by_cases hi : i < avks.length
      · obtain ⟨g, hg⟩ := hk avks[i] (List.getElem_mem hi)
        obtain ⟨c, hc⟩ := Coords.exists_of hg
        exact ⟨c, fun _ => hc⟩
      · exact ⟨(0, 0), fun h => absurd h hi⟩
    choose c hc using hx
    have hg : ∀ i, ∃ g, MapsTo (hashX (fun m => (H m).toList) ((msg.drop (32 * i)).take 32) d.toNat) g := fun i =>
      let ⟨_, g, _, _, h, _⟩ := C26_hash_on_g2 H ((msg.drop (32 * i)).take 32) d
      ⟨g, h⟩
    choose g hg using hg
    obtain ⟨b, e, -⟩ := C12_product H s S hs msg d avks hb.1 hb.2 (fun i => (c i).1) (fun i => (c i).2) hc g fun i _ => hg i
    exact ⟨b, e⟩

/-- **C37**, secret keys, for every key made by the interface and every argument. -/
theorem C37_secret_key (sk sk' : SecretKey) (h : SkMade sk) (h' : SkMade sk') :
    (∀ b, Returns (SecretKey.from_bytes b)) ∧ (∀ e, e.length = 256 → Returns (SecretKey.random e)) ∧
    Returns sk.as_bytes ∧ Returns (sk.eq sk') ∧ Returns (PublicKey.from_secret_key sk) ∧
    (∀ H msg d, Returns (Signature.new H msg d sk)) ∧
    (∀ re im, Returns (Signature.new_hashed re im sk) ↔ 48 ≤ re.length ∧ 48 ≤ im.length) := by
  obtain ⟨n, hn⟩ := h.rep
  obtain ⟨n', hn'⟩ := h'.rep
  refine ⟨?_, ?_, ⟨_, (C01_secret_key_encoding sk n hn).1⟩, ⟨_, C23_equality.2.2.2.2 _ _ _ _ hn hn'⟩, ?_, ?_, ?_⟩
  · intro b
    by_cases hb : b.length = 48
    · obtain ⟨sk, e, -⟩ := (C01_secret_key_round_trip b).2 hb
      exact ⟨_, e⟩
    · exact ⟨_, (C01_secret_key_round_trip b).1 hb⟩
  · intro e he
    obtain ⟨sk, e, -⟩ := C36_random_key e he
    exact ⟨_, e⟩
  · obtain ⟨pk, e, -⟩ := PublicKey.from_secret_key_wp hn
    exact ⟨_, e⟩
  · intro H msg d
    obtain ⟨_, s, -, e, -⟩ := C04_sign H msg d sk n hn
    exact ⟨_, e⟩
  · intro re im
    constructor
    · rintro ⟨s, e⟩
      by_contra hl
      rw [C04_short_panics re im (by omega)] at e
      cases e
    · rintro ⟨hr, hi⟩
      obtain ⟨_, s, -, e, -⟩ := C04_sign_hashed re im hr hi sk n hn
      exact ⟨_, e⟩

/-- **C37**, public keys. -/
theorem C37_public_key (k k' : PublicKey) (h : PkMade k) (h' : PkMade k') :
    (∀ b, Returns (PublicKey.from_bytes b)) ∧ (∀ b, Returns (PublicKey.from_uncompressed_bytes b)) ∧
    Returns k.as_bytes ∧ Returns k.as_uncompressed_bytes ∧ Returns (k.eq k') := by
  obtain ⟨g, hg⟩ := h.aff
  obtain ⟨g', hg'⟩ := h'.aff
  exact ⟨fun b => (C13_key_decoders_total b).1, fun b => (C13_key_decoders_total b).2.2, compress_g1_returns hg.1,
    as_uncompressed_returns hg.1, ⟨_, C23_equality.1 _ _ _ _ hg.1 hg'.1⟩⟩

/-- **C37**, signatures. -/
theorem C37_signature (s s' : Signature) (k : PublicKey) (h : SigMade s) (h' : SigMade s') (hk : PkMade k) :
    (∀ b, Returns (Signature.from_bytes b)) ∧ Returns s.as_bytes ∧ Returns (s.eq s') ∧
    (∀ H msg d, Returns (s.verify H msg d k)) ∧
    (∀ re im, 48 ≤ re.length → 48 ≤ im.length → Returns (s.verify_hashed re im k)) := by
  obtain ⟨g, hg⟩ := h.aff
  obtain ⟨g', hg'⟩ := h'.aff
  obtain ⟨K, hK⟩ := hk.aff
  refine ⟨fun b => (C13_signature_decoders_total b).1, compress_g2_returns hg.1, ⟨_, C23_equality.2.2.1 _ _ _ _ hg.1 hg'.1⟩,
    ?_, ?_⟩
  · intro H msg d
    obtain ⟨P, _, e, hP, -⟩ := C26_hash_on_g2 H msg d
    rw [Signature.verify, e]
    exact check_returns hg hP hK.1
  · intro re im hr hi
    obtain ⟨P, _, e, hP, -⟩ := C26_map_to_g2 re im hr hi
    rw [Signature.verify_hashed, e]
    exact check_returns hg hP hK.1

/-- **C37**, aggregate keys. -/
theorem C37_aggregate_key (a b : AggregatePublicKey) (k : PublicKey) (ks : List PublicKey) (ha : ApkMade a) (hb : ApkMade b)
    (hk : PkMade k) (hks : ∀ k ∈ ks, PkMade k) :
    Returns AggregatePublicKey.new ∧ Returns (AggregatePublicKey.from_public_keys ks) ∧
    (∀ b, Returns (AggregatePublicKey.from_bytes b)) ∧ Returns (a.add k) ∧ Returns (a.add_aggregate b) ∧
    Returns a.as_bytes ∧ Returns (a.eq b) := by
  obtain ⟨g, hg⟩ := ha.rep
  obtain ⟨g', hg'⟩ := hb.rep
  obtain ⟨K, hK⟩ := hk.aff
  obtain ⟨gs, hgs⟩ := pks_rep hks
  obtain ⟨x, ex, -⟩ := AggregatePublicKey.new_wp
  obtain ⟨y, ey, -⟩ := C07_from_public_keys_is_sum ks gs hgs
  obtain ⟨z, ez, -⟩ := AggregatePublicKey.add_wp hg hK.1
  obtain ⟨w, ew, -⟩ := AggregatePublicKey.add_aggregate_wp hg hg'
  exact ⟨⟨x, ex⟩, ⟨y, ey⟩, fun b => (C13_key_decoders_total b).2.1, ⟨z, ez⟩, ⟨w, ew⟩, compress_g1_returns hg,
    ⟨_, C23_equality.2.1 _ _ _ _ hg hg'⟩⟩

/-- **C37**, aggregate signatures. -/
theorem C37_aggregate_signature (a b : AggregateSignature) (s : Signature) (k : AggregatePublicKey)
    (ks : List AggregatePublicKey) (ha : AsigMade a) (hb : AsigMade b) (hs : SigMade s) (hk : ApkMade k)
    (hks : ∀ k ∈ ks, ApkMade k) :
    Returns AggregateSignature.new ∧ (∀ b, Returns (AggregateSignature.from_bytes b)) ∧ Returns (a.add s) ∧
    Returns (a.add_aggregate b) ∧ Returns a.as_bytes ∧ Returns (a.eq b) ∧
    (∀ H msg d, Returns (a.verify H msg d k)) ∧ (∀ H msg d, Returns (a.verify_multiple H msg d ks)) := by
  obtain ⟨g, hg⟩ := ha.rep
  obtain ⟨g', hg'⟩ := hb.rep
  obtain ⟨S, hS⟩ := hs.aff
  obtain ⟨K, hK⟩ := hk.rep
  obtain ⟨x, ex, -⟩ := AggregateSignature.new_wp
  obtain ⟨z, ez, -⟩ := AggregateSignature.add_wp hg hS.1
  obtain ⟨w, ew, -⟩ := AggregateSignature.add_aggregate_wp hg hg'
  refine ⟨⟨x, ex⟩, fun b => (C13_signature_decoders_total b).2, ⟨z, ez⟩, ⟨w, ew⟩, compress_g2_returns hg,
    ⟨_, C23_equality.2.2.2.1 _ _ _ _ hg hg'⟩, ?_, ?_⟩
  · intro H msg d
    obtain ⟨P, _, e, hP, -⟩ := C26_hash_on_g2 H msg d
    obtain ⟨s', es, hs'⟩ := ECP2.affine_aff hg
    obtain ⟨k', ek, hk'⟩ := ECP.affine_aff hK
    rw [AggregateSignature.verify, es, ek, e]
    exact check_returns hs' hP hk'.1
  · intro H msg d
    exact verify_multiple_returns H a g hg msg d ks fun k hk => (hks k hk).rep

/-- The predicates are not empty: a chain of calls from 48 bytes. -/
example : ∃ sk pk s apk asig, SkMade sk ∧ PkMade pk ∧ SigMade s ∧ ApkMade apk ∧ AsigMade asig := by
  obtain ⟨sk, e, -⟩ := (C01_secret_key_round_trip (List.replicate 48 1)).2 (by simp)
  have h1 : SkMade sk := .from_bytes e
  obtain ⟨-, -, -, -, ⟨pk, e2⟩, h3, -⟩ := C37_secret_key sk sk h1 h1
  obtain ⟨s, e3⟩ := h3 (fun _ => Vector.replicate 32 0) [] 0
  have h2 : PkMade pk := .from_secret_key h1 e2
  have h3 : SigMade s := .new h1 e3
  obtain ⟨a, ea, -⟩ := AggregatePublicKey.new_wp
  obtain ⟨b, eb, -⟩ := AggregateSignature.new_wp
  exact ⟨sk, pk, s, a, b, h1, h2, h3, .new ea, .new eb⟩

end Props
