import Verif.Props.SigOutside
import Verif.Props.Equality
/-!
# Property C100: the verification functions agree with each other
-/

set_option exponentiation.threshold 6000

namespace Props

open Amcl Spec

seal Spec.finalExp Spec.toBE Spec.signBit Spec.enc1

/-- The value depends on the points only. -/
theorem Coords.val_eq {P P' : ECP} {K : G1} {x y x' y' : Fp} (hP : P.Rep K) (hP' : P'.Rep K) (hc : Coords P x y)
    (hc' : Coords P' x' y') (g : G2) : ateVal x y g = ateVal x' y' g := by
  obtain ⟨K1, h1, hc⟩ := hc
  obtain ⟨K2, h2, hc'⟩ := hc'
  cases h1.inj hP
  cases h2.inj hP'
  rcases Pt.cases K with rfl | ⟨a, b, h, rfl⟩
  · obtain ⟨-, rfl, rfl⟩ | ⟨h, e⟩ := hc
    · obtain ⟨-, rfl, rfl⟩ | ⟨h, e⟩ := hc'
      · rw [ateVal, ateVal, hP.inf_coords.1, hP'.inf_coords.1]
        by_cases h0 : g = 0
        · rw [h0, signedMiller_inf_zero, signedMiller_inf_zero]
        · rw [signedMiller_zero_all hP.inf_coords.2 h0, signedMiller_zero_all hP'.inf_coords.2 h0]
      · exact absurd e.symm (Pt.mk_ne h)
    · exact absurd e.symm (Pt.mk_ne h)
  · obtain ⟨e, -⟩ | ⟨h', e⟩ := hc
    · exact absurd e (Pt.mk_ne h)
    · obtain ⟨e', -⟩ | ⟨h'', e'⟩ := hc'
      · exact absurd e' (Pt.mk_ne h)
      · rw [e] at e'
        obtain ⟨rfl, rfl⟩ := Pt.mk_inj.1 e'
        rfl

theorem Coords.of_aff {P : ECP} {K : G1} (h : P.Aff K) :
    ∃ x y, Coords P x y ∧ FP.Ok P.x 1 (2 ^ 20) x ∧ FP.Ok P.y 1 (2 ^ 20) y := by
  rcases Pt.cases K with rfl | ⟨x, y, hc, rfl⟩
  · exact ⟨_, _, ⟨_, h.1, .inl ⟨rfl, rfl, rfl⟩⟩, h.1.x.mono (by norm_num), h.1.y.mono (by norm_num)⟩
  · exact ⟨x, y, .of_mk h.1, h.coords⟩

/-- With a finite message point of the subgroup the value is the pairing, for all keys. -/
theorem Coords.val_pairing {P : ECP} {K : G1} {x y : Fp} (hP : P.Rep K) (hc : Coords P x y) {g : G2} (h0 : g ≠ 0) :
    ateVal x y g = Spec.pairing g K := by
  obtain ⟨K1, h1, ⟨rfl, rfl, rfl⟩ | ⟨h, rfl⟩⟩ := hc
  · cases h1.inj hP
    rw [ateVal, hP.inf_coords.1, signedMiller_zero_all hP.inf_coords.2 h0, pairing_zero_right]
  · cases h1.inj hP
    rw [ateVal, signedMiller_all h h0]

theorem verify_val (H : Keccak) (s : Signature) (S : G2) (hs : s.Aff S) (msg : List UInt8) (d : UInt64) (pk : PublicKey)
    (K : G1) (hk : pk.Aff K) : ∃ x y g b, Coords pk.point x y ∧ MapsTo (hashX (fun m => (H m).toList) msg d.toNat) g ∧
      s.verify H msg d pk = some b ∧ (b = true ↔ ateVal x y g = ateVal g1x g1y S) := by
  obtain ⟨P, g, e, hP, hg, -⟩ := C26_hash_on_g2 H msg d
  obtain ⟨x, y, hc, hx, hy⟩ := Coords.of_aff hk
  obtain ⟨b, e', hb⟩ := check_general_wp hs hP hx hy
  refine ⟨x, y, g, b, hc, hg, by rw [Signature.verify, e]; exact e', ?_⟩
  rw [hb, eq_comm]
  rfl

theorem aggregate_val (H : Keccak) (s : AggregateSignature) (S : G2) (hs : s.Rep S) (msg : List UInt8) (d : UInt64)
    (avk : AggregatePublicKey) {x y : Fp} (hc : Coords avk.point x y) {g : G2}
    (hg : MapsTo (hashX (fun m => (H m).toList) msg d.toNat) g) :
    ∃ b, s.verify H msg d avk = some b ∧ (b = true ↔ ateVal x y g = ateVal g1x g1y S) := by
  obtain ⟨P, g', e, hP, hg', -⟩ := C26_hash_on_g2 H msg d
  cases hg.unique hg'
  obtain ⟨s', es, hs'⟩ := ECP2.affine_aff hs
  obtain ⟨k', ek, hx, hy⟩ := hc.affine
  obtain ⟨b, e', hb⟩ := check_general_wp hs' hP hx hy
  refine ⟨b, by rw [AggregateSignature.verify, es, ek, e]; exact e', ?_⟩
  rw [hb, eq_comm]
  rfl

/-- Equal verdicts from equivalent conditions. -/
theorem verdict_eq {u v : Option Bool} {b c : Bool} {p q : Prop} (hu : u = some b) (hv : v = some c) (hb : b = true ↔ p)
    (hc : c = true ↔ q) (h : p ↔ q) : u = v ∧ u ≠ none := by
  rw [hu, hv, Bool.eq_iff_iff.2 (hb.trans (h.trans hc.symm))]
  exact ⟨rfl, by simp⟩

/-- **C100**, aggregates of one: `verify` of aggregates, with an aggregate signature for the point of the signature
and an aggregate key for the point of the key, gives the verdict of `verify` of signatures - for every signature point
and every key, those outside the subgroups and infinity included. -/
theorem C100_aggregate_of_one (H : Keccak) (msg : List UInt8) (d : UInt64) (s : Signature) (a : AggregateSignature) (S : G2)
    (pk : PublicKey) (avk : AggregatePublicKey) (K : G1) (hs : s.Aff S) (ha : a.Rep S) (hk : pk.Aff K) (hak : avk.Rep K) :
    a.verify H msg d avk = s.verify H msg d pk ∧ a.verify H msg d avk ≠ none := by
  obtain ⟨x, y, g, b, hc, hg, e, hb⟩ := verify_val H s S hs msg d pk K hk
  obtain ⟨c, hc'⟩ := Coords.exists_of hak
  obtain ⟨b', e', hb'⟩ := aggregate_val H a S ha msg d avk hc' hg
  exact verdict_eq e' e hb' hb (by rw [hc'.val_eq hak hk.1 hc])

/-- A message of 32 bytes with the key for it. -/
abbrev Pair := List UInt8 × AggregatePublicKey

/-- `verify_multiple` of the concatenated messages and the list of keys. -/
def verifyPairs (H : Keccak) (s : AggregateSignature) (d : UInt64) (l : List Pair) : Option Bool :=
  s.verify_multiple H (l.map Prod.fst).flatten d (l.map Prod.snd)

/-- The pair has 32 bytes and a key in a valid representation. -/
def Pair.Ok (j : Pair) : Prop := j.1.length = 32 ∧ ∃ K, j.2.Rep K

/-- `v` is the value of the pair. -/
def Pair.Val (H : Keccak) (d : UInt64) (j : Pair) (v : Fp12) : Prop :=
  ∃ x y g, Coords j.2.point x y ∧ MapsTo (hashX (fun m => (H m).toList) j.1 d.toNat) g ∧ v = ateVal x y g

theorem Pair.Val.exists (H : Keccak) (d : UInt64) {j : Pair} (h : j.Ok) : ∃ v, j.Val H d v := by
  obtain ⟨-, K, hK⟩ := h
  obtain ⟨c, hc⟩ := Coords.exists_of hK
  obtain ⟨-, g, -, -, hg, -⟩ := C26_hash_on_g2 H j.1 d
  exact ⟨_, _, _, g, hc, hg, rfl⟩

theorem flatten_chunk (ms : List (List UInt8)) (h : ∀ m ∈ ms, m.length = 32) (i : Nat) (hi : i < ms.length) :
    (ms.flatten.drop (32 * i)).take 32 = ms[i] := by
  have e := chunk_flatten (ms.map fun m => (m, [])) (by simpa using h) i (by simpa using hi)
  simpa [Function.comp_def] using e

theorem flatten_length (ms : List (List UInt8)) (h : ∀ m ∈ ms, m.length = 32) : ms.flatten.length = 32 * ms.length := by
  have e := length_flatten32 (ms.map fun m => (m, [])) (by simpa using h)
  simpa [Function.comp_def] using e

theorem pairs_val (H : Keccak) (s : AggregateSignature) (S : G2) (hs : s.Rep S) (d : UInt64) (l : List Pair) (h0 : l ≠ [])
    (hl : ∀ j ∈ l, j.Ok) (v : Pair → Fp12) (hv : ∀ j ∈ l, j.Val H d (v j)) :
    ∃ b, verifyPairs H s d l = some b ∧ (b = true ↔ (l.map v).prod = ateVal g1x g1y S) := by
  have hx : ∀ i, ∃ c : Fp × Fp × G2, ∀ hi : i < l.length, Coords l[i].2.point c.1 c.2.1 ∧
      MapsTo (hashX (fun m => (H m).toList) l[i].1 d.toNat) c.2.2 ∧ v l[i] = ateVal c.1 c.2.1 c.2.2 := by
    intro i
    by_cases hi : i < l.length
    · obtain ⟨x, y, g, h⟩ := hv l[i] (List.getElem_mem hi)
      exact ⟨(x, y, g), fun _ => h⟩
    · exact ⟨(0, 0, 0), fun h => absurd h hi⟩
  choose c hc using hx
  have h32 : ∀ m ∈ l.map Prod.fst, m.length = 32 := by
    intro m hm
    obtain ⟨j, hj, rfl⟩ := List.mem_map.1 hm
    exact (hl j hj).1
  obtain ⟨b, e, hb⟩ := C12_product H s S hs (l.map Prod.fst).flatten d (l.map Prod.snd) (by simpa using h0)
    (by rw [flatten_length _ h32]; simp) (fun i => (c i).1) (fun i => (c i).2.1)
    (fun i hi => by
      have hi' : i < l.length := by simpa using hi
      have := (hc i hi').1
      simpa using this)
    (fun i => (c i).2.2) (fun i hi => by
      have hi' : i < l.length := by simpa using hi
      rw [flatten_chunk _ h32 i (by simpa using hi')]
      have := (hc i hi').2.1
      simpa using this)
  refine ⟨b, e, ?_⟩
  rw [hb, ← Fin.prod_univ_getElem (l.map v), Finset.prod_range]
  have e1 : (l.map Prod.snd).length = l.length := by simp
  have e2 : (l.map v).length = l.length := by simp
  have e3 : ∏ i : Fin (l.map Prod.snd).length, ateVal (c i).1 (c i).2.1 (c i).2.2 =
      ∏ i : Fin (l.map v).length, (l.map v)[i.1] := by
    refine Fintype.prod_equiv (finCongr (e1.trans e2.symm)) _ _ fun i => ?_
    have hi : i.1 < l.length := by rw [← e1]; exact i.2
    have := (hc i.1 hi).2.2
    simpa using this.symm
  rw [e3]

/-- The value of a pair is determined. -/
theorem Pair.Val.unique {H : Keccak} {d : UInt64} {j : Pair} {v w : Fp12} (h : j.Val H d v) (h' : j.Val H d w) : v = w := by
  obtain ⟨x, y, g, hc, hg, rfl⟩ := h
  obtain ⟨x', y', g', hc', hg', rfl⟩ := h'
  cases hg.unique hg'
  obtain ⟨K, hK, -⟩ := id hc
  exact hc.val_eq hK hK hc' g

theorem exists_vals (H : Keccak) (d : UInt64) : ∃ v : Pair → Fp12, ∀ j : Pair, j.Ok → j.Val H d (v j) := by
  have h : ∀ j : Pair, ∃ v, j.Ok → j.Val H d v := fun j => by
    by_cases hj : j.Ok
    · obtain ⟨v, hv⟩ := Pair.Val.exists H d hj
      exact ⟨v, fun _ => hv⟩
    · exact ⟨0, fun h => absurd h hj⟩
  choose v hv using h
  exact ⟨v, hv⟩

/-- **C100**, one pair: `verify_multiple` with one key and 32 bytes gives the verdict of `verify` - for every signature
point and every key. -/
theorem C100_single (H : Keccak) (msg : List UInt8) (d : UInt64) (s : AggregateSignature) (S : G2) (avk : AggregatePublicKey)
    (K : G1) (hs : s.Rep S) (hk : avk.Rep K) (hl : msg.length = 32) :
    s.verify_multiple H msg d [avk] = s.verify H msg d avk ∧ s.verify H msg d avk ≠ none := by
  obtain ⟨c, hc⟩ := Coords.exists_of hk
  obtain ⟨-, g, -, -, hg, -⟩ := C26_hash_on_g2 H msg d
  obtain ⟨b, e, hb⟩ := aggregate_val H s S hs msg d avk hc hg
  obtain ⟨b', e', hb'⟩ := pairs_val H s S hs d [(msg, avk)] (by simp) (by simpa using ⟨hl, K, hk⟩) (fun _ => ateVal c.1 c.2 g)
    (by simpa using ⟨_, _, g, hc, hg, rfl⟩)
  have h := verdict_eq e e' hb hb' (by simp)
  simp only [verifyPairs, List.map_cons, List.map_nil, List.flatten_cons, List.flatten_nil, List.append_nil] at h
  exact ⟨h.1.symm, h.2⟩

/-- **C100**, order: `verify_multiple` gives the same verdict for the pairs of message and key in any order - for every
signature point and all keys. -/
theorem C100_permutation (H : Keccak) (d : UInt64) (s : AggregateSignature) (S : G2) (hs : s.Rep S) (l l' : List Pair)
    (h : l.Perm l') (hl : ∀ j ∈ l, j.Ok) : verifyPairs H s d l = verifyPairs H s d l' ∧ verifyPairs H s d l ≠ none := by
  by_cases h0 : l = []
  · subst h0
    have e : verifyPairs H s d [] = some false := C12_bad_input H s S hs _ d _ (.inl rfl)
    rw [← h.nil_eq, e]
    exact ⟨rfl, by simp⟩
  · obtain ⟨v, hv⟩ := exists_vals H d
    have hl' : ∀ j ∈ l', j.Ok := fun j hj => hl j (h.mem_iff.2 hj)
    obtain ⟨b, e, hb⟩ := pairs_val H s S hs d l h0 hl v fun j hj => hv j (hl j hj)
    obtain ⟨b', e', hb'⟩ := pairs_val H s S hs d l' (fun e => h0 (by rw [e] at h; exact h.eq_nil)) hl' v
      fun j hj => hv j (hl' j hj)
    exact verdict_eq e e' hb hb' (by rw [(h.map v).prod_eq])

theorem pair_val {H : Keccak} {d : UInt64} {m : List UInt8} {k : AggregatePublicKey} {K : G1} {g : G2} {v : Fp12}
    (hv : Pair.Val H d (m, k) v) (hk : k.Rep K) (hg : MapsTo (hashX (fun m => (H m).toList) m d.toNat) g) (h0 : g ≠ 0) :
    v = pairing g K := by
  obtain ⟨x, y, g', hc, hg', rfl⟩ := hv
  cases hg.unique hg'
  exact hc.val_pairing hk h0

/-- **C100**, merging: two keys for the same message may be replaced by one key for the sum of their points, if the
message point is finite. -/
theorem C100_merge (H : Keccak) (d : UInt64) (s : AggregateSignature) (S : G2) (hs : s.Rep S) (m : List UInt8)
    (hm : m.length = 32) (g : G2) (hg : MapsTo (hashX (fun m => (H m).toList) m d.toNat) g) (h0 : g ≠ 0)
    (a b c : AggregatePublicKey) (A B : G1) (ha : a.Rep A) (hb : b.Rep B) (hc : c.Rep (A + B)) (l : List Pair)
    (hl : ∀ j ∈ l, j.Ok) :
    verifyPairs H s d ((m, a) :: (m, b) :: l) = verifyPairs H s d ((m, c) :: l) ∧
      verifyPairs H s d ((m, c) :: l) ≠ none := by
  obtain ⟨v, hv⟩ := exists_vals H d
  have oa : Pair.Ok (m, a) := ⟨hm, A, ha⟩
  have ob : Pair.Ok (m, b) := ⟨hm, B, hb⟩
  have oc : Pair.Ok (m, c) := ⟨hm, _, hc⟩
  have h1 : ∀ j ∈ (m, a) :: (m, b) :: l, Pair.Ok j := by
    intro j hj
    rcases List.mem_cons.1 hj with rfl | hj
    · exact oa
    · rcases List.mem_cons.1 hj with rfl | hj
      · exact ob
      · exact hl j hj
  have h2 : ∀ j ∈ (m, c) :: l, Pair.Ok j := by
    intro j hj
    rcases List.mem_cons.1 hj with rfl | hj
    · exact oc
    · exact hl j hj
  obtain ⟨x, e, hx⟩ := pairs_val H s S hs d _ (by simp) h1 v fun j hj => hv j (h1 j hj)
  obtain ⟨y, e', hy⟩ := pairs_val H s S hs d _ (by simp) h2 v fun j hj => hv j (h2 j hj)
  have h := verdict_eq e' e hy hx (by
    rw [List.map_cons, List.map_cons, List.map_cons, List.prod_cons, List.prod_cons, List.prod_cons,
      pair_val (hv _ oa) ha hg h0, pair_val (hv _ ob) hb hg h0, pair_val (hv _ oc) hc hg h0,
      pairing_add_right (mapsTo_order hg), mul_assoc])
  exact ⟨h.1.symm, h.2⟩

/-- **C100**, keys without effect: a key at infinity with a message of finite point has no influence on the verdict,
as long as another pair is left. -/
theorem C100_infinite_key (H : Keccak) (d : UInt64) (s : AggregateSignature) (S : G2) (hs : s.Rep S) (m : List UInt8)
    (hm : m.length = 32) (g : G2) (hg : MapsTo (hashX (fun m => (H m).toList) m d.toNat) g) (h0 : g ≠ 0)
    (a : AggregatePublicKey) (ha : a.Rep 0) (l : List Pair) (hne : l ≠ []) (hl : ∀ j ∈ l, j.Ok) :
    verifyPairs H s d ((m, a) :: l) = verifyPairs H s d l ∧ verifyPairs H s d l ≠ none := by
  obtain ⟨v, hv⟩ := exists_vals H d
  have oa : Pair.Ok (m, a) := ⟨hm, 0, ha⟩
  have h1 : ∀ j ∈ (m, a) :: l, Pair.Ok j := by
    intro j hj
    rcases List.mem_cons.1 hj with rfl | hj
    · exact oa
    · exact hl j hj
  obtain ⟨x, e, hx⟩ := pairs_val H s S hs d _ (by simp) h1 v fun j hj => hv j (h1 j hj)
  obtain ⟨y, e', hy⟩ := pairs_val H s S hs d _ hne hl v fun j hj => hv j (hl j hj)
  have h := verdict_eq e' e hy hx (by
    rw [List.map_cons, List.prod_cons, pair_val (hv _ oa) ha hg h0, pairing_zero_right, one_mul])
  exact ⟨h.1.symm, h.2⟩

theorem pairing_sum_right {g : G2} (hg : r • g = 0) (Ks : List G1) : (Ks.map fun K => pairing g K).prod = pairing g Ks.sum := by
  induction Ks with
  | nil => simp [pairing_zero_right]
  | cons K Ks ih => rw [List.map_cons, List.prod_cons, ih, List.sum_cons, pairing_add_right hg]

/-- **C100**, one message for all keys: `verify_multiple` with the same message of finite point for all keys gives the
verdict of `verify` for that message and the aggregate of the keys - for every signature point and all keys. -/
theorem C100_same_message (H : Keccak) (d : UInt64) (s : AggregateSignature) (S : G2) (hs : s.Rep S) (m : List UInt8)
    (hm : m.length = 32) (g : G2) (hg : MapsTo (hashX (fun m => (H m).toList) m d.toNat) g) (h0 : g ≠ 0)
    (ks : List AggregatePublicKey) (Ks : List G1) (hk : List.Forall₂ AggregatePublicKey.Rep ks Ks) (hne : ks ≠ [])
    (a : AggregatePublicKey) (ha : a.Rep Ks.sum) :
    s.verify_multiple H (List.replicate ks.length m).flatten d ks = s.verify H m d a ∧ s.verify H m d a ≠ none := by
  obtain ⟨v, hv⟩ := exists_vals H d
  obtain ⟨c, hc⟩ := Coords.exists_of ha
  obtain ⟨b, e, hb⟩ := aggregate_val H s S hs m d a hc hg
  have hok : ∀ k ∈ ks, ∃ K, AggregatePublicKey.Rep k K := by
    intro k hk'
    obtain ⟨i, hi, rfl⟩ := List.getElem_of_mem hk'
    exact ⟨_, (List.forall₂_iff_get.1 hk).2 i hi (by rw [← hk.length_eq]; exact hi)⟩
  have h1 : ∀ j ∈ ks.map fun k => ((m, k) : Pair), Pair.Ok j := by
    intro j hj
    obtain ⟨k, hk', rfl⟩ := List.mem_map.1 hj
    exact ⟨hm, hok k hk'⟩
  obtain ⟨b', e', hb'⟩ := pairs_val H s S hs d (ks.map fun k => (m, k)) (by simpa using hne) h1 v fun j hj => hv j (h1 j hj)
  have h2 : (ks.map fun k => v (m, k)).prod = pairing g Ks.sum := by
    rw [← pairing_sum_right (mapsTo_order hg)]
    congr 1
    clear e' hb' h1 hok hne ha
    induction hk with
    | nil => rfl
    | @cons k K ks Ks hK _ ih =>
      rw [List.map_cons, List.map_cons, ih, pair_val (hv (m, k) ⟨hm, K, hK⟩) hK hg h0]
  have h := verdict_eq e e' hb hb' (by
    rw [List.map_map, show v ∘ (fun k => ((m, k) : Pair)) = fun k => v (m, k) from rfl, h2, hc.val_pairing ha h0])
  rw [verifyPairs, List.map_map, List.map_map] at h
  have e3 : List.map (Prod.fst ∘ fun k => ((m, k) : Pair)) ks = List.replicate ks.length m := by
    rw [show (Prod.fst ∘ fun k => ((m, k) : Pair)) = fun _ => m from rfl, List.map_const']
  have e4 : List.map (Prod.snd ∘ fun k => ((m, k) : Pair)) ks = ks := by
    rw [show (Prod.snd ∘ fun k => ((m, k) : Pair)) = id from rfl, List.map_id]
  rw [e3, e4] at h
  exact ⟨h.1.symm, h.2⟩

theorem verify_hashed_val (s : Signature) (S : G2) (hs : s.Aff S) (re im : List UInt8) (hr : 48 ≤ re.length)
    (hi : 48 ≤ im.length) (pk : PublicKey) (K : G1) (hk : pk.Aff K) : ∃ x y g b, Coords pk.point x y ∧
      MapsTo ⟨(beNat (re.take 48) : Fp), (beNat (im.take 48) : Fp)⟩ g ∧
      s.verify_hashed re im pk = some b ∧ (b = true ↔ ateVal x y g = ateVal g1x g1y S) := by
  obtain ⟨P, g, e, hP, hg, -⟩ := C26_map_to_g2 re im hr hi
  obtain ⟨x, y, hc, hx, hy⟩ := Coords.of_aff hk
  obtain ⟨b, e', hb⟩ := check_general_wp hs hP hx hy
  refine ⟨x, y, g, b, hc, hg, by rw [Signature.verify_hashed, e]; exact e', ?_⟩
  rw [hb, eq_comm]
  rfl

/-- **C100**, pre-hashed messages: `verify_hashed` gives the verdict of `verify` as soon as the first 48 bytes of its two
strings are congruent modulo `p` to the two hashes of the message, whatever follows them - for every signature point
and every key. -/
theorem C100_hashed (H : Keccak) (msg : List UInt8) (d : UInt64) (re im : List UInt8) (hr : 48 ≤ re.length)
    (hi : 48 ≤ im.length) (er : (beNat (re.take 48) : Fp) = beNat (H (hashInput msg d.toNat 1)).toList)
    (ei : (beNat (im.take 48) : Fp) = beNat (H (hashInput msg d.toNat 2)).toList) (s : Signature) (S : G2) (pk : PublicKey)
    (K : G1) (hs : s.Aff S) (hk : pk.Aff K) :
    s.verify_hashed re im pk = s.verify H msg d pk ∧ s.verify H msg d pk ≠ none := by
  obtain ⟨x, y, g, b, hc, hg, e, hb⟩ := verify_val H s S hs msg d pk K hk
  obtain ⟨x', y', g', b', hc', hg', e', hb'⟩ := verify_hashed_val s S hs re im hr hi pk K hk
  rw [er, ei] at hg'
  cases hg.unique hg'
  have h := verdict_eq e e' hb hb' (by rw [hc.val_eq hk.1 hk.1 hc'])
  exact ⟨h.1.symm, h.2⟩

/-- **C100**, pre-hashed messages: `new_hashed` then makes the signature that `new` makes. -/
theorem C100_hashed_sign (H : Keccak) (msg : List UInt8) (d : UInt64) (re im : List UInt8) (hr : 48 ≤ re.length)
    (hi : 48 ≤ im.length) (er : (beNat (re.take 48) : Fp) = beNat (H (hashInput msg d.toNat 1)).toList)
    (ei : (beNat (im.take 48) : Fp) = beNat (H (hashInput msg d.toNat 2)).toList) (sk : SecretKey) (n : Nat)
    (hn : sk.Rep n) :
    ∃ s s' g, Signature.new H msg d sk = some s ∧ Signature.new_hashed re im sk = some s' ∧ s.Rep g ∧ s'.Rep g ∧
      s.eq s' = some true := by
  obtain ⟨g, s, hg, e, hs⟩ := C04_sign H msg d sk n hn
  obtain ⟨g', s', hg', e', hs'⟩ := C04_sign_hashed re im hr hi sk n hn
  rw [er, ei] at hg'
  cases hg.unique hg'
  refine ⟨s, s', n • g, e, e', hs, hs', ?_⟩
  rw [C23_equality.2.2.1 s s' _ _ hs hs', decide_eq_true rfl]

/-- The strings that `verify` itself makes, followed by any bytes, meet the hypotheses. -/
example (H : Keccak) (msg tail : List UInt8) (d : UInt64) :
    (beNat ((List.replicate 16 0 ++ (H (hashInput msg d.toNat 1)).toList ++ tail).take 48) : Fp) =
      beNat (H (hashInput msg d.toNat 1)).toList := by
  rw [List.take_left' (by simp), beNat_append, show beNat (List.replicate 16 (0 : UInt8)) = 0 by decide]
  simp

/-- Two keys, one of them infinity and one outside the subgroup, and a signature outside the subgroup. -/
example : ∃ (s : AggregateSignature) (S : G2) (k k' : AggregatePublicKey), s.Rep S ∧ r • S ≠ 0 ∧
    List.Forall₂ AggregatePublicKey.Rep [k, k'] [0, Pt.mk 0 2 order3_on] ∧ Pair.Ok (List.replicate 32 7, k) ∧
    Pair.Ok (List.replicate 32 7, k') := by
  obtain ⟨s, hs⟩ := exists_aff2 (Pt.mk _ _ two_on)
  obtain ⟨k, hk⟩ := exists_aff1 0
  obtain ⟨k', hk'⟩ := exists_aff1 (Pt.mk 0 2 order3_on)
  exact ⟨⟨s⟩, _, ⟨k⟩, ⟨k'⟩, hs.1, two_order, .cons hk.1 (.cons hk'.1 .nil), ⟨by simp, _, hk.1⟩, ⟨by simp, _, hk'.1⟩⟩

/-- The condition on the message point in `C100_merge` is needed: with the message point infinity, a key of order `r`
and its negative contribute 1 each, but the sum of the two contributes 0. -/
theorem C100_merge_infinity (H : Keccak) (d : UInt64) (s : AggregateSignature) (hs : s.Rep 0) (m : List UInt8)
    (hm : m.length = 32) (hg : MapsTo (hashX (fun m => (H m).toList) m d.toNat) 0) (a b c : AggregatePublicKey) (A : G1)
    (ha : a.Rep A) (hA : r • A = 0) (h0 : A ≠ 0) (hb : b.Rep (-A)) (hc : c.Rep 0) :
    verifyPairs H s d [(m, a), (m, b)] = some true ∧ verifyPairs H s d [(m, c)] = some false := by
  obtain ⟨v, hv⟩ := exists_vals H d
  have oa : Pair.Ok (m, a) := ⟨hm, A, ha⟩
  have ob : Pair.Ok (m, b) := ⟨hm, _, hb⟩
  have oc : Pair.Ok (m, c) := ⟨hm, _, hc⟩
  have key : ∀ (k : AggregatePublicKey) (K : G1), k.Rep K → r • K = 0 → K ≠ 0 → v (m, k) = 1 := by
    intro k K hk hK hK0
    obtain ⟨x, y, g, hc, hg', e⟩ := hv (m, k) ⟨hm, K, hk⟩
    cases hg.unique hg'
    rw [e, hc.pairing hk hK (smul_zero _) fun _ => hK0, pairing_zero_left]
  have hva := key a A ha hA h0
  have hvb := key b _ hb (by rw [smul_neg, hA, neg_zero]) (neg_ne_zero.2 h0)
  have hvc : v (m, c) = 0 := by
    obtain ⟨x, y, g, hc', hg', e⟩ := hv (m, c) oc
    cases hg.unique hg'
    obtain ⟨K, hK, ⟨rfl, rfl, rfl⟩ | ⟨h, rfl⟩⟩ := hc'
    · rw [e, ateVal, hK.inf_coords.1, signedMiller_inf_zero, inv_zero, zero_pow (by decide +kernel)]
    · exact absurd (hK.inj hc) (Pt.mk_ne h)
  have h1 : ∀ j ∈ [(m, a), (m, b)], Pair.Ok j := by simpa using ⟨oa, ob⟩
  have h2 : ∀ j ∈ [(m, c)], Pair.Ok j := by simpa using oc
  obtain ⟨x, e, hx⟩ := pairs_val H s 0 hs d _ (by simp) h1 v fun j hj => hv j (h1 j hj)
  obtain ⟨y, e', hy⟩ := pairs_val H s 0 hs d _ (by simp) h2 v fun j hj => hv j (h2 j hj)
  rw [ateVal_gen, pairing_zero_left] at hx hy
  simp only [List.map_cons, List.map_nil, List.prod_cons, List.prod_nil, hva, hvb, hvc, mul_one] at hx hy
  rw [e, e', hx.2 trivial]
  refine ⟨rfl, ?_⟩
  cases y with
  | true => exact absurd (hy.1 rfl) zero_ne_one
  | false => rfl

end Props
