import Verif.Proof.B383.MpinKey
import Verif.Proof.Rng
import Verif.Spec.B383.MpinShare
/-!
# Property C95: shares of secrets and random scalars in M-Pin on BLS12-383
-/

set_option exponentiation.threshold 6000

namespace Props.B383

open Amcl.B383 Spec.B383
open Amcl (Wp BIG RAND)
open Spec (Pt toBE beNat beNat_toBE length_toBE sha256)

seal Spec.B383.finalExp Spec.toBE

/-- **C95**, `recombine_g1` on any two strings of at least 97 bytes: `INVALID_POINT` if one of them stands for no finite point,
and else some string, the uncompressed one of the sum if that is finite with an abscissa other than 0. -/
theorem C95_recombine_g1 (a b : List UInt8) (P Q : G1) (ha : 97 ≤ a.length) (hb : 97 ≤ b.length) (hP : Reads1 a P)
    (hQ : Reads1 b Q) :
    ((P = 0 ∨ Q = 0) → mpin.recombine_g1 a b = some (.error (-14))) ∧
    (P ≠ 0 → Q ≠ 0 → ∃ t, mpin.recombine_g1 a b = some (.ok t)) ∧
    ∀ x y h, P ≠ 0 → Q ≠ 0 → P + Q = Pt.mk x y h → x ≠ 0 → mpin.recombine_g1 a b = some (.ok (octets x y)) := by
  have key : ∀ {b : List UInt8} {P : G1}, 97 ≤ b.length → Reads1 b P → ∃ R, ECP.frombytes b = some R ∧ R.OkY 2 P := by
    intro b P hb hP
    obtain ⟨R, g, e, hR, hg⟩ := C87_g1_decode b (by omega) (fun _ _ => hb)
    refine ⟨R, e, ?_⟩
    have : g = P := by
      rcases Pt.cases P with rfl | ⟨x, y, h, rfl⟩
      · rcases Pt.cases g with rfl | ⟨x, y, h, rfl⟩
        · rfl
        · exact ((hP x y h).2 ((hg x y h).1 rfl)).symm
      · exact (hg x y h).2 ((hP x y h).1 rfl)
    rw [← this]
    exact hR
  obtain ⟨R, eR, hR⟩ := key ha hP
  obtain ⟨S, eS, hS⟩ := key hb hQ
  obtain ⟨c, ec, hc⟩ := ECP.is_infinity_wpY hR (by norm_num)
  obtain ⟨d, ed, hd⟩ := ECP.is_infinity_wpY hS (by norm_num)
  have e : mpin.recombine_g1 a b = if c || d then some (.error (-14)) else do
      let P ← R.add S
      let (b, _) ← P.tobytes
      return .ok b := by
    unfold mpin.recombine_g1
    rw [eR, Option.bind_eq_bind, Option.bind_some, eS, Option.bind_eq_bind, Option.bind_some, ec, Option.bind_eq_bind,
      Option.bind_some, ed, Option.bind_some]
    rfl
  rw [e]
  refine ⟨?_, ?_, ?_⟩
  · intro h0
    rw [if_pos]
    rw [Bool.or_eq_true, hc, hd]
    exact h0
  · intro p0 q0
    rw [if_neg (by rw [Bool.or_eq_true, hc, hd]; tauto)]
    obtain ⟨T, eT, hT⟩ := ECP.add_wpY (hR.mono (by norm_num)) (hS.mono (by norm_num))
    rw [eT, Option.bind_eq_bind, Option.bind_some]
    rcases Pt.cases (P + Q) with h | ⟨x, y, h, h'⟩
    · rw [h] at hT
      obtain ⟨t, et, -⟩ := ECP.tobytes_inf hT.okY (by norm_num)
      exact ⟨t.1, by rw [et]; rfl⟩
    · rw [h'] at hT
      obtain ⟨t, et, -⟩ := ECP.tobytes_wpY hT.okY (by norm_num)
      exact ⟨t.1, by rw [et]; rfl⟩
  · intro x y h p0 q0 hs hx
    rw [if_neg (by rw [Bool.or_eq_true, hc, hd]; tauto)]
    suffices Wp (do
      let P ← R.add S
      let (b, _) ← P.tobytes
      return Except.ok b : Option (Except Int (List UInt8))) fun t => t = .ok (octets x y) by
      obtain ⟨t, et, rfl⟩ := this
      exact et
    refine Wp.bind (ECP.add_wpY (hR.mono (by norm_num)) (hS.mono (by norm_num))) fun T hT => ?_
    rw [hs] at hT
    refine Wp.bind (ECP.tobytes_wpY hT.okY (by norm_num)) ?_
    rintro ⟨t, U⟩ ⟨ht, -⟩
    dsimp only at ht ⊢
    rw [ht, ECP.xOut, if_neg (fun h => hx h.1)]
    exact Wp.ret rfl

/-- **C95**, `recombine_g2` on any two strings of at least 192 bytes: `INVALID_POINT` if one of them stands for no finite point,
and else a string, one that stands for the sum if that is finite. -/
theorem C95_recombine_g2 (a b : List UInt8) (P Q : G2) (ha : 192 ≤ a.length) (hb : 192 ≤ b.length) (hP : Reads2 a P)
    (hQ : Reads2 b Q) :
    ((P = 0 ∨ Q = 0) → mpin.recombine_g2 a b = some (.error (-14))) ∧
    (P ≠ 0 → Q ≠ 0 → ∃ t, mpin.recombine_g2 a b = some (.ok t) ∧ (P + Q ≠ 0 → Str2 t (P + Q))) := by
  have key : ∀ {b : List UInt8} {P : G2}, 192 ≤ b.length → Reads2 b P → ∃ R, ECP2.frombytes b = some R ∧ R.Ok 2 P := by
    intro b P hb hP
    obtain ⟨R, e, h1, h2⟩ := ECP2.frombytes_wp hb
    refine ⟨R, e, ?_⟩
    by_cases h : block2 b 96 ^ 2 = block2 b 0 ^ 3 + b2
    · rw [(hP _ _ h).2 ⟨rfl, rfl⟩]
      exact (h1 h).1
    · rcases Pt.cases P with rfl | ⟨x, y, h', rfl⟩
      · exact h2 h
      · obtain ⟨rfl, rfl⟩ := (hP x y h').1 rfl
        exact absurd h' h
  obtain ⟨R, eR, hR⟩ := key ha hP
  obtain ⟨S, eS, hS⟩ := key hb hQ
  obtain ⟨c, ec, hc⟩ := ECP2.is_infinity_wp hR (by norm_num)
  obtain ⟨d, ed, hd⟩ := ECP2.is_infinity_wp hS (by norm_num)
  have e : mpin.recombine_g2 a b = if c || d then some (.error (-14)) else do
      let P ← R.add S
      return .ok (← P.tobytes) := by
    unfold mpin.recombine_g2
    rw [eR, Option.bind_eq_bind, Option.bind_some, eS, Option.bind_eq_bind, Option.bind_some, ec, Option.bind_eq_bind,
      Option.bind_some, ed, Option.bind_some]
    rfl
  rw [e]
  constructor
  · intro h0
    rw [if_pos]
    rw [Bool.or_eq_true, hc, hd]
    exact h0
  · intro p0 q0
    rw [if_neg (by rw [Bool.or_eq_true, hc, hd]; tauto)]
    obtain ⟨T, eT, hT⟩ := ECP2.add_wp (hR.mono (by norm_num)) (hS.mono (by norm_num))
    rw [eT, Option.bind_eq_bind, Option.bind_some]
    by_cases hs : P + Q = 0
    · rw [hs] at hT
      obtain ⟨t, et, -⟩ := ECP2.tobytes_inf hT (by norm_num)
      exact ⟨t, by rw [et]; rfl, fun h => absurd hs h⟩
    · obtain ⟨t, et, ht⟩ := ECP2.tobytes_str (hT.mono (by norm_num)) hs
      exact ⟨t, by rw [et]; rfl, fun _ => ht⟩

theorem Str1.reads {b : List UInt8} {g : G1} (h : Str1 b g) : Reads1 b g := by
  have hl := h.length
  obtain ⟨R, e, hR, -⟩ := ECP.frombytes_str h
  obtain ⟨R', g', e', hR', hg⟩ := C87_g1_decode b (by omega) (fun _ _ => hl.ge)
  obtain rfl : R = R' := Option.some.inj (e.symm.trans e')
  obtain ⟨x, y, hy, rfl, rfl⟩ := h
  have : g' = Pt.mk x y hy := (hg x y hy).2 (Or.inl List.prefix_rfl)
  rw [this] at hg
  exact hg

theorem Str2.reads {b : List UInt8} {g : G2} (h : Str2 b g) : 192 ≤ b.length ∧ Reads2 b g := by
  obtain ⟨x, y, hy, rfl, hl, rfl, rfl⟩ := h
  refine ⟨hl.ge, fun x' y' h' => ?_⟩
  rw [Pt.mk_inj]
  exact ⟨fun h => ⟨h.1.symm, h.2.symm⟩, fun h => ⟨h.1.symm, h.2.symm⟩⟩

/-- **C95**, two authorities with the master secrets `s₁` and `s₂`: the sum of the client secrets they give out is, byte for byte,
the client secret for the master secret `s₁ + s₂`. -/
theorem C95_client_shares (s₁ s₂ s cid : List UInt8) (l₁ : s₁.length = 48) (l₂ : s₂.length = 48) (l : s.length = 48)
    (hc : cid.length = 48) (h₁ : ¬ r ∣ beNat s₁) (h₂ : ¬ r ∣ beNat s₂) (h : ¬ r ∣ beNat s)
    (hs : beNat s ≡ beNat s₁ + beNat s₂ [MOD r]) :
    ∃ c₁ c₂ c, mpin.get_client_secret s₁ cid = some (.ok c₁) ∧ mpin.get_client_secret s₂ cid = some (.ok c₂) ∧
      mpin.recombine_g1 c₁ c₂ = some (.ok c) ∧ mpin.get_client_secret s cid = some (.ok c) := by
  obtain ⟨A, hA⟩ := exists_bytesPt cid hc
  obtain ⟨tA, nA⟩ := hA.torsion
  obtain ⟨_, e₁, c₁, rfl, k₁⟩ := mpin.get_client_secret_wp l₁ h₁ hc hA
  obtain ⟨_, e₂, c₂, rfl, k₂⟩ := mpin.get_client_secret_wp l₂ h₂ hc hA
  obtain ⟨_, e, c, rfl, k⟩ := mpin.get_client_secret_wp l h hc hA
  have es : beNat s₁ • A + beNat s₂ • A = beNat s • A := by
    rw [← add_smul, ← mpin.mod_smul tA (beNat s), hs, mpin.mod_smul tA]
  refine ⟨c₁, c₂, c, e₁, e₂, ?_, e⟩
  have n₁ := k₁.ne
  have n₂ := k₂.ne
  have := k₁.length
  have := k₂.length
  obtain ⟨x, y, hy, eg, rfl⟩ := k
  refine (C95_recombine_g1 c₁ c₂ _ _ (by omega) (by omega) (Str1.reads k₁) (Str1.reads k₂)).2.2 x y hy n₁ n₂ (by rw [es, eg]) ?_
  exact Pt.x_ne_of_order (h := hy) (by rw [← eg]; exact torsion_smul tA _)

/-- **C95**, the same for the secrets of the server; here the two strings stand for the same point. -/
theorem C95_server_shares (s₁ s₂ s : List UInt8) (l₁ : s₁.length = 48) (l₂ : s₂.length = 48) (l : s.length = 48)
    (h₁ : ¬ r ∣ beNat s₁) (h₂ : ¬ r ∣ beNat s₂) (h : ¬ r ∣ beNat s)
    (hs : beNat s ≡ beNat s₁ + beNat s₂ [MOD r]) :
    ∃ t₁ t₂ t t', mpin.get_server_secret s₁ = some t₁ ∧ mpin.get_server_secret s₂ = some t₂ ∧
      mpin.recombine_g2 t₁ t₂ = some (.ok t) ∧ mpin.get_server_secret s = some t' ∧
      Str2 t (beNat s • gen2) ∧ Str2 t' (beNat s • gen2) := by
  obtain ⟨t₁, e₁, k₁⟩ := mpin.get_server_secret_wp l₁ h₁
  obtain ⟨t₂, e₂, k₂⟩ := mpin.get_server_secret_wp l₂ h₂
  obtain ⟨t', e, k⟩ := mpin.get_server_secret_wp l h
  have es : beNat s₁ • gen2 + beNat s₂ • gen2 = beNat s • gen2 := by
    rw [← add_smul, ← addOrderOf_gen2] at *
    exact (nsmul_eq_nsmul_iff_modEq.2 hs).symm
  obtain ⟨t, et, kt⟩ := (C95_recombine_g2 t₁ t₂ _ _ (Str2.reads k₁).1 (Str2.reads k₂).1 (Str2.reads k₁).2 (Str2.reads k₂).2).2
    k₁.ne k₂.ne
  rw [es] at kt
  have kt := kt k.ne
  exact ⟨t₁, t₂, t, t', e₁, e₂, et, e, kt, k⟩

theorem size_r : Nat.size r = 257 := by
  refine le_antisymm (Nat.size_le.2 (by norm_num [r])) (not_lt.1 fun h => ?_)
  have := Nat.size_le.1 (show Nat.size r ≤ 256 by omega)
  norm_num [r] at this

theorem pick_some {e : List UInt8} {i : Nat} {rng : RAND} (hg : RAND.Gen (sha256 e) i rng) (x : List UInt8) :
    ∃ sx rng', mpin.random_generate rng = some (toBE 48 (Spec.Rng.numberAt e i 514 % r), rng') ∧
      RAND.Gen (sha256 e) (i + 65) rng' ∧
      mpin.pick (some rng) x = some (sx, toBE 48 (Spec.Rng.numberAt e i 514 % r), some rng') ∧
      mpin.pick none (toBE 48 (Spec.Rng.numberAt e i 514 % r)) = some (sx, toBE 48 (Spec.Rng.numberAt e i 514 % r), none) := by
  have hr : r < 2 ^ 384 := by norm_num [r]
  obtain ⟨⟨sx, rng'⟩, e1, nx, vx, hg'⟩ := BIG.randomnum_at hg order_nrm (by rw [order_val]; norm_num [r])
    (by rw [order_val]; norm_num [r])
  dsimp only at nx vx hg'
  rw [order_val, Int.toNat_natCast, size_r] at vx hg'
  have vx' : sx.val = ((Spec.Rng.numberAt e i 514 % r : Nat) : Int) := by rw [vx]; rfl
  have hlt : Spec.Rng.numberAt e i 514 % r < r := Nat.mod_lt _ (by norm_num [r])
  have eb : sx.tobytes = some (toBE 48 (Spec.Rng.numberAt e i 514 % r)) := by
    rw [BIG.tobytes_eq ((nx.lim58 (by omega) (by omega)).mono (by norm_num)) (by omega), vx', Int.toNat_natCast]
  refine ⟨sx, rng', ?_, hg', ?_, ?_⟩
  · unfold mpin.random_generate
    rw [e1, Option.bind_eq_bind, Option.bind_some]
    dsimp only
    rw [eb]
    rfl
  · unfold mpin.pick
    dsimp only
    rw [e1, Option.bind_eq_bind, Option.bind_some]
    dsimp only
    rw [eb]
    rfl
  · obtain ⟨a, ea, na, va, -⟩ := scalar_wp (length_toBE 48 (Spec.Rng.numberAt e i 514 % r))
    rw [beNat_toBE, Nat.mod_eq_of_lt (by omega)] at va
    unfold mpin.pick
    dsimp only
    rw [ea, na.ext nx (by rw [va, vx'])]
    rfl

/-- **C95**, `random_generate` with a generator seeded with `e` of which `i` bytes have been used: 514 bits of the generator,
reduced modulo `r`. -/
theorem C95_random (e : List UInt8) (i : Nat) (rng : RAND) (hg : RAND.Gen (sha256 e) i rng) :
    ∃ rng', mpin.random_generate rng = some (toBE 48 (Spec.Rng.numberAt e i 514 % r), rng') ∧ RAND.Gen (sha256 e) (i + 65) rng' := by
  obtain ⟨_, rng', h1, h2, -⟩ := pick_some hg []
  exact ⟨rng', h1, h2⟩

/-- **C95**, `get_g1_multiple` with a generator is `random_generate` followed by `get_g1_multiple` without one. -/
theorem C95_multiple (e : List UInt8) (i : Nat) (rng : RAND) (hg : RAND.Gen (sha256 e) i rng) (typ : Nat) (x g : List UInt8) :
    ∃ s rng', mpin.random_generate rng = some (s, rng') ∧ mpin.get_g1_multiple (some rng) typ x g =
      (mpin.get_g1_multiple none typ s g).map (Except.map fun t => (t.1, t.2.1, some rng')) := by
  obtain ⟨sx, rng', h1, -, h2, h3⟩ := pick_some hg x
  refine ⟨_, rng', h1, ?_⟩
  unfold mpin.get_g1_multiple
  rw [h2, h3, Option.bind_eq_bind, Option.bind_some, Option.bind_eq_bind, Option.bind_some]
  dsimp only
  cases mpin.base typ g with
  | none => rfl
  | some P =>
    rw [Option.bind_eq_bind, Option.bind_some, Option.bind_eq_bind, Option.bind_some]
    cases P with
    | none => rfl
    | some P =>
      dsimp only
      cases pair.g1mul P sx with
      | none => rfl
      | some R =>
        rw [Option.bind_some, Option.bind_some]
        cases R.tobytes <;> rfl

/-- **C95**, `client_1` with a generator is `random_generate` followed by `client_1` without one. -/
theorem C95_client_1 (e : List UInt8) (i : Nat) (rng : RAND) (hg : RAND.Gen (sha256 e) i rng) (sha date : Nat)
    (id x : List UInt8) (pin : Nat) (token : List UInt8) (xid xcid : Bool) (permit : Option (List UInt8)) :
    ∃ s rng', mpin.random_generate rng = some (s, rng') ∧ mpin.client_1 sha date id (some rng) x pin token xid xcid permit =
      (mpin.client_1 sha date id none s pin token xid xcid permit).map
        (Except.map fun c => (⟨c.x, c.sec, c.xid, c.xcid, some rng'⟩ : mpin.Client1)) := by
  obtain ⟨sx, rng', h1, -, h2, h3⟩ := pick_some hg x
  refine ⟨_, rng', h1, ?_⟩
  unfold mpin.client_1
  rw [h2, h3, Option.bind_eq_bind, Option.bind_some, Option.bind_eq_bind, Option.bind_some]
  dsimp only
  rw [Option.map_eq_bind]
  simp only [Option.bind_eq_bind, Option.bind_assoc]
  congr 1; funext h
  congr 1; funext P
  congr 1; funext T
  congr 1; funext b
  split
  · rfl
  · simp only [Option.bind_assoc]
    congr 1; funext W
    congr 1; funext T
    have key : ∀ m : Option (Except Int (ECP × Option (List UInt8) × Option (List UInt8))),
        (m.bind fun a => match a with
          | .error c => pure (.error c)
          | .ok (T, b, c) => T.tobytes.bind fun w => pure (.ok (⟨toBE 48 (Spec.Rng.numberAt e i 514 % r), w.1, b, c, some rng'⟩ : mpin.Client1))) =
        (m.bind fun a => match a with
          | .error c => pure (.error c)
          | .ok (T, b, c) => T.tobytes.bind fun w => pure (.ok (⟨toBE 48 (Spec.Rng.numberAt e i 514 % r), w.1, b, c, none⟩ : mpin.Client1))).bind
          (some ∘ Except.map fun c => (⟨c.x, c.sec, c.xid, c.xcid, some rng'⟩ : mpin.Client1)) := by
      intro m
      rw [Option.bind_assoc]
      congr 1; funext a
      rcases a with c | ⟨T, b, c⟩
      · rfl
      · dsimp only
        rw [Option.bind_assoc]
        rfl
    split
    · exact key _
    · exact key _

/-- The theorems about shares apply: master secrets 5 and 7, and an identity of 48 zero bytes. -/
example : ∃ c₁ c₂ c, mpin.get_client_secret (toBE 48 5) (List.replicate 48 0) = some (.ok c₁) ∧
    mpin.get_client_secret (toBE 48 7) (List.replicate 48 0) = some (.ok c₂) ∧ mpin.recombine_g1 c₁ c₂ = some (.ok c) ∧
    mpin.get_client_secret (toBE 48 12) (List.replicate 48 0) = some (.ok c) :=
  C95_client_shares _ _ _ _ (length_toBE _ _) (length_toBE _ _) (length_toBE _ _) (by simp) (by decide +kernel)
    (by decide +kernel) (by decide +kernel) (by decide +kernel)

example : ∃ t₁ t₂ t t', mpin.get_server_secret (toBE 48 5) = some t₁ ∧ mpin.get_server_secret (toBE 48 7) = some t₂ ∧
    mpin.recombine_g2 t₁ t₂ = some (.ok t) ∧ mpin.get_server_secret (toBE 48 12) = some t' ∧
    Str2 t (beNat (toBE 48 12) • gen2) ∧ Str2 t' (beNat (toBE 48 12) • gen2) :=
  C95_server_shares _ _ _ (length_toBE _ _) (length_toBE _ _) (length_toBE _ _) (by decide +kernel) (by decide +kernel)
    (by decide +kernel) (by decide +kernel)

/-- A string of 97 zero bytes stands for infinity and is refused. -/
example : mpin.recombine_g1 (List.replicate 97 0) (List.replicate 97 0) = some (.error (-14)) := by
  have h : Reads1 (List.replicate 97 0) 0 := by
    intro x y h
    refine ⟨fun e => absurd e.symm (Pt.mk_ne h), ?_⟩
    have hb : ∀ n : Nat, n % 2 = 0 ∨ n % 2 = 1 := fun n => by omega
    rintro (h' | h')
    · have := h'.head (by simp [octets])
      simp [octets] at this
    · have := h'.head (by simp [octetsC])
      rcases hb y.val with e | e <;> simp [octetsC, e] at this
  exact (C95_recombine_g1 _ _ 0 0 (by simp) (by simp) h h).1 (Or.inl rfl)

/-- A seeded generator is one to which the theorems about random numbers apply. -/
example : ∃ rng s rng', RAND.Gen (sha256 [1]) 0 rng ∧ mpin.random_generate rng = some (s, rng') ∧ s.length = 48 := by
  obtain ⟨rng, -, hg⟩ := RAND.seed_wp RAND.new [1] (by simp) (by norm_num)
  obtain ⟨rng', h, -⟩ := C95_random [1] 0 rng hg
  exact ⟨rng, _, rng', hg, h, length_toBE _ _⟩

end Props.B383
