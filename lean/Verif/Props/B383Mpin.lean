import Verif.Proof.B383.Mpin
/-!
# Property C90: M-Pin authentication on BLS12-383
-/

set_option exponentiation.threshold 6000

namespace Props.B383

open Amcl.B383 Spec.B383
open Amcl (Wp BIG)
open Spec (Pt toBE beNat beNat_toBE length_toBE)

seal Spec.B383.finalExp Spec.toBE

theorem pairing_server (s : Nat) (X V : G1) : pairing gen2 V * pairing (s • gen2) X = pairing gen2 (V + s • X) := by
  rw [pairing_nsmul_left r_gen2, ← pairing_nsmul_right r_gen2, pairing_add_right r_gen2]

theorem pairing_zsmul_right (n : Int) (P : G1) : pairing gen2 (n • P) = pairing gen2 P ^ n := by
  rcases Int.eq_nat_or_neg n with ⟨m, rfl | rfl⟩
  · rw [natCast_zsmul, zpow_natCast, pairing_nsmul_right r_gen2]
  · have h : pairing gen2 (-(m • P)) * pairing gen2 (m • P) = 1 := by
      rw [← pairing_add_right r_gen2, neg_add_cancel, pairing_zero_right]
    rw [neg_smul, natCast_zsmul, zpow_neg, zpow_natCast, ← pairing_nsmul_right r_gen2]
    exact eq_inv_of_mul_eq_one_left h

/-- Points whose pairing with the generator is 1: those that the cofactor kills. -/
theorem pairing_gen2_eq_one (Z : G1) : pairing gen2 Z = 1 ↔ h1 • Z = 0 := by
  have ht : r • h1 • Z = 0 := by
    rw [smul_smul, mul_comm, ← card_G1.2]
    have := card_G1.1
    exact card_nsmul_eq_zero'
  constructor
  · intro h
    have h2 : pairing gen2 (h1 • Z) = 1 := by rw [pairing_nsmul_right r_gen2, h, one_pow]
    rcases (pairing_eq_one r_gen2 ht).1 h2 with h3 | h3
    · exact absurd h3 gen2_ne
    · exact h3
  · intro h
    have h2 : pairing gen2 Z ^ h1 = 1 := by rw [← pairing_nsmul_right r_gen2, h, pairing_zero_right]
    have h3 := pairing_pow_r r_gen2 Z
    have hc : Nat.Coprime h1 r := by decide +kernel
    have := pow_gcd_eq_one.2 ⟨h2, h3⟩
    rwa [hc, pow_one] at this

/-- **C90**, what the server accepts. Let `hid` (`htid` if there is a date) be the string of a point `A` of order
dividing `r`, the server's secret a string of `s G2`. For any strings of finite
points `R` (`xid`, or `xcid` if there is a date) and `V` of the curve, in the group of order `r` or not, `server_2` ends
without panic in status 0 or `BAD_PIN`, and it is 0 if and only if the cofactor kills `V + s (y A + R)`. -/
theorem C90_accepts (date : Nat) (hid y sst msec rb ab : List UInt8) (htid xid xcid : Option (List UInt8)) (A R V : G1) (s : Nat)
    (hR : Str1 rb R) (hA : Str1 ab A) (tA : r • A = 0) (hV : Str1 msec V) (hS : Str2 sst (s • gen2))
    (eR : (if date = 0 then xid else xcid) = some rb) (eA : (if date = 0 then some hid else htid) = some ab)
    (hy : y.length = 48) :
    ∃ c, mpin.server_2 date hid htid y sst xid xcid msec false false = some (c, none) ∧ (c = 0 ∨ c = mpin.BAD_PIN) ∧
      (c = 0 ↔ h1 • (V + s • (beNat y • A + R)) = 0) := by
  have e : ∀ {α : Type} (a b : α), (if date ≠ 0 then a else b) = if date = 0 then b else a := fun a b => by
    by_cases h : date = 0
    · rw [if_pos h, if_neg (by simp [h])]
    · rw [if_neg h, if_pos h]
  obtain ⟨a, ea, h⟩ := mpin.server_2_wp (date := date) (hid := hid) (htid := htid) (xid := xid) (xcid := xcid) false false
    (by rw [e]; exact eR) hR (by rw [e]; exact eA) hA tA hy hS (by rw [smul_comm, r_gen2, smul_zero]) hV
    (fun _ _ _ h => by simp at h)
  rw [pairing_server] at h
  rcases h with ⟨h1, rfl⟩ | ⟨h1, h2⟩
  · exact ⟨0, ea, Or.inl rfl, fun _ => (pairing_gen2_eq_one _).1 h1, fun _ => rfl⟩
  · obtain ⟨c, o⟩ := a
    have e1 : c = mpin.BAD_PIN := h2.status
    have e2 : o = none := h2.silent (Or.inl rfl)
    subst e1 e2
    exact ⟨_, ea, Or.inr rfl, fun h => by simp [mpin.BAD_PIN] at h, fun h => absurd ((pairing_gen2_eq_one _).2 h) h1⟩

/-- **C90**, no test of the order: whether `server_2` accepts does not change if points of order dividing the cofactor
are added to what the client sends. -/
theorem C90_malleable (date : Nat) (hid y sst msec msec' rb rb' ab : List UInt8) (htid xid xcid xid' xcid' : Option (List UInt8))
    (A R V t t' : G1) (s : Nat) (ht : h1 • t = 0) (ht' : h1 • t' = 0)
    (hR : Str1 rb R) (hR' : Str1 rb' (R + t')) (hA : Str1 ab A) (tA : r • A = 0) (hV : Str1 msec V) (hV' : Str1 msec' (V + t))
    (hS : Str2 sst (s • gen2)) (eR : (if date = 0 then xid else xcid) = some rb)
    (eR' : (if date = 0 then xid' else xcid') = some rb') (eA : (if date = 0 then some hid else htid) = some ab)
    (hy : y.length = 48) :
    ∃ c, mpin.server_2 date hid htid y sst xid xcid msec false false = some c ∧
      mpin.server_2 date hid htid y sst xid' xcid' msec' false false = some c := by
  obtain ⟨c, e, h1, h2⟩ := C90_accepts date hid y sst msec rb ab htid xid xcid A R V s hR hA tA hV hS eR eA hy
  obtain ⟨c', e', h1', h2'⟩ := C90_accepts date hid y sst msec' rb' ab htid xid' xcid' A (R + t') (V + t) s hR' hA tA hV' hS eR' eA hy
  have k : Spec.B383.h1 • (V + t + s • (beNat y • A + (R + t'))) = Spec.B383.h1 • (V + s • (beNat y • A + R)) := by
    have : V + t + s • (beNat y • A + (R + t')) = V + s • (beNat y • A + R) + (t + s • t') := by
      rw [← add_assoc (beNat y • A), smul_add s (beNat y • A + R)]; abel
    rw [this, smul_add, smul_add Spec.B383.h1 t, ht, smul_comm, ht', smul_zero, add_zero, add_zero]
  rw [k, ← h2] at h2'
  have : c = c' := by
    rcases h1 with rfl | rfl <;> rcases h1' with rfl | rfl <;> simp_all [mpin.BAD_PIN]
  subst this
  exact ⟨_, e, e'⟩

theorem run_value {A : G1} {s x y a b : Nat} (B : G1) :
    -((x + y) • (s • A - a • A + b • A + s • B)) + s • (y • (A + B) + x • (A + B)) =
      ((a : Int) - b) • (y • A + x • A) := by
  module

/-- What the server sees after an honest run: acceptance exactly if the PINs agree. -/
theorem run_outcome {A : G1} (tA : r • A = 0) (nA : A ≠ 0) {x y a b : Nat} (hxy : ¬ r ∣ x + y) (ha : a < 10000) (hb : b < 10000) :
    pairing gen2 (((a : Int) - b) • (y • A + x • A)) = 1 ↔ a = b := by
  have tX : r • ((x + y) • A) = 0 := torsion_smul tA (x + y)
  have nX : (x + y) • A ≠ 0 := Amcl.B383.smul_ne (n := x + y) tA nA hxy
  rw [← add_smul, add_comm y x]
  have hr : 10000 < r := by decide +kernel
  have key : ∀ c : Nat, c < 10000 → pairing gen2 (c • (x + y) • A) = 1 → c = 0 := by
    intro c hc h
    rcases (pairing_eq_one r_gen2 (torsion_smul tX c)).1 h with h | h
    · exact absurd h gen2_ne
    · by_contra h0
      exact Amcl.B383.smul_ne tX nX (fun hd => h0 (Nat.eq_zero_of_dvd_of_lt hd (by omega))) h
  constructor
  · intro h
    rcases le_total b a with hba | hba
    · obtain ⟨c, rfl⟩ := Nat.exists_eq_add_of_le hba
      rw [show ((b + c : Nat) : Int) - b = (c : Nat) by push_cast; ring, natCast_zsmul] at h
      have := key c (by omega) h
      omega
    · obtain ⟨c, rfl⟩ := Nat.exists_eq_add_of_le hba
      rw [pairing_zsmul_right, show (a : Int) - ((a + c : Nat) : Int) = -(c : Nat) by push_cast; ring, zpow_neg, inv_eq_one, zpow_natCast, ← pairing_nsmul_right r_gen2] at h
      have := key c (by omega) h
      omega
  · rintro rfl
    rw [sub_self, zero_smul, pairing_zero_right]

/-- The condition on the strings of a failed run. -/
theorem run_failure {A : G1} {x y a b : Nat} {e f : List UInt8}
    (he : block12 e = pairing gen2 (((a : Int) - b) • (y • A + x • A))) (hf : block12 f = pairing gen2 (y • A + x • A)) :
    block12 e = block12 f ^ ((a : Int) - b) := by
  rw [he, hf, pairing_zsmul_right]

theorem zsmul_ne {A : G1} (tA : r • A = 0) (nA : A ≠ 0) {n : Int} (hn : ¬ (r : Int) ∣ n) : n • A ≠ 0 := by
  have := Fact.mk Primes.prime_r
  rwa [← addOrderOf_eq_prime tA nA, addOrderOf_dvd_iff_zsmul_eq_zero] at hn

/-- **C90**, a run without date. An identity `id` is hashed, the trusted authority with master secret `s` gives the
server and the client their secrets, the client takes the PIN `pin` out of its secret. Then the client, with the PIN
`pin'` and a random `x`, answers the challenge `y`. Nothing panics and no step fails; the server accepts if the two PINs
agree modulo 10000. If not it refuses, and the first of the two strings it hands out is the power of the second one with
the difference of the PINs as exponent. The conditions exclude the cases in which a point at infinity would have to be
encoded. -/
theorem C90_run (sha : Nat) (id s x y : List UInt8) (pin pin' : Nat) (A : G1) (hid : id.length + 21 ≤ 2 ^ 29)
    (hA : BytesPt h1 (mpinHash sha 0 id) A)
    (ls : s.length = 48) (lx : x.length = 48) (ly : y.length = 48)
    (hp : pin < 2 ^ 31) (hp' : pin' < 2 ^ 31)
    (hs : ¬ r ∣ beNat s) (hx : ¬ r ∣ beNat x) (hxy : ¬ r ∣ beNat x + beNat y)
    (ht : ¬ (r : Int) ∣ (beNat s : Int) - (pin % 10000 : Nat))
    (hu : ¬ (r : Int) ∣ (beNat s : Int) - (pin % 10000 : Nat) + (pin' % 10000 : Nat)) :
    ∃ flag hcid sst cst token sec xid hid sec' out,
      mpin.hash_id sha id (List.replicate 48 0) = some (flag, hcid) ∧
      mpin.get_server_secret s = some sst ∧
      mpin.get_client_secret s hcid = some (.ok cst) ∧
      mpin.extract_pin sha id pin cst = some (.ok token) ∧
      mpin.client_1 sha 0 id none x pin' token true false none = some (.ok ⟨x, sec, some xid, none, none⟩) ∧
      mpin.server_1 sha 0 id false = some (hid, none) ∧
      mpin.client_2 x y sec = some (.ok sec') ∧
      mpin.server_2 0 hid none y sst (some xid) none sec' true true = some out ∧
      (pin % 10000 = pin' % 10000 → out = (0, none)) ∧
      (pin % 10000 ≠ pin' % 10000 → ∃ e f, out = (mpin.BAD_PIN, some (e, f)) ∧ e.length = 576 ∧ f.length = 576 ∧
        block12 e = block12 f ^ (((pin % 10000 : Nat) : Int) - (pin' % 10000 : Nat)) ∧ block12 f ≠ 1 ∧ block12 f ^ r = 1) := by
  obtain ⟨tA, nA⟩ := hA.torsion
  set a := pin % 10000
  set b := pin' % 10000
  have ha : a < 10000 := Nat.mod_lt _ (by norm_num)
  have hb : b < 10000 := Nat.mod_lt _ (by norm_num)
  obtain ⟨hc, e1, rfl, hcl⟩ := mpin.hashed_wp sha (n := 0) (by norm_num) hid
  unfold mpin.hashed at e1
  obtain ⟨⟨fl, hc⟩, e1, e1'⟩ := Option.bind_eq_some_iff.1 e1
  have e1'' : hc = mpinHash sha 0 id := by simpa using e1'
  subst e1''
  obtain ⟨sst, e2, hS⟩ := mpin.get_server_secret_wp ls hs
  obtain ⟨_, e3, cst, rfl, hC⟩ := mpin.get_client_secret_wp ls hs hcl hA
  have nT : beNat s • A - a • A ≠ 0 := by
    have := zsmul_ne tA nA ht
    rwa [sub_smul, natCast_zsmul, natCast_zsmul] at this
  obtain ⟨_, e4, token, rfl, hT⟩ := mpin.extract_factor_wp sha (n := mpin.PBLEN) hid hA hC (torsion_smul tA _) (by decide)
    (lt_trans ha (by decide)) nT
  have tT := torsion_sub (torsion_smul tA (beNat s)) (torsion_smul tA a)
  have nU : beNat s • A - a • A + b • A ≠ 0 := by
    have := zsmul_ne tA nA hu
    rwa [add_smul, sub_smul, natCast_zsmul, natCast_zsmul, natCast_zsmul] at this
  obtain ⟨_, e5, sec, xid, rfl, hU, hR⟩ := mpin.client_1_plain_wp sha false none hid hA lx hx hT tT hp' nU
  obtain ⟨⟨hd, _⟩, e6, hH, hn⟩ := mpin.server_1_plain_wp sha false hid hA
  dsimp only at hH hn
  subst hn
  obtain ⟨_, e7, sec', rfl, hV⟩ := mpin.client_2_wp lx ly hU (torsion_add tT (torsion_smul tA b)) hxy
  obtain ⟨out, e8, h⟩ := mpin.server_2_wp (date := 0) (hid := hd) (htid := none) (xid := some xid) (xcid := none) true true
    (by simp) hR (by simp) hH tA ly hS (by rw [smul_comm, r_gen2, smul_zero]) hV (fun h => absurd rfl h)
  have ev := run_value (A := A) (s := beNat s) (x := beNat x) (y := beNat y) (a := a) (b := b) 0
  rw [smul_zero, add_zero, add_zero] at ev
  rw [pairing_server, ev] at h
  refine ⟨fl, _, sst, cst, token, sec, xid, hd, sec', out, e1, e2, e3, ?_, e5, e6, e7, e8, ?_, ?_⟩
  · unfold mpin.extract_pin
    rw [show (pin : Int).tmod mpin.MAXPIN = ((a : Nat) : Int) from (Int.ofNat_tmod pin 10000).symm]
    exact e4
  · intro hab
    rcases h with ⟨-, h⟩ | ⟨h, -⟩
    · exact h
    · exact absurd ((run_outcome tA nA hxy ha hb).2 hab) h
  · intro hab
    rcases h with ⟨h, -⟩ | ⟨-, h⟩
    · exact absurd ((run_outcome tA nA hxy ha hb).1 h) hab
    obtain ⟨e, f, h1, h2, h3, h4, h5⟩ := h.strings rfl xid A _ rfl hH hR
    refine ⟨e, f, Prod.ext h.status h1, h2, h3, run_failure h4 h5, ?_, by rw [h5]; exact pairing_pow_r r_gen2 _⟩
    rw [h5, ← add_smul, add_comm]
    intro h6
    rcases (pairing_eq_one r_gen2 (torsion_smul tA _)).1 h6 with h6 | h6
    · exact gen2_ne h6
    · exact Amcl.B383.smul_ne tA nA hxy h6

/-- **C90**, a run with a date. As without date, but the client also has a permit for the date, and both sides use the
sum of the points `A` for the identity and `A'` for the date. An identity `id` is hashed, the trusted authority with master secret `s` gives the
server and the client their secrets, the client takes the PIN `pin` out of its secret. Then the client, with the PIN
`pin'` and a random `x`, answers the challenge `y`. Nothing panics and no step fails; the server accepts if the two PINs
agree modulo 10000. If not it refuses, and the first of the two strings it hands out is the power of the second one with
the difference of the PINs as exponent. The conditions exclude the cases in which a point at infinity would have to be
encoded. -/
theorem C90_run_date (sha date : Nat) (id s x y : List UInt8) (pin pin' : Nat) (A A' : G1) (hd0 : date ≠ 0) (hd : date < 2 ^ 32) (hid : id.length + 21 ≤ 2 ^ 29)
    (hA : BytesPt h1 (mpinHash sha 0 id) A) (hA' : BytesPt h1 (mpinHash sha date (mpinHash sha 0 id)) A') (h00 : A + A' ≠ 0)
    (ls : s.length = 48) (lx : x.length = 48) (ly : y.length = 48)
    (hp : pin < 2 ^ 31) (hp' : pin' < 2 ^ 31)
    (hs : ¬ r ∣ beNat s) (hx : ¬ r ∣ beNat x) (hxy : ¬ r ∣ beNat x + beNat y)
    (ht : ¬ (r : Int) ∣ (beNat s : Int) - (pin % 10000 : Nat))
    (hu : beNat s • A - (pin % 10000) • A + (pin' % 10000) • A + beNat s • A' ≠ 0) :
    ∃ flag hcid sst cst token permit sec xid xcid hid htid sec' out,
      mpin.hash_id sha id (List.replicate 48 0) = some (flag, hcid) ∧
      mpin.get_server_secret s = some sst ∧
      mpin.get_client_secret s hcid = some (.ok cst) ∧
      mpin.extract_pin sha id pin cst = some (.ok token) ∧
      mpin.get_client_permit sha date s hcid = some permit ∧
      mpin.client_1 sha date id none x pin' token true true (some permit) = some (.ok ⟨x, sec, some xid, some xcid, none⟩) ∧
      mpin.server_1 sha date id true = some (hid, some htid) ∧
      mpin.client_2 x y sec = some (.ok sec') ∧
      mpin.server_2 date hid (some htid) y sst (some xid) (some xcid) sec' true true = some out ∧
      (pin % 10000 = pin' % 10000 → out = (0, none)) ∧
      (pin % 10000 ≠ pin' % 10000 → ∃ e f, out = (mpin.BAD_PIN, some (e, f)) ∧ e.length = 576 ∧ f.length = 576 ∧
        block12 e = block12 f ^ (((pin % 10000 : Nat) : Int) - (pin' % 10000 : Nat)) ∧ block12 f ≠ 1 ∧ block12 f ^ r = 1) := by
  obtain ⟨tA, nA⟩ := hA.torsion
  obtain ⟨tA', nA'⟩ := hA'.torsion
  set a := pin % 10000
  set b := pin' % 10000
  have ha : a < 10000 := Nat.mod_lt _ (by norm_num)
  have hb : b < 10000 := Nat.mod_lt _ (by norm_num)
  obtain ⟨hc, e1, rfl, hcl⟩ := mpin.hashed_wp sha (n := 0) (by norm_num) hid
  unfold mpin.hashed at e1
  obtain ⟨⟨fl, hc⟩, e1, e1'⟩ := Option.bind_eq_some_iff.1 e1
  have e1'' : hc = mpinHash sha 0 id := by simpa using e1'
  subst e1''
  obtain ⟨sst, e2, hS⟩ := mpin.get_server_secret_wp ls hs
  obtain ⟨_, e3, cst, rfl, hC⟩ := mpin.get_client_secret_wp ls hs hcl hA
  have nT : beNat s • A - a • A ≠ 0 := by
    have := zsmul_ne tA nA ht
    rwa [sub_smul, natCast_zsmul, natCast_zsmul] at this
  obtain ⟨_, e4, token, rfl, hT⟩ := mpin.extract_factor_wp sha (n := mpin.PBLEN) hid hA hC (torsion_smul tA _) (by decide)
    (lt_trans ha (by decide)) nT
  have tT := torsion_sub (torsion_smul tA (beNat s)) (torsion_smul tA a)
  obtain ⟨permit, e9, hD⟩ := mpin.get_client_permit_wp sha hd ls hs (by rw [hcl]; norm_num) hA'
  have tD := torsion_smul tA' (beNat s)
  obtain ⟨_, e5, sec, xid, xcid, rfl, hU, hR, hR'⟩ := mpin.client_1_date_wp sha hd0 hd hid hA hA' h00 lx hx hT tT hD tD hp' hu
  obtain ⟨⟨hdd, _⟩, e6, hH, htid, hn, hH'⟩ := mpin.server_1_date_wp sha hd0 hd hid hA hA' h00
  dsimp only at hH hn
  subst hn
  obtain ⟨_, e7, sec', rfl, hV⟩ := mpin.client_2_wp lx ly hU (torsion_add (torsion_add tT (torsion_smul tA b)) tD) hxy
  obtain ⟨out, e8, h⟩ := mpin.server_2_wp (date := date) (hid := hdd) (htid := some htid) (xid := some xid) (xcid := some xcid) true true
    (by simp [hd0]) hR' (by simp [hd0]) hH' (torsion_add tA tA') ly hS (by rw [smul_comm, r_gen2, smul_zero]) hV
    (fun _ xb h _ => ⟨A, beNat x • A, hH, tA, by rw [← Option.some_inj.1 h]; exact hR⟩)
  rw [pairing_server, run_value] at h
  refine ⟨fl, _, sst, cst, token, permit, sec, xid, xcid, hdd, htid, sec', out, e1, e2, e3, ?_, e9, e5, e6, e7, e8, ?_, ?_⟩
  · unfold mpin.extract_pin
    rw [show (pin : Int).tmod mpin.MAXPIN = ((a : Nat) : Int) from (Int.ofNat_tmod pin 10000).symm]
    exact e4
  · intro hab
    rcases h with ⟨-, h⟩ | ⟨h, -⟩
    · exact h
    · exact absurd ((run_outcome tA nA hxy ha hb).2 hab) h
  · intro hab
    rcases h with ⟨h, -⟩ | ⟨-, h⟩
    · exact absurd ((run_outcome tA nA hxy ha hb).1 h) hab
    obtain ⟨e, f, h1, h2, h3, h4, h5⟩ := h.strings rfl xid A _ rfl hH hR
    refine ⟨e, f, Prod.ext h.status h1, h2, h3, run_failure h4 h5, ?_, by rw [h5]; exact pairing_pow_r r_gen2 _⟩
    rw [h5, ← add_smul, add_comm]
    intro h6
    rcases (pairing_eq_one r_gen2 (torsion_smul tA _)).1 h6 with h6 | h6
    · exact gen2_ne h6
    · exact Amcl.B383.smul_ne tA nA hxy h6

/-- **C90**, a date without permit: `client_1` takes the multiple of the identity's point by the PIN for the permit, so
that the PIN is added twice to the token; for the PIN 0 it fails. -/
theorem C90_no_permit (sha date : Nat) (id x token : List UInt8) (pin : Nat) (A A' T : G1)
    (hd0 : date ≠ 0) (hd : date < 2 ^ 32) (hid : id.length + 21 ≤ 2 ^ 29)
    (hA : BytesPt h1 (mpinHash sha 0 id) A) (hA' : BytesPt h1 (mpinHash sha date (mpinHash sha 0 id)) A') (h00 : A + A' ≠ 0)
    (lx : x.length = 48) (hx : ¬ r ∣ beNat x)
    (hT : Str1 token T) (tT : r • T = 0) (hp : pin < 2 ^ 31) (h0 : T + (2 * (pin % 10000)) • A ≠ 0) :
    (pin % 10000 = 0 → mpin.client_1 sha date id none x pin token true true none = some (.error mpin.INVALID_POINT)) ∧
    (pin % 10000 ≠ 0 → ∃ sec xid xcid,
      mpin.client_1 sha date id none x pin token true true none = some (.ok ⟨x, sec, some xid, some xcid, none⟩) ∧
      Str1 sec (T + (2 * (pin % 10000)) • A) ∧ Str1 xid (beNat x • A) ∧ Str1 xcid (beNat x • (A + A'))) := by
  have e : T + (2 * (pin % 10000)) • A = T + (pin % 10000) • A + (pin % 10000) • A := by module
  rw [e] at h0 ⊢
  obtain ⟨a, ea, h⟩ := mpin.client_1_nopermit_wp sha hd0 hd hid hA hA' h00 lx hx hT tT hp h0
  constructor
  · intro hz
    rcases h with ⟨-, rfl⟩ | ⟨h, -⟩
    · exact ea
    · exact absurd hz h
  · intro hz
    rcases h with ⟨h, -⟩ | ⟨-, sec, xid, xcid, rfl, h⟩
    · exact absurd h hz
    · exact ⟨sec, xid, xcid, ea, h⟩

/-- **C90**, `restore_factor` undoes `extract_factor`, and the other way round: with the factor `a` below `2^n` and a
token for a point `T` of order dividing `r` that is not `a` times (respectively minus `a` times) the point of the identity. -/
theorem C90_restore (sha : Nat) (id token : List UInt8) (A T : G1) (hid : id.length + 21 ≤ 2 ^ 29)
    (hA : BytesPt h1 (mpinHash sha 0 id) A) (hT : Str1 token T) (tT : r • T = 0) (a n : Nat) (hn : n ≤ 32) (ha : a < 2 ^ n) :
    (T ≠ a • A → ∃ t, mpin.extract_factor sha id a n token = some (.ok t) ∧ Str1 t (T - a • A) ∧
      mpin.restore_factor sha id a n t = some (.ok token)) ∧
    (T ≠ -(a • A) → ∃ t, mpin.restore_factor sha id a n token = some (.ok t) ∧ Str1 t (T + a • A) ∧
      mpin.extract_factor sha id a n t = some (.ok token)) := by
  obtain ⟨tA, nA⟩ := hA.torsion
  have uniq : ∀ {b b' : List UInt8} {g g' : G1}, g = g' → Str1 b g → Str1 b' g' → b = b' := by
    rintro b b' g _ rfl ⟨x, y, h, rfl, rfl⟩ ⟨x', y', h', e, rfl⟩
    simp only [Pt.mk, WeierstrassCurve.Affine.Point.some.injEq] at e
    rw [e.1, e.2]
  constructor
  · intro h0
    obtain ⟨_, e, t, rfl, ht⟩ := mpin.extract_factor_wp sha hid hA hT tT hn ha (sub_ne_zero.2 h0)
    have e2 : T - a • A + a • A = T := sub_add_cancel _ _
    obtain ⟨_, e', t', rfl, ht'⟩ := mpin.restore_factor_wp sha hid hA ht (torsion_sub tT (torsion_smul tA a)) hn ha
      (by rw [e2]; exact hT.ne)
    exact ⟨t, e, ht, by rw [e', uniq e2 ht' hT]⟩
  · intro h0
    obtain ⟨_, e, t, rfl, ht⟩ := mpin.restore_factor_wp sha hid hA hT tT hn ha (fun h => h0 (eq_neg_of_add_eq_zero_left h))
    have e2 : T + a • A - a • A = T := add_sub_cancel_right _ _
    obtain ⟨_, e', t', rfl, ht'⟩ := mpin.extract_factor_wp sha hid hA ht (torsion_add tT (torsion_smul tA a)) hn ha
      (by rw [e2]; exact hT.ne)
    exact ⟨t, e, ht, by rw [e', uniq e2 ht' hT]⟩

/-- **C90**, the challenge of the variant with one pass: the hash of time and commitment, reduced modulo `r`. -/
theorem C90_get_y (sha t : Nat) (xcid : List UInt8) (ht : t < 2 ^ 32) (hl : xcid.length + 21 ≤ 2 ^ 29) :
    mpin.get_y sha t xcid = some (toBE 48 (beNat (mpinHash sha t xcid) % r)) := by
  obtain ⟨y, e, rfl⟩ := mpin.get_y_wp sha ht hl
  exact e

/-- There is a point for every 48 bytes. -/
theorem exists_bytesPt (b : List UInt8) (hb : b.length = 48) : ∃ A, BytesPt h1 b A := by
  obtain ⟨P, g, -, h, -⟩ := C88_g1_mapit b (by omega)
  rw [List.take_of_length_le (by omega)] at h
  exact ⟨g, h⟩

theorem length_mpinHash (sha : Nat) {n : Nat} (hn : n < 2 ^ 32) {id : List UInt8} (h : id.length + 21 ≤ 2 ^ 29) :
    (mpinHash sha n id).length = 48 := by
  obtain ⟨b, -, rfl, hb⟩ := mpin.hashed_wp sha hn h
  exact hb

/-- The theorem about a run applies: the identity is the one byte 1, the master secret 5, the PIN 1234; one attempt with
this PIN, one with 4321. -/
example : (∃ hid sst xid sec', mpin.server_2 0 hid none (toBE 48 11) sst (some xid) none sec' true true = some (0, none)) ∧
    ∃ hid sst xid sec' e f, mpin.server_2 0 hid none (toBE 48 11) sst (some xid) none sec' true true =
      some (mpin.BAD_PIN, some (e, f)) ∧ block12 e = block12 f ^ ((1234 : Int) - 4321) ∧ block12 f ≠ 1 := by
  obtain ⟨A, hA⟩ := exists_bytesPt (mpinHash 32 0 [1]) (length_mpinHash 32 (by norm_num) (by norm_num))
  have key := fun pin' h1 h2 => C90_run 32 [1] (toBE 48 5) (toBE 48 7) (toBE 48 11) 1234 pin' A (by norm_num) hA (length_toBE _ _)
    (length_toBE _ _) (length_toBE _ _) (by norm_num)
    h1 (by decide +kernel) (by decide +kernel) (by decide +kernel) (by decide +kernel) h2
  obtain ⟨_, hc, sst, cst, token, sec, xid, hid, sec', out, -, -, -, -, -, -, -, e8, h, -⟩ :=
    key 1234 (by norm_num) (by decide +kernel)
  obtain ⟨_, hc', sst', cst', token', sec2, xid', hid', sec2', out', -, -, -, -, -, -, -, e8', -, h'⟩ :=
    key 4321 (by norm_num) (by decide +kernel)
  obtain ⟨e, f, ho, -, -, h1, h2, -⟩ := h' (by norm_num)
  rw [h rfl] at e8
  rw [ho] at e8'
  exact ⟨⟨hid, sst, xid, sec', e8⟩, hid', sst', xid', sec2', e, f, e8', h1, h2⟩

/-- The theorem about a run with a date applies. (The hash function 0 does not exist; all the strings hashed become
zero, so that the points for identity and date agree and their sum is not infinity.) -/
example : ∃ hid htid sst xid xcid sec', mpin.server_2 17 hid (some htid) (toBE 48 11) sst (some xid) (some xcid) sec' true true =
    some (0, none) := by
  obtain ⟨A, hA⟩ := exists_bytesPt (mpinHash 0 0 [1]) (length_mpinHash 0 (by norm_num) (by norm_num))
  obtain ⟨tA, nA⟩ := hA.torsion
  obtain ⟨_, hc, sst, cst, token, permit, sec, xid, xcid, hid, htid, sec', out, -, -, -, -, -, -, -, -, e8, h, -⟩ :=
    C90_run_date 0 17 [1] (toBE 48 5) (toBE 48 7) (toBE 48 11) 1234 1234 A A (by norm_num) (by norm_num) (by norm_num) hA hA
      (by rw [← two_nsmul]; exact Amcl.B383.smul_ne tA nA (by decide +kernel)) (length_toBE _ _)
      (length_toBE _ _) (length_toBE _ _) (by norm_num)
      (by norm_num) (by decide +kernel) (by decide +kernel) (by decide +kernel) (by decide +kernel)
      (by
        rw [sub_add_cancel, ← add_smul]
        exact Amcl.B383.smul_ne tA nA (by decide +kernel))
  rw [h rfl] at e8
  exact ⟨hid, htid, sst, xid, xcid, sec', e8⟩

theorem exists_str1 {g : G1} (h : g ≠ 0) : ∃ b, Str1 b g := by
  rcases Pt.cases g with rfl | ⟨x, y, hxy, rfl⟩
  · exact absurd rfl h
  · exact ⟨_, x, y, hxy, rfl, rfl⟩

/-- Acceptance and the change by points of small order, on literals: `R = 7 G`, `V = -90 G`, `y = 11`, `s = 5`, `A = G`; and
`V` changed by the point `(0, √15)` of order 3. -/
example : ∃ rb ab vb vb' sst, Str1 rb (7 • gen1) ∧ Str1 ab gen1 ∧ Str1 vb (-(90 • gen1)) ∧
    Str1 vb' (-(90 • gen1) + Pt.mk 0 root15 order3_on) ∧ Str2 sst (5 • gen2) ∧
    mpin.server_2 0 ab none (toBE 48 11) sst (some rb) none vb false false = some (0, none) ∧
    mpin.server_2 0 ab none (toBE 48 11) sst (some rb) none vb' false false = some (0, none) := by
  obtain ⟨rb, hR⟩ := exists_str1 (Amcl.B383.smul_ne r_gen1 gen1_ne (n := 7) (by decide +kernel))
  obtain ⟨ab, hA⟩ := exists_str1 gen1_ne
  obtain ⟨vb, hV⟩ := exists_str1 (neg_ne_zero.2 (Amcl.B383.smul_ne r_gen1 gen1_ne (n := 90) (by decide +kernel)))
  have t3 : h1 • (Pt.mk 0 root15 order3_on : G1) = 0 := by
    obtain ⟨k, hk⟩ : 3 ∣ h1 := by decide +kernel
    rw [hk, mul_comm, mul_smul, Pt.three_smul_zero, smul_zero]
  have n3 : -(90 • gen1) + (Pt.mk 0 root15 order3_on : G1) ≠ 0 := by
    intro h
    have e := eq_neg_of_add_eq_zero_right h
    rw [neg_neg] at e
    refine Pt.x_ne_of_order (h := order3_on) ?_ rfl
    rw [e]
    exact torsion_smul r_gen1 90
  obtain ⟨vb', hV'⟩ := exists_str1 n3
  obtain ⟨sst, -, hS⟩ := mpin.get_server_secret_wp (s := toBE 48 5) (length_toBE _ _) (by decide +kernel)
  rw [show beNat (toBE 48 5) = 5 by decide +kernel] at hS
  obtain ⟨c, e, -, h⟩ := C90_accepts 0 ab (toBE 48 11) sst vb rb ab none (some rb) none gen1 _ _ 5 hR hA r_gen1 hV hS rfl rfl
    (length_toBE _ _)
  obtain ⟨c', e1, e2⟩ := C90_malleable 0 ab (toBE 48 11) sst vb vb' rb rb ab none (some rb) none (some rb) none gen1 _ _ _ 0 5 t3
    (smul_zero _) hR (by rwa [add_zero]) hA r_gen1 hV hV' hS rfl rfl rfl (length_toBE _ _)
  have h0 := h.2 (by
    rw [show beNat (toBE 48 11) = 11 by decide +kernel]
    have : -(90 • gen1) + 5 • (11 • gen1 + 7 • gen1) = 0 := by module
    rw [this, smul_zero])
  rw [h0] at e
  rw [e, Option.some_inj] at e1
  rw [← e1] at e2
  exact ⟨rb, ab, vb, vb', sst, hR, hA, hV, hV', hS, e, e2⟩

end Props.B383
