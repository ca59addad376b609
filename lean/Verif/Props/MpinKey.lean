import Verif.Proof.MpinKey
/-!
# Property C56: the common keys of M-Pin
-/

set_option exponentiation.threshold 6000

namespace Props

open Amcl Spec

seal Spec.finalExp Spec.toBE

/-- **C56**, what the key depends on: for elements of the cyclotomic subgroup the strings hashed agree if and only if
the points do and the elements are conjugate over `Fp4`. -/
theorem C56_message (m m' : List UInt8) (z z' : Fp12) (U U' : G1) (h : KeyMsg m z U) (h' : KeyMsg m' z' U')
    (hz : z ^ (p ^ 4 - p ^ 2 + 1) = 1) (hz' : z' ^ (p ^ 4 - p ^ 2 + 1) = 1) :
    m = m' ↔ (z' = z ∨ z' = z ^ (p ^ 4) ∨ z' = z ^ (p ^ 8)) ∧ U = U' := by
  rw [KeyMsg_iff h h']
  obtain ⟨c, -, -, -, ht, -, -⟩ := h
  obtain ⟨c', -, -, -, ht', -, -⟩ := h'
  rw [← C52_conjugates z z' hz hz' c c' ht ht', ← ht, ← ht']
  exact and_congr_left fun _ => (RingHom.injective ι4).eq_iff

/-- **C56**, `client_key`. For strings `g1`, `g2` of elements of order dividing `r`, a finite point `W` of order dividing
`r`, a scalar `x` that `r` does not divide, and `ρ + h` modulo `r` not a multiple of `p mod r`: it computes the key for
`(g1 g2^pin)^(ρ+h)` and `x W`. Of the PIN the low 14 bits count; it is not reduced modulo 10000. -/
theorem C56_client_key (sha : Nat) (g1 g2 ρ x h wcid : List UInt8) (pin : Nat) (W : G1) (l1 : 576 ≤ g1.length)
    (l2 : 576 ≤ g2.length) (o1 : block12 g1 ^ r = 1) (o2 : block12 g2 ^ r = 1) (hρ : ρ.length = 48) (hx : x.length = 48)
    (hh : h.length = 48) (hW : Str1 wcid W) (tW : r • W = 0) (x0 : ¬ r ∣ beNat x)
    (hc : ¬ p % r ∣ (beNat ρ + beNat h) % r) :
    ∃ m, KeyMsg m ((block12 g1 * block12 g2 ^ (pin % 2 ^ 14)) ^ (beNat ρ + beNat h)) (beNat x • W) ∧
      mpin.client_key sha g1 g2 pin ρ x h wcid = some (.ok (mpinKey sha m)) := by
  obtain ⟨_, e, m, hm, rfl⟩ := mpin.client_key_wp sha pin l1 l2 o1 o2 hρ hx hh hW tW x0 hc
  exact ⟨m, hm, e⟩

/-- **C56**, `client_key` does not come to an end if `ρ + h` modulo `r` is a positive multiple of `p mod r`. -/
theorem C56_client_key_hangs (sha : Nat) (g1 g2 ρ x h wcid : List UInt8) (pin : Nat) (W : G1) (l1 : 576 ≤ g1.length)
    (l2 : 576 ≤ g2.length) (o2 : block12 g2 ^ r = 1) (hρ : ρ.length = 48) (hx : x.length = 48)
    (hh : h.length = 48) (hW : Str1 wcid W) (tW : r • W = 0) (hn : ¬ r ∣ beNat ρ + beNat h)
    (hc : p % r ∣ (beNat ρ + beNat h) % r) :
    mpin.client_key sha g1 g2 pin ρ x h wcid = none :=
  mpin.client_key_none sha pin l1 l2 o2 hρ hx hh hW tW hn hc

/-- **C56**, `client_key` if `r` divides `ρ + h`: it computes the key for `(g1 g2^pin)^(2^350)` and `x W`, not for
`(g1 g2^pin)^0 = 1` and `x W`: the string hashed is that of 1 only if `g1 g2^pin` is 1. -/
theorem C56_client_key_zero (sha : Nat) (g1 g2 ρ x h wcid : List UInt8) (pin : Nat) (W : G1) (l1 : 576 ≤ g1.length)
    (l2 : 576 ≤ g2.length) (o1 : block12 g1 ^ r = 1) (o2 : block12 g2 ^ r = 1) (hρ : ρ.length = 48) (hx : x.length = 48)
    (hh : h.length = 48) (hW : Str1 wcid W) (tW : r • W = 0) (x0 : ¬ r ∣ beNat x) (hc : r ∣ beNat ρ + beNat h) :
    ∃ m, KeyMsg m ((block12 g1 * block12 g2 ^ (pin % 2 ^ 14)) ^ 2 ^ 350) (beNat x • W) ∧
      mpin.client_key sha g1 g2 pin ρ x h wcid = some (.ok (mpinKey sha m)) ∧
      (KeyMsg m 1 (beNat x • W) → block12 g1 * block12 g2 ^ (pin % 2 ^ 14) = 1) := by
  obtain ⟨_, e, m, hm, rfl⟩ := mpin.client_key_zero sha pin l1 l2 o1 o2 hρ hx hh hW tW x0 hc
  refine ⟨m, hm, e, fun h1 => ?_⟩
  have o4 : (block12 g1 * block12 g2 ^ (pin % 2 ^ 14)) ^ r = 1 := by
    rw [mul_pow, o1, one_mul, ← pow_mul, mul_comm, pow_mul, o2, one_pow]
  generalize block12 g1 * block12 g2 ^ (pin % 2 ^ 14) = z at *
  have o5 : (z ^ 2 ^ 350) ^ r = 1 := by rw [← pow_mul, mul_comm, pow_mul, o4, one_pow]
  have h2 := (((C56_message m m 1 _ _ _ h1 hm (one_pow _) (mpin.pow_r_cyc o5)).1 rfl)).1
  simp only [one_pow, or_self] at h2
  have hd := Nat.dvd_gcd (orderOf_dvd_of_pow_eq_one h2) (orderOf_dvd_of_pow_eq_one o4)
  rwa [show Nat.gcd (2 ^ 350) r = 1 by decide +kernel, Nat.dvd_one, orderOf_eq_one_iff] at hd

/-- **C56**, `server_key`. For strings of a finite point `Z` of the curve, in the group of order `r` or not, of finite points
`A` (`hid`) and `U` (`xcid` if there is one, else `xid`) of order dividing `r`, of a server secret `S` of order `r`, and a
scalar `w` that `r` does not divide: it computes the key for the pairing of `S` and `Z + h A` and for the point `w U`. -/
theorem C56_server_key (sha : Nat) (z sst w h hid xid : List UInt8) (xcid : Option (List UInt8)) (Z A U : G1) (S : G2)
    (hZ : Str1 z Z) (hS : Str2 sst S) (tS : r • S = 0) (hA : Str1 hid A) (tA : r • A = 0) (hU : Str1 (xcid.getD xid) U)
    (tU : r • U = 0) (hw : w.length = 48) (hh : h.length = 48) (w0 : ¬ r ∣ beNat w) :
    ∃ m, KeyMsg m (pairing S (Z + beNat h • A)) (beNat w • U) ∧
      mpin.server_key sha z sst w h hid xid xcid = some (.ok (mpinKey sha m)) := by
  obtain ⟨_, e, m, hm, rfl⟩ := mpin.server_key_wp sha hZ hS tS hA tA hU tU hw hh w0
  exact ⟨m, hm, e⟩

/-- **C56**, `hash_all`: the hash of the concatenation if that has 484 bytes, `false` and the old buffer if it is
shorter, a panic if it is longer. -/
theorem C56_hash_all (sha : Nat) (hid xid sec y ρ w b : List UInt8) (xcid : Option (List UInt8)) (hs : sha = 32 ∨ sha = 48 ∨ sha = 64) :
    mpin.hash_all sha hid xid xcid sec y ρ w b =
      if (hid ++ xcid.getD xid ++ sec ++ y ++ ρ ++ w).length = 484 then
        some (true, mpinHash sha 0 (hid ++ xcid.getD xid ++ sec ++ y ++ ρ ++ w))
      else if (hid ++ xcid.getD xid ++ sec ++ y ++ ρ ++ w).length < 484 then some (false, b) else none := by
  unfold mpin.hash_all
  generalize hid ++ xcid.getD xid ++ sec ++ y ++ ρ ++ w = t
  dsimp only
  by_cases h : t.length = 484
  · rw [if_neg (by omega), if_neg (by omega), if_pos h]
    obtain ⟨⟨f, d⟩, e, h1, h2, -⟩ := mpin.hashit_wp sha b (n := 0) (id := t) (by norm_num) (by omega)
    dsimp only at h1 h2
    rw [e, h1.2 hs, h2 (h1.2 hs)]
  · rw [if_neg h]
    by_cases h' : t.length < 484
    · rw [if_neg (by omega), if_pos h, if_pos h']; rfl
    · rw [if_pos (by omega), if_neg h']

/-! ### Agreement -/

theorem exists_gamma {A : G1} (tA : r • A = 0) (nA : A ≠ 0) : ∃ γ : CycG, pairing gen2 A = γ.v ∧ addOrderOf γ = r := by
  obtain ⟨γ, e, h⟩ := exists_cycG_r (pairing_pow_r r_gen2 A)
  refine ⟨γ, e.symm, ?_⟩
  have := Fact.mk Primes.prime_r
  refine addOrderOf_eq_prime h ?_
  rintro rfl
  rw [CycG.v_zero] at e
  rcases (pairing_eq_one r_gen2 tA).1 e.symm with h | h
  · exact gen2_ne h
  · exact nA h

theorem v_pow_r {γ : CycG} (h : addOrderOf γ = r) (n : Int) : (n • γ).v ^ (p ^ 4 - p ^ 2 + 1) = 1 := by
  refine mpin.pow_r_cyc ?_
  rw [← CycG.v_nsmul, ← natCast_zsmul, smul_smul, mul_comm, mul_smul, natCast_zsmul, ← h, addOrderOf_nsmul_eq_zero, smul_zero, CycG.v_zero]

theorem v_eq_iff {γ : CycG} (h : addOrderOf γ = r) (i j : Int) : (i • γ).v = (j • γ).v ↔ (r : Int) ∣ i - j := by
  rw [← h, addOrderOf_dvd_sub_iff_zsmul_eq_zsmul]
  exact ⟨fun h => CycG.v_inj h, fun h => by rw [h]⟩

/-- **C56**, agreement. `A` is the point of the identity, `B` the point of the commitment (`A` or, with a date, the sum with
the point of the date), the token is the string of `s A - a A`, the server's secret is a string of `s G2`, `h` is any string
of 48 bytes. The client precomputes; it sends `Z = ρ A`, the server sends `W = w B`; both compute a key. Nothing panics and
no step fails, and the two strings hashed agree if and only if the low 14 bits of the PIN are `a`, or one of two
exceptional congruences holds (the power belonging to the wrong PIN is a conjugate of the right one). -/
theorem C56_agree (sha : Nat) (hcid token hid hB sst ρ x w h xid : List UInt8) (xcid : Option (List UInt8)) (pin a s : Nat)
    (A B : G1) (lA : hcid.length = 48) (hA : BytesPt h1 hcid A) (hT : Str1 token (s • A - a • A)) (ha : a < 2 ^ 14)
    (hS : Str2 sst (s • gen2)) (hH : Str1 hid A) (hHB : Str1 hB B) (tB : r • B = 0) (hU : Str1 (xcid.getD xid) (beNat x • B))
    (lρ : ρ.length = 48) (lx : x.length = 48) (lw : w.length = 48) (lh : h.length = 48)
    (ρ0 : ¬ r ∣ beNat ρ) (w0 : ¬ r ∣ beNat w) (hc : ¬ p % r ∣ (beNat ρ + beNat h) % r) :
    ∃ g1 g2 Z W m m',
      mpin.precompute token hcid = some (.ok (g1, g2)) ∧
      mpin.get_g1_multiple none 1 ρ hcid = some (.ok (Z, ρ, none)) ∧
      mpin.get_g1_multiple none 0 w hB = some (.ok (W, w, none)) ∧
      mpin.client_key sha g1 g2 pin ρ x h W = some (.ok (mpinKey sha m)) ∧
      mpin.server_key sha Z sst w h hid xid xcid = some (.ok (mpinKey sha m')) ∧
      (m' = m ↔ pin % 2 ^ 14 = a ∨ (r : Int) ∣ (s : Int) - a + (pin % 2 ^ 14 : Nat) - p ^ 4 * s ∨
        (r : Int) ∣ (s : Int) - a + (pin % 2 ^ 14 : Nat) - p ^ 8 * s) := by
  obtain ⟨tA, nA⟩ := hA.torsion
  set b := pin % 2 ^ 14
  have hb : b < 2 ^ 14 := Nat.mod_lt _ (by norm_num)
  have x0 : ¬ r ∣ beNat x := by
    rintro ⟨k, hk⟩
    refine hU.ne ?_
    rw [hk, mul_comm, mul_smul, tB, smul_zero]
  have hn : ¬ r ∣ beNat ρ + beNat h := fun hd => hc (by rw [Nat.mod_eq_zero_of_dvd hd]; exact dvd_zero _)
  obtain ⟨_, e1, g1, g2, rfl, l1, l2, v1, v2⟩ := mpin.precompute_wp hT lA hA
  obtain ⟨_, e2, Z, rfl, hZ⟩ := mpin.get_g1_multiple_wp 1 lρ ρ0 tA (Or.inr ⟨by norm_num, lA, hA⟩)
  obtain ⟨_, e3, W, rfl, hW⟩ := mpin.get_g1_multiple_wp 0 lw w0 tB (Or.inl ⟨rfl, hHB⟩)
  have o1 : block12 g1 ^ r = 1 := by rw [v1]; exact pairing_pow_r r_gen2 _
  have o2 : block12 g2 ^ r = 1 := by rw [v2]; exact pairing_pow_r r_gen2 _
  obtain ⟨m, hm, e4⟩ := C56_client_key sha g1 g2 ρ x h W pin _ l1.ge l2.ge o1 o2 lρ lx lh hW (torsion_smul tB _) x0 hc
  obtain ⟨m', hm', e5⟩ := C56_server_key sha Z sst w h hid xid xcid _ _ _ _ hZ hS (by rw [smul_comm, r_gen2, smul_zero]) hH tA
    hU (torsion_smul tB _) lw lh w0
  refine ⟨g1, g2, Z, W, m, m', e1, e2, e3, e4, e5, ?_⟩
  obtain ⟨γ, eγ, oγ⟩ := exists_gamma tA nA
  set n := beNat ρ + beNat h
  have oδ : addOrderOf (n • γ) = r := by
    have := Fact.mk Primes.prime_r
    refine addOrderOf_eq_prime ?_ ?_
    · rw [smul_comm, ← oγ, addOrderOf_nsmul_eq_zero, smul_zero]
    · rwa [Ne, ← addOrderOf_dvd_iff_nsmul_eq_zero, oγ]
  have ec : (block12 g1 * block12 g2 ^ b) ^ n = (((s : Int) - a + b) • n • γ).v := by
    rw [v1, v2, ← pairing_nsmul_right r_gen2, ← pairing_add_right r_gen2, ← pairing_nsmul_right r_gen2]
    have : n • (s • A - a • A + b • A) = (((s : Int) - a + b) * n) • A := by module
    rw [this, pairing_zsmul_right, eγ, ← CycG.v_zsmul, mul_smul, natCast_zsmul γ n]
  have es : pairing (s • gen2) (beNat ρ • A + beNat h • A) = ((s : Int) • n • γ).v := by
    rw [pairing_nsmul_left r_gen2, ← pairing_nsmul_right r_gen2]
    have : s • (beNat ρ • A + beNat h • A) = ((s : Int) * n) • A := by
      rw [← add_smul, show beNat ρ + beNat h = n from rfl]; module
    rw [this, pairing_zsmul_right, eγ, ← CycG.v_zsmul, mul_smul, natCast_zsmul γ n]
  rw [ec] at hm
  rw [es] at hm'
  generalize n • γ = δ at *
  rw [C56_message m' m _ _ _ _ hm' hm (v_pow_r oδ _) (v_pow_r oδ _), ← CycG.v_nsmul, ← CycG.v_nsmul, ← natCast_zsmul,
    ← natCast_zsmul, ← mul_smul, ← mul_smul, v_eq_iff oδ, v_eq_iff oδ, v_eq_iff oδ, smul_comm (beNat w), and_iff_left rfl]
  push_cast
  refine or_congr ?_ Iff.rfl
  have hr : 2 ^ 14 < r := by decide +kernel
  constructor
  · intro hd
    have := Int.eq_zero_of_abs_lt_dvd hd (by rw [abs_lt]; omega)
    omega
  · intro h
    rw [h]
    exact ⟨0, by ring⟩

/-- **C56**, a run. The authority hashes the identity, gives the server and the client their secrets; the client takes the
PIN `pin` out of its secret and precomputes. In a run with the PIN `pin'` below 10000, without date, both sides arrive at a
key, for any string `h` of 48 bytes; the strings hashed are the same if the PINs agree modulo 10000. -/
theorem C56_run (sha : Nat) (id s x ρ w h : List UInt8) (pin pin' : Nat) (A : G1) (hid : id.length + 21 ≤ 2 ^ 29)
    (hA : BytesPt h1 (mpinHash sha 0 id) A)
    (ls : s.length = 48) (lx : x.length = 48) (lρ : ρ.length = 48) (lw : w.length = 48) (lh : h.length = 48)
    (hp' : pin' < 10000)
    (hs : ¬ r ∣ beNat s) (hx : ¬ r ∣ beNat x) (hρ : ¬ r ∣ beNat ρ) (hw : ¬ r ∣ beNat w)
    (hc : ¬ p % r ∣ (beNat ρ + beNat h) % r)
    (ht : ¬ (r : Int) ∣ (beNat s : Int) - (pin % 10000 : Nat))
    (hu : ¬ (r : Int) ∣ (beNat s : Int) - (pin % 10000 : Nat) + pin') :
    ∃ flag hcid sst cst token sec xid hid g1 g2 Z W m m',
      mpin.hash_id sha id (List.replicate 48 0) = some (flag, hcid) ∧
      mpin.get_server_secret s = some sst ∧
      mpin.get_client_secret s hcid = some (.ok cst) ∧
      mpin.extract_pin sha id pin cst = some (.ok token) ∧
      mpin.client_1 sha 0 id none x pin' token true false none = some (.ok ⟨x, sec, some xid, none, none⟩) ∧
      mpin.server_1 sha 0 id false = some (hid, none) ∧
      mpin.precompute token hcid = some (.ok (g1, g2)) ∧
      mpin.get_g1_multiple none 1 ρ hcid = some (.ok (Z, ρ, none)) ∧
      mpin.get_g1_multiple none 0 w hid = some (.ok (W, w, none)) ∧
      mpin.client_key sha g1 g2 pin' ρ x h W = some (.ok (mpinKey sha m)) ∧
      mpin.server_key sha Z sst w h hid xid none = some (.ok (mpinKey sha m')) ∧
      (m' = m ↔ pin' = pin % 10000 ∨ (r : Int) ∣ (beNat s : Int) - (pin % 10000 : Nat) + pin' - p ^ 4 * beNat s ∨
        (r : Int) ∣ (beNat s : Int) - (pin % 10000 : Nat) + pin' - p ^ 8 * beNat s) := by
  obtain ⟨tA, nA⟩ := hA.torsion
  set a := pin % 10000
  have ha : a < 10000 := Nat.mod_lt _ (by norm_num)
  obtain ⟨hc', e1, rfl, hcl⟩ := mpin.hashed_wp sha (n := 0) (by norm_num) hid
  unfold mpin.hashed at e1
  obtain ⟨⟨fl, hc'⟩, e1, e1'⟩ := Option.bind_eq_some_iff.1 e1
  have e1'' : hc' = mpinHash sha 0 id := by simpa using e1'
  subst e1''
  obtain ⟨sst, e2, hS⟩ := mpin.get_server_secret_wp ls hs
  obtain ⟨_, e3, cst, rfl, hC⟩ := mpin.get_client_secret_wp ls hs hcl hA
  have nT : beNat s • A - a • A ≠ 0 := by
    have := zsmul_ne tA nA ht
    rwa [sub_smul, natCast_zsmul, natCast_zsmul] at this
  obtain ⟨_, e4, token, rfl, hT⟩ := mpin.extract_factor_wp sha (n := mpin.PBLEN) hid hA hC (torsion_smul tA _) (by decide)
    (lt_trans ha (by decide)) nT
  have tT := torsion_sub (torsion_smul tA (beNat s)) (torsion_smul tA a)
  have nU : beNat s • A - a • A + (pin' % 10000) • A ≠ 0 := by
    rw [Nat.mod_eq_of_lt hp']
    have := zsmul_ne tA nA hu
    rwa [add_smul, sub_smul, natCast_zsmul, natCast_zsmul, natCast_zsmul] at this
  obtain ⟨_, e5, sec, xid, rfl, hU, hR⟩ := mpin.client_1_plain_wp sha false none hid hA lx hx hT tT (by omega) nU
  obtain ⟨⟨hd, _⟩, e6, hH, hn⟩ := mpin.server_1_plain_wp sha false hid hA
  dsimp only at hH hn
  subst hn
  obtain ⟨g1, g2, Z, W, m, m', e7, e8, e9, e10, e11, hm⟩ := C56_agree sha (mpinHash sha 0 id) token hd hd sst ρ x w h xid none pin' a
    (beNat s) A A hcl hA hT (by omega) hS hH hH tA hR lρ lx lw lh hρ hw hc
  rw [Nat.mod_eq_of_lt (show pin' < 2 ^ 14 by omega)] at hm
  refine ⟨fl, _, sst, cst, token, sec, xid, hd, g1, g2, Z, W, m, m', e1, e2, e3, ?_, e5, e6, e7, e8, e9, e10, e11, hm⟩
  unfold mpin.extract_pin
  rw [show (pin : Int).tmod mpin.MAXPIN = ((a : Nat) : Int) from (Int.ofNat_tmod pin 10000).symm]
  exact e4

/-- The theorem about a run applies: the identity is the one byte 1, the master secret 5, the PIN 1234; one attempt with
this PIN, one with 4321. -/
example : (∃ Z g1 g2 hid sst xid W k, mpin.client_key 32 g1 g2 1234 (toBE 48 13) (toBE 48 7) (toBE 48 9) W = some (.ok (some k)) ∧
      mpin.server_key 32 Z sst (toBE 48 17) (toBE 48 9) hid xid none = some (.ok (some k))) ∧
    ∃ Z g1 g2 hid sst xid W m m', mpin.client_key 32 g1 g2 4321 (toBE 48 13) (toBE 48 7) (toBE 48 9) W = some (.ok (mpinKey 32 m)) ∧
      mpin.server_key 32 Z sst (toBE 48 17) (toBE 48 9) hid xid none = some (.ok (mpinKey 32 m')) ∧ m' ≠ m := by
  obtain ⟨A, hA⟩ := exists_bytesPt (mpinHash 32 0 [1]) (length_mpinHash 32 (by norm_num) (by norm_num))
  have key := fun pin' h1 h2 => C56_run 32 [1] (toBE 48 5) (toBE 48 7) (toBE 48 13) (toBE 48 17) (toBE 48 9) 1234 pin' A (by norm_num) hA
    (length_toBE _ _) (length_toBE _ _) (length_toBE _ _) (length_toBE _ _) (length_toBE _ _) h1 (by decide +kernel)
    (by decide +kernel) (by decide +kernel) (by decide +kernel) (by decide +kernel) (by decide +kernel) h2
  obtain ⟨_, hc, sst, cst, token, sec, xid, hid, g1, g2, Z, W, m, m', -, -, -, -, -, -, -, -, -, e1, e2, h⟩ :=
    key 1234 (by norm_num) (by decide +kernel)
  obtain ⟨_, hc', sst', cst', token', sec2, xid', hid', g1', g2', Z', W', m2, m2', -, -, -, -, -, -, -, -, -, e1', e2', h'⟩ :=
    key 4321 (by norm_num) (by decide +kernel)
  rw [h.2 (Or.inl (by norm_num))] at e2
  refine ⟨⟨Z, g1, g2, hid, sst, xid, W, (sha256 m).take 16, e1, e2⟩, Z', g1', g2', hid', sst', xid', W', m2, m2', e1', e2', ?_⟩
  intro e
  have hd := h'.1 e
  rw [show beNat (toBE 48 5) = 5 by decide +kernel] at hd
  revert hd
  decide +kernel

/-- Strings of the two kinds for which `client_key` is not right: with `ρ = 1`, `h = p mod r - 1` it does not come to
an end, with `ρ = 1`, `h = r - 1` it computes another key than the one of the element 1. -/
example : ∃ g1 g2 W m, mpin.client_key 32 g1 g2 1234 (toBE 48 1) (toBE 48 7) (toBE 48 (p % r - 1)) W = none ∧
    mpin.client_key 32 g1 g2 0 (toBE 48 1) (toBE 48 7) (toBE 48 (r - 1)) W = some (.ok (mpinKey 32 m)) ∧
    ¬ KeyMsg m 1 (beNat (toBE 48 7) • gen1) := by
  obtain ⟨A, hA⟩ := exists_bytesPt (mpinHash 32 0 [1]) (length_mpinHash 32 (by norm_num) (by norm_num))
  have hW : ∃ W, Str1 W gen1 := ⟨_, _, _, _, rfl, rfl⟩
  obtain ⟨W, hW⟩ := hW
  obtain ⟨_, -, g1, g2, rfl, l1, l2, v1, v2⟩ := mpin.precompute_wp hW (length_mpinHash 32 (by norm_num) (by norm_num)) hA
  have o1 : block12 g1 ^ r = 1 := by rw [v1]; exact pairing_pow_r r_gen2 _
  have o2 : block12 g2 ^ r = 1 := by rw [v2]; exact pairing_pow_r r_gen2 _
  obtain ⟨m, -, e, h⟩ := C56_client_key_zero 32 g1 g2 (toBE 48 1) (toBE 48 7) (toBE 48 (r - 1)) W 0 gen1 l1.ge l2.ge o1 o2
    (length_toBE _ _) (length_toBE _ _) (length_toBE _ _) hW r_gen1 (by decide +kernel) (by decide +kernel)
  refine ⟨g1, g2, W, m, C56_client_key_hangs 32 g1 g2 _ _ _ W 1234 gen1 l1.ge l2.ge o2 (length_toBE _ _) (length_toBE _ _)
    (length_toBE _ _) hW r_gen1 (by decide +kernel) (by decide +kernel), e, fun hm => ?_⟩
  have h1 := h hm
  rw [Nat.zero_mod, pow_zero, mul_one, v1] at h1
  rcases (pairing_eq_one r_gen2 r_gen1).1 h1 with h | h
  · exact gen2_ne h
  · exact gen1_ne h

end Props
