import Verif.Props.Mpin
import Verif.Props.Xtr
import Verif.Spec.MpinKey
/-!
# The common keys of M-Pin
-/

set_option exponentiation.threshold 6000

namespace Amcl

open Spec

seal Spec.finalExp Spec.toBE

/-! ### The string hashed -/

theorem toBE48_inj {m n : Nat} (hm : m < 2 ^ 384) (hn : n < 2 ^ 384) (h : toBE 48 m = toBE 48 n) : m = n := by
  have := congrArg beNat h
  rwa [beNat_toBE, beNat_toBE, Nat.mod_eq_of_lt (by omega), Nat.mod_eq_of_lt (by omega)] at this

theorem val_inj {x y : Fp} (h : toBE 48 x.val = toBE 48 y.val) : x = y := by
  have hp := p_le_pow
  have hx := ZMod.val_lt x
  have hy := ZMod.val_lt y
  exact ZMod.val_injective p (toBE48_inj (by omega) (by omega) h)

theorem octets2_inj {x y x' y' : Fp2} (h : octets2 x y = octets2 x' y') : x = x' ∧ y = y' := by
  unfold octets2 at h
  obtain ⟨h, h4⟩ := List.append_inj' h (by simp [length_toBE])
  obtain ⟨h, h3⟩ := List.append_inj' h (by simp [length_toBE])
  obtain ⟨h1, h2⟩ := List.append_inj' h (by simp [length_toBE])
  exact ⟨QuadraticAlgebra.ext (val_inj h1) (val_inj h2), QuadraticAlgebra.ext (val_inj h3) (val_inj h4)⟩

theorem length_octets2' (x y : Fp2) : (octets2 x y).length = 192 := by simp [octets2, length_toBE]

/-- The string determines the trace and the point. -/
theorem KeyMsg_iff {m m' : List UInt8} {z z' : Fp12} {U U' : G1} (h : KeyMsg m z U) (h' : KeyMsg m' z' U') :
    m = m' ↔ z + z ^ (p ^ 4) + z ^ (p ^ 8) = z' + z' ^ (p ^ 4) + z' ^ (p ^ 8) ∧ U = U' := by
  obtain ⟨c, x, y, hU, ht, rfl, rfl⟩ := h
  obtain ⟨c', x', y', hU', ht', rfl, rfl⟩ := h'
  rw [← ht, ← ht']
  constructor
  · intro h
    obtain ⟨h1, h2⟩ := List.append_inj h (by rw [length_octets2', length_octets2'])
    obtain ⟨h3, h4⟩ := List.append_inj' h2 (by simp [length_toBE])
    obtain ⟨e1, e2⟩ := octets2_inj h1
    have e : c = c' := QuadraticAlgebra.ext e1 e2
    obtain rfl := val_inj h3
    obtain rfl := val_inj h4
    exact ⟨by rw [e], rfl⟩
  · rintro ⟨h1, h2⟩
    have e : c = c' := RingHom.injective ι4 h1
    obtain ⟨rfl, rfl⟩ := Pt.mk_inj.1 h2
    rw [e]

theorem ECP.mapit_aff {b : List UInt8} {g : G1} (hb : b.length = 48) (h : BytesPt h1 b g) :
    Wp (ECP.mapit b) fun P => P.Aff g := by
  refine (mapit_wp hb.ge).mono ?_
  rintro P ⟨g', h', hP, hz⟩
  rw [List.take_of_length_le hb.le] at h'
  rw [Amcl.MapsTo1.unique h h']
  exact ⟨hP, fun h => (hz h).res⟩

namespace mpin

theorem hash_wp (sha : Nat) {c : FP4} {v : Fp4} {z : Fp12} {U : ECP} {g : G1} {E : Int} (hc : c.Can v) (ht : IsTrace v z)
    (hU : ECP.Ok U E g) (hE : E ≤ 2 ^ 20) (tg : r • g = 0) (ng : g ≠ 0) :
    Wp (hash sha c U) fun k => ∃ m, KeyMsg m z g ∧ k = mpinKey sha m := by
  rcases Pt.cases g with rfl | ⟨x, y, h, rfl⟩
  · exact absurd rfl ng
  have hp0 := p_pos
  have hple := p_le_pow
  have hx := ZMod.val_lt x
  have hy := ZMod.val_lt y
  unfold hash
  refine Wp.bind (FP2.toblocks_wp hc.a.ok (by norm_num)) fun t1 e1 => ?_
  refine Wp.bind (FP2.toblocks_wp hc.b.ok (by norm_num)) fun t2 e2 => ?_
  rw [hc.a.a.outNat, hc.a.b.outNat] at e1
  rw [hc.b.a.outNat, hc.b.b.outNat] at e2
  refine Wp.bind (ECP.getx_wp hU (by omega)) ?_
  rintro ⟨X, U1⟩ ⟨nX, vX, hU1⟩
  dsimp only at nX vX hU1 ⊢
  rw [ECP.xOut_of_ne (fun h0 => Pt.x_ne_of_order tg h0)] at vX
  refine Wp.bind (R := fun t => t = toBE 48 x.val) (Wp.eq ?_) ?_
  · rw [BIG.tobytes_eq ((nX.lim58 (by omega) (by omega)).mono (by norm_num)) (by omega), vX, Int.toNat_natCast]
  intro t3 e3
  refine Wp.bind (ECP.gety_wp hU1 (by omega)) ?_
  rintro ⟨Y, U2⟩ ⟨nY, vY, -⟩
  dsimp only at nY vY ⊢
  refine Wp.bind (R := fun t => t = toBE 48 y.val) (Wp.eq ?_) ?_
  · rw [BIG.tobytes_eq ((nY.lim58 (by omega) (by omega)).mono (by norm_num)) (by omega), vY, Int.toNat_natCast]
  intro t4 e4
  have em : t1 ++ t2 ++ t3 ++ t4 = octets2 v.re v.im ++ (toBE 48 x.val ++ toBE 48 y.val) := by
    rw [e1, e2, e3, e4, octets2]
    simp only [List.append_assoc]
  rw [em]
  refine Wp.bind (digest_wp sha (by
    rw [List.length_append, List.length_append, length_octets2', length_toBE, length_toBE]; norm_num)) ?_
  rintro d ⟨hd, -⟩
  exact Wp.ret ⟨_, ⟨v, x, y, h, ht, rfl, rfl⟩, by rw [mpinKey, ← hd]⟩

/-! ### The functions -/

theorem get_g1_multiple_wp {s g : List UInt8} (typ : Nat) {A : G1} (hs : s.length = 48) (h0 : ¬ r ∣ beNat s)
    (tA : r • A = 0) (hA : (typ = 0 ∧ Str1 g A) ∨ (typ ≠ 0 ∧ g.length = 48 ∧ BytesPt h1 g A)) :
    Wp (get_g1_multiple none typ s g) fun a => ∃ w, a = .ok (w, s, none) ∧ Str1 w (beNat s • A) := by
  have nA : A ≠ 0 := by
    rcases hA with ⟨-, h⟩ | ⟨-, -, h⟩
    · exact h.ne
    · exact h.torsion.2
  unfold get_g1_multiple
  refine Wp.bind (pick_none_wp hs) ?_
  rintro ⟨sx, x', rg⟩ ⟨nx, vx, e⟩
  dsimp only at nx vx e ⊢
  rw [Prod.mk.injEq] at e
  obtain ⟨rfl, rfl⟩ := e
  refine Wp.bind (R := fun P => ∃ P', P = some P' ∧ ECP.Ok P' (2 ^ 10) A) ?_ ?_
  · unfold base
    rcases hA with ⟨ht, h⟩ | ⟨ht, hl, h⟩
    · rw [if_pos ht]
      refine Wp.bind (ECP.frombytes_str h) ?_
      rintro P ⟨hP, -⟩
      refine Wp.bind (ECP.is_infinity_wp hP (by norm_num)) fun b hb => ?_
      rw [if_neg (fun h => nA (hb.1 h))]
      exact Wp.ret ⟨P, rfl, hP.mono (by norm_num)⟩
    · rw [if_neg ht]
      refine Wp.bind (ECP.mapit_str hl h) fun P hP => ?_
      exact Wp.ret ⟨P, rfl, hP⟩
  rintro _ ⟨P, rfl, hP⟩
  dsimp only
  refine Wp.bind (pair.g1mul_nat hP (by norm_num) tA nx vx (by have := beNat_lt48 hs; omega)) fun R hR => ?_
  refine Wp.bind (ECP.tobytes_str hR.okY (by norm_num) (torsion_smul tA _) (smul_ne tA nA h0)) ?_
  rintro ⟨b, R'⟩ ⟨hb, -⟩
  exact Wp.ret ⟨b, rfl, hb⟩

theorem precompute_wp {token cid : List UInt8} {T A : G1} (hT : Str1 token T) (hc : cid.length = 48) (hA : BytesPt h1 cid A) :
    Wp (precompute token cid) fun a => ∃ g1 g2, a = .ok (g1, g2) ∧ g1.length = 576 ∧ g2.length = 576 ∧
      block12 g1 = pairing gen2 T ∧ block12 g2 = pairing gen2 A := by
  unfold precompute
  refine Wp.bind (ECP.frombytes_str hT) ?_
  rintro P ⟨hP, zP⟩
  refine Wp.bind (ECP.is_infinity_wp hP (by norm_num)) fun b hb => ?_
  rw [if_neg (fun h => hT.ne (hb.1 h))]
  refine Wp.bind (ECP.mapit_aff hc hA) fun R hR => ?_
  refine Wp.bind ECP2.generator_wp ?_
  rintro Q ⟨hQ, zQ⟩
  have aQ : ECP2.Aff Q gen2 := ⟨hQ.mono (by norm_num), fun _ => zQ⟩
  have aP : ECP.Aff P T := ⟨hP.mono (by norm_num), fun _ => zP⟩
  refine pairing_bind aQ r_gen2 gen2_ne aP fun z hz => ?_
  obtain ⟨w1, ew1, hw1, vw1⟩ := Props.C54_encode z _ (hz.ok.mono (by norm_num))
  refine Wp.bind (R := fun a => a = w1) (Wp.eq ew1) ?_
  intro c1 hc1
  rw [hc1]
  refine pairing_bind aQ r_gen2 gen2_ne hR fun z' hz' => ?_
  obtain ⟨w2, ew2, hw2, vw2⟩ := Props.C54_encode z' _ (hz'.ok.mono (by norm_num))
  refine Wp.bind (R := fun a => a = w2) (Wp.eq ew2) ?_
  intro c2 hc2
  rw [hc2]
  exact Wp.ret ⟨w1, w2, rfl, hw1, hw2, vw1, vw2⟩

theorem asI32_mod (pin : Nat) : asI32 pin % 2 ^ 14 = ((pin % 2 ^ 14 : Nat) : Int) := by
  unfold asI32
  have h2 : ((2 ^ 32 : Nat) : Int) = 4294967296 := by norm_num
  rw [Int.bmod_def, h2]
  push_cast
  split <;> omega

theorem pow_r_cyc {z : Fp12} (h : z ^ r = 1) : z ^ (p ^ 4 - p ^ 2 + 1) = 1 := by
  obtain ⟨k, hk⟩ : r ∣ p ^ 4 - p ^ 2 + 1 := by decide +kernel
  rw [hk, pow_mul, h, one_pow]

theorem pow_mod_r {z : Fp12} (h : z ^ r = 1) (n : Nat) : z ^ (n % r) = z ^ n := by
  conv_rhs => rw [← Nat.div_add_mod n r, pow_add, pow_mul, h, one_pow, one_mul]

/-- The exponent of `client_key`. -/
theorem keyExp_wp {ρ h : List UInt8} (hρ : ρ.length = 48) (hh : h.length = 48) {α : Type} {k : BIG → Option α} {q : α → Prop}
    (hk : ∀ e : BIG, e.Nrm → e.val = ((beNat ρ + beNat h) % r : Nat) → Wp (k e) q) {a b : BIG}
    (na : a.Nrm) (va : a.val = (beNat ρ : Nat)) (nb : b.Nrm) (vb : b.val = (beNat h : Nat)) :
    Wp (do let z ← a.add b; let z ← z.rmod rom.CURVE_ORDER; k z) q := by
  have h1 := beNat_lt48 hρ
  have h2 := beNat_lt48 hh
  refine Wp.bind (BIG.add_wp (na.lim58 (by omega) (by omega)) (nb.lim58 (by omega) (by omega)) (by norm_num)) ?_
  rintro pz ⟨lz, vz⟩
  refine Wp.bind (BIG.rmod_wp (lz.mono (by norm_num)) (by omega) (by omega) order_nrm (by decide +kernel)) ?_
  rintro pw ⟨nw, vw⟩
  rw [vz, va, vb, order_val, ← Nat.cast_add, ← Int.natCast_mod] at vw
  exact hk pw nw vw

theorem client_key_wp (sha : Nat) {g1 g2 ρ x h wcid : List UInt8} (pin : Nat) {W : G1} (l1 : 576 ≤ g1.length) (l2 : 576 ≤ g2.length)
    (o1 : block12 g1 ^ r = 1) (o2 : block12 g2 ^ r = 1) (hρ : ρ.length = 48) (hx : x.length = 48) (hh : h.length = 48)
    (hW : Str1 wcid W) (tW : r • W = 0) (x0 : ¬ r ∣ beNat x) (hc : ¬ p % r ∣ (beNat ρ + beNat h) % r) :
    Wp (client_key sha g1 g2 pin ρ x h wcid) fun a => ∃ m,
      KeyMsg m ((block12 g1 * block12 g2 ^ (pin % 2 ^ 14)) ^ (beNat ρ + beNat h)) (beNat x • W) ∧ a = .ok (mpinKey sha m) := by
  unfold client_key
  refine Wp.bind (Props.C54_decode g1 l1) fun G1 hG1 => ?_
  refine Wp.bind (Props.C54_decode g2 l2) fun G2 hG2 => ?_
  refine Wp.bind (scalar_wp hρ) ?_
  rintro a ⟨na, va, la⟩
  refine Wp.bind (scalar_wp hx) ?_
  rintro sx ⟨nx, vx, lx⟩
  refine Wp.bind (scalar_wp hh) ?_
  rintro b ⟨nb, vb, lb⟩
  refine Wp.bind (ECP.frombytes_str hW) ?_
  rintro P ⟨hP, -⟩
  refine Wp.bind (ECP.is_infinity_wp hP (by norm_num)) fun bo hb => ?_
  rw [if_neg (fun h => hW.ne (hb.1 h))]
  refine Wp.bind (pair.g1mul_nat hP (by norm_num) tW nx vx (by omega)) fun R hR => ?_
  refine keyExp_wp hρ hh (fun e ne ve => ?_) na va nb vb
  refine Wp.bind (Props.C53_pinpow G2 _ (hG2.mono (by norm_num)) (pow_r_cyc o2) (asI32 pin) PBLEN (by decide)) fun G3 hG3 => ?_
  rw [show ((2 : Int) ^ PBLEN) = 2 ^ 14 from rfl, asI32_mod, zpow_natCast] at hG3
  refine Wp.bind (FP12.mul_wp (hG1.mono (by norm_num)) (hG3.mono (by norm_num))) fun G4 hG4 => ?_
  have o4 : (block12 g1 * block12 g2 ^ (pin % 2 ^ 14)) ^ r = 1 := by
    rw [mul_pow, o1, one_mul, ← pow_mul, mul_comm, pow_mul, o2, one_pow]
  have hm := Nat.mod_lt (beNat ρ + beNat h) (show 0 < r by decide +kernel)
  have hr : r < 2 ^ 382 := by decide +kernel
  obtain ⟨s, c, es, hs, ht⟩ := Props.C52_compow G4 _ hG4 o4 e ne (by omega) (by omega)
    (by rw [ve, Int.natCast_dvd_natCast]; exact hc)
  rw [ve, zpow_natCast, pow_mod_r o4] at ht
  refine Wp.bind (R := fun a => a = s) (Wp.eq es) ?_
  intro c1 hc1
  rw [hc1]
  refine Wp.bind (hash_wp sha hs ht hR (by norm_num) (torsion_smul tW _) (smul_ne tW hW.ne x0)) ?_
  rintro k ⟨m, hm, rfl⟩
  exact Wp.ret ⟨m, hm, rfl⟩

theorem client_key_zero (sha : Nat) {g1 g2 ρ x h wcid : List UInt8} (pin : Nat) {W : G1} (l1 : 576 ≤ g1.length) (l2 : 576 ≤ g2.length)
    (o1 : block12 g1 ^ r = 1) (o2 : block12 g2 ^ r = 1) (hρ : ρ.length = 48) (hx : x.length = 48) (hh : h.length = 48)
    (hW : Str1 wcid W) (tW : r • W = 0) (x0 : ¬ r ∣ beNat x) (hc : r ∣ beNat ρ + beNat h) :
    Wp (client_key sha g1 g2 pin ρ x h wcid) fun a => ∃ m,
      KeyMsg m ((block12 g1 * block12 g2 ^ (pin % 2 ^ 14)) ^ 2 ^ 350) (beNat x • W) ∧ a = .ok (mpinKey sha m) := by
  unfold client_key
  refine Wp.bind (Props.C54_decode g1 l1) fun G1 hG1 => ?_
  refine Wp.bind (Props.C54_decode g2 l2) fun G2 hG2 => ?_
  refine Wp.bind (scalar_wp hρ) ?_
  rintro a ⟨na, va, la⟩
  refine Wp.bind (scalar_wp hx) ?_
  rintro sx ⟨nx, vx, lx⟩
  refine Wp.bind (scalar_wp hh) ?_
  rintro b ⟨nb, vb, lb⟩
  refine Wp.bind (ECP.frombytes_str hW) ?_
  rintro P ⟨hP, -⟩
  refine Wp.bind (ECP.is_infinity_wp hP (by norm_num)) fun bo hb => ?_
  rw [if_neg (fun h => hW.ne (hb.1 h))]
  refine Wp.bind (pair.g1mul_nat hP (by norm_num) tW nx vx (by omega)) fun R hR => ?_
  refine keyExp_wp hρ hh (fun e ne ve => ?_) na va nb vb
  refine Wp.bind (Props.C53_pinpow G2 _ (hG2.mono (by norm_num)) (pow_r_cyc o2) (asI32 pin) PBLEN (by decide)) fun G3 hG3 => ?_
  rw [show ((2 : Int) ^ PBLEN) = 2 ^ 14 from rfl, asI32_mod, zpow_natCast] at hG3
  refine Wp.bind (FP12.mul_wp (hG1.mono (by norm_num)) (hG3.mono (by norm_num))) fun G4 hG4 => ?_
  have o4 : (block12 g1 * block12 g2 ^ (pin % 2 ^ 14)) ^ r = 1 := by
    rw [mul_pow, o1, one_mul, ← pow_mul, mul_comm, pow_mul, o2, one_pow]
  obtain ⟨s, c, es, hs, ht, -⟩ := Props.C52_zero G4 _ hG4 o4 e ne (by rw [ve, Nat.mod_eq_zero_of_dvd hc]; rfl)
  refine Wp.bind (R := fun a => a = s) (Wp.eq es) ?_
  intro c1 hc1
  rw [hc1]
  refine Wp.bind (hash_wp sha hs ht hR (by norm_num) (torsion_smul tW _) (smul_ne tW hW.ne x0)) ?_
  rintro k ⟨m, hm, rfl⟩
  exact Wp.ret ⟨m, hm, rfl⟩

theorem bind_none {α β : Type} {m : Option α} {R : α → Prop} {k : α → Option β} (h : Wp m R) (hk : ∀ a, R a → k a = none) :
    (m >>= k) = none := by
  obtain ⟨a, rfl, ha⟩ := h
  exact hk a ha

theorem client_key_none (sha : Nat) {g1 g2 ρ x h wcid : List UInt8} (pin : Nat) {W : G1} (l1 : 576 ≤ g1.length) (l2 : 576 ≤ g2.length)
    (o2 : block12 g2 ^ r = 1) (hρ : ρ.length = 48) (hx : x.length = 48) (hh : h.length = 48)
    (hW : Str1 wcid W) (tW : r • W = 0) (hn : ¬ r ∣ beNat ρ + beNat h) (hc : p % r ∣ (beNat ρ + beNat h) % r) :
    client_key sha g1 g2 pin ρ x h wcid = none := by
  have hp0 : 0 < (beNat ρ + beNat h) % r := Nat.pos_of_ne_zero fun h0 => hn (Nat.dvd_of_mod_eq_zero h0)
  have hp1 := Nat.mod_lt (beNat ρ + beNat h) (show 0 < r by decide +kernel)
  have hr : r < 2 ^ 382 := by decide +kernel
  unfold client_key
  refine bind_none (Props.C54_decode g1 l1) fun G1 hG1 => ?_
  refine bind_none (Props.C54_decode g2 l2) fun G2 hG2 => ?_
  refine bind_none (scalar_wp hρ) ?_
  rintro a ⟨na, va, la⟩
  refine bind_none (scalar_wp hx) ?_
  rintro sx ⟨nx, vx, lx⟩
  refine bind_none (scalar_wp hh) ?_
  rintro b ⟨nb, vb, lb⟩
  refine bind_none (ECP.frombytes_str hW) ?_
  rintro P ⟨hP, -⟩
  refine bind_none (ECP.is_infinity_wp hP (by norm_num)) fun bo hb => ?_
  rw [if_neg (fun h => hW.ne (hb.1 h))]
  refine bind_none (pair.g1mul_nat hP (by norm_num) tW nx vx (by omega)) fun R hR => ?_
  refine bind_none (BIG.add_wp (na.lim58 (by omega) (by omega)) (nb.lim58 (by omega) (by omega)) (by norm_num)) ?_
  rintro pz ⟨lz, vz⟩
  refine bind_none (BIG.rmod_wp (lz.mono (by norm_num)) (by omega) (by omega) order_nrm (by decide +kernel)) ?_
  rintro pw ⟨nw, vw⟩
  rw [vz, va, vb, order_val, ← Nat.cast_add, ← Int.natCast_mod] at vw
  refine bind_none (Props.C53_pinpow G2 _ (hG2.mono (by norm_num)) (pow_r_cyc o2) (asI32 pin) PBLEN (by decide)) fun G3 hG3 => ?_
  refine bind_none (FP12.mul_wp (hG1.mono (by norm_num)) (hG3.mono (by norm_num))) fun G4 hG4 => ?_
  rw [Props.C52_hangs G4 pw nw (by omega) (by omega) (by rw [vw, Int.natCast_dvd_natCast]; exact hc)]
  rfl

theorem server_key_wp (sha : Nat) {z sst w h hid xid : List UInt8} {xcid : Option (List UInt8)} {Z A U : G1} {S : G2}
    (hZ : Str1 z Z) (hS : Str2 sst S) (tS : r • S = 0) (hA : Str1 hid A) (tA : r • A = 0) (hU : Str1 (xcid.getD xid) U)
    (tU : r • U = 0) (hw : w.length = 48) (hh : h.length = 48) (w0 : ¬ r ∣ beNat w) :
    Wp (server_key sha z sst w h hid xid xcid) fun a => ∃ m,
      KeyMsg m (pairing S (Z + beNat h • A)) (beNat w • U) ∧ a = .ok (mpinKey sha m) := by
  unfold server_key
  refine Wp.bind (ECP2.frombytes_str hS) fun sQ aS => ?_
  refine Wp.bind (ECP2.is_infinity_wp aS.1 (by norm_num)) fun b hb => ?_
  rw [if_neg (fun h' => hS.ne (hb.1 h'))]
  refine Wp.bind (ECP.frombytes_str hZ) ?_
  rintro R1 ⟨hR1, -⟩
  refine Wp.bind (ECP.is_infinity_wp hR1 (by norm_num)) fun b hb => ?_
  rw [if_neg (fun h => hZ.ne (hb.1 h))]
  refine Wp.bind (ECP.frombytes_str hA) ?_
  rintro A1 ⟨hA1, -⟩
  refine Wp.bind (ECP.is_infinity_wp hA1 (by norm_num)) fun b hb => ?_
  rw [if_neg (fun h => hA.ne (hb.1 h))]
  refine Wp.bind (ECP.frombytes_str hU) ?_
  rintro U1 ⟨hU1, -⟩
  refine Wp.bind (ECP.is_infinity_wp hU1 (by norm_num)) fun b hb => ?_
  rw [if_neg (fun h => hU.ne (hb.1 h))]
  refine Wp.bind (scalar_wp hw) ?_
  rintro sw ⟨nw, vw, lw⟩
  refine Wp.bind (scalar_wp hh) ?_
  rintro sh ⟨nh, vh, lh⟩
  refine Wp.bind (pair.g1mul_nat hA1 (by norm_num) tA nh vh (by omega)) fun A2 hA2 => ?_
  refine Wp.bind (ECP.add_wp (hR1.mono (by norm_num)) (hA2.mono (by norm_num))) fun P3 hP3 => ?_
  refine Wp.bind (ECP.affine_wp hP3 (by norm_num)) ?_
  rintro P4 ⟨h4, -, h5, -⟩
  have aP : ECP.Aff P4 (Z + beNat h • A) := ⟨h4.mono (by norm_num), fun h => (h5 h).res⟩
  refine Wp.bind (pair.g1mul_nat hU1 (by norm_num) tU nw vw (by omega)) fun U2 hU2 => ?_
  refine pairing_bind aS tS hS.ne aP fun g hg => ?_
  obtain ⟨s, c, es, hs, ht⟩ := Props.C52_trace g _ (hg.ok.mono (by norm_num))
  refine Wp.bind (R := fun a => a = s) (Wp.eq es) ?_
  intro c1 hc1
  rw [hc1]
  refine Wp.bind (hash_wp sha hs ht hU2 (by norm_num) (torsion_smul tU _) (smul_ne tU hU.ne w0)) ?_
  rintro k ⟨m, hm, rfl⟩
  exact Wp.ret ⟨m, hm, rfl⟩

end mpin

end Amcl
