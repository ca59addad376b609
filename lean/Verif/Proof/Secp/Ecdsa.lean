import Verif.Proof.Secp.Ecdh
/-!
# ECDSA of `ecdh.rs`
-/

set_option exponentiation.threshold 2000

namespace Amcl.Secp

open Spec.Secp
open Spec (Pt toBE beNat length_toBE beNat_toBE toBE_beNat sha256)
open Spec.Rng (numberAt)

seal Spec.toBE

/-! ### Arithmetic modulo the order -/

theorem n_val_nat : n = 115792089237316195423570985008687907852837564279074904382605163141518161494337 := rfl

theorem modmul_n' {a b : BIG} {A B : Nat} (ha : a.Lim (2 ^ 62)) (va : a.val = (A : Int)) (hA : A < 2 ^ 282) (hb : b.Nrm)
    (vb : b.val = (B : Int)) (hB : B < 2 ^ 278) :
    Wp (BIG.modmul a b rom.CURVE_ORDER) fun r => (r.1.Nrm ∧ r.1.val = ((A * B % n : Nat) : Int)) ∧
      (r.2.1.Nrm ∧ r.2.1.val = ((A % n : Nat) : Int)) ∧ r.2.2.Nrm ∧ r.2.2.val = ((B % n : Nat) : Int) := by
  have h0 := n_pos
  have h1 := n_lt
  refine (BIG.modmul_wp ha (by omega) (by omega) ((hb.lim56 (by omega) (by omega)).mono (by norm_num)) (by omega)
    (by omega) order_nrm (by rw [order_val]; omega) (by rw [order_val]; omega)).mono ?_
  rintro r ⟨⟨n1, v1⟩, ⟨n2, v2⟩, n3, v3⟩
  refine ⟨⟨n1, ?_⟩, ⟨n2, ?_⟩, n3, ?_⟩
  · rw [v1, va, vb, order_val]; push_cast; rfl
  · rw [v2, va, order_val]; push_cast; rfl
  · rw [v3, vb, order_val]; push_cast; rfl

theorem modmul_n {a b : BIG} {A B : Nat} (ha : a.Nrm) (va : a.val = (A : Int)) (hA : A < 2 ^ 278) (hb : b.Nrm)
    (vb : b.val = (B : Int)) (hB : B < 2 ^ 278) :
    Wp (BIG.modmul a b rom.CURVE_ORDER) fun r => (r.1.Nrm ∧ r.1.val = ((A * B % n : Nat) : Int)) ∧
      (r.2.1.Nrm ∧ r.2.1.val = ((A % n : Nat) : Int)) ∧ r.2.2.Nrm ∧ r.2.2.val = ((B % n : Nat) : Int) :=
  modmul_n' ((ha.lim56 (by omega) (by omega)).mono (by norm_num)) va (by omega) hb vb hB

theorem gcd_n {A : Nat} : Int.gcd (A : Int) (n : Int) = 1 ↔ A % n ≠ 0 := by
  rw [Int.gcd_natCast_natCast, ← Nat.coprime_iff_gcd_eq_one, Nat.coprime_comm, prime_n.coprime_iff_not_dvd, Nat.dvd_iff_mod_eq_zero]

theorem invmodp_n {a : BIG} {A : Nat} (ha : a.Nrm) (va : a.val = (A : Int)) (hA : A < 2 ^ 278) (h : A % n ≠ 0) :
    Wp (BIG.invmodp a rom.CURVE_ORDER) fun r => r.Nrm ∧ ∃ C : Nat, C < n ∧ r.val = (C : Int) ∧ (C : ZMod n) = (A : ZMod n)⁻¹ := by
  have h0 := prime_n.one_lt
  have h1 := n_lt
  refine (BIG.invmodp_wp ((ha.lim56 (by omega) (by omega)).mono (by norm_num)) (by omega) (by omega) order_nrm
    (by rw [order_val]; omega) (by rw [order_val]; omega) (by rw [order_val, n_val]; norm_num)
    (by rw [va, order_val]; exact gcd_n.2 h)).mono ?_
  rintro r ⟨nr, r0, r1, hr⟩
  rw [va, order_val] at hr
  rw [order_val] at r1
  obtain ⟨C, hC⟩ := Int.eq_ofNat_of_zero_le r0
  refine ⟨nr, C, by omega, hC, ?_⟩
  rw [hC] at hr
  have : ((A : Int) : ZMod n) * ((C : Int) : ZMod n) = 1 := by
    have := (ZMod.intCast_eq_intCast_iff _ _ n).2 hr
    push_cast at this ⊢
    exact this
  push_cast at this
  exact (inv_eq_of_mul_eq_one_right this).symm

theorem invmodp_n_none {a : BIG} {A : Nat} (ha : a.Nrm) (va : a.val = (A : Int)) (hA : A < 2 ^ 278) (h : A % n = 0) :
    BIG.invmodp a rom.CURVE_ORDER = none := by
  have h0 := prime_n.one_lt
  have h1 := n_lt
  refine BIG.invmodp_none ((ha.lim56 (by omega) (by omega)).mono (by norm_num)) (by omega) (by omega) order_nrm
    (by rw [order_val]; omega) (by rw [order_val]; omega) (by rw [order_val, n_val]; norm_num) ?_
  rw [va, order_val, Ne, gcd_n]
  exact fun c => c h

theorem val_of_cast {a : Nat} {z : ZMod n} (ha : a < n) (h : (a : ZMod n) = z) : a = z.val := by
  rw [← h, ZMod.val_natCast_of_lt ha]

theorem zmod_ne {a : Nat} : (a : ZMod n) ≠ 0 ↔ a % n ≠ 0 := by
  rw [Ne, ZMod.natCast_eq_zero_iff, Nat.dvd_iff_mod_eq_zero]

/-! ### Two multiples of points with large ordinates -/

namespace ECP

theorem jointLawsY : Amcl.Joint.Laws ops (fun P g => Ok P 32 g) (fun P g => OkY P (2 ^ 12) g)
    (fun P g => OkY P (2 ^ 13) g) (fun P => ∃ g, OkY P (2 ^ 13) g) where
  res h := h.okY.mono (by norm_num)
  up h := h.mono (by norm_num)
  any h := ⟨_, h⟩
  add0 h h' := add_wpY (h.mono (by norm_num)) (h'.mono (by norm_num))
  dbl0 h := dbl_wpY (h.mono (by norm_num))
  neg h := (neg_wpY h (by norm_num)).mono fun _ h => h.okY.mono (by norm_num)
  cmove h h' hd := cmove_eqY h.choose_spec h'.choose_spec (by norm_num) hd

theorem mul2_wpY {P Q : ECP} {g h : G1} (hP : OkY P (2 ^ 12) g) (hQ : OkY Q (2 ^ 12) h) {e f : BIG} (he : e.Nrm)
    (e0 : 0 ≤ e.val) (e1 : e.val < 2 ^ 276) (hf : f.Nrm) (f0 : 0 ≤ f.val) (f1 : f.val < 2 ^ 276) :
    Wp (mul2 P e Q f) fun r => Post2 r (e.val • g + f.val • h) :=
  Joint.mul2_wp jointLawsY (fun h => (affine_wp h (by norm_num)).mono fun _ h => ⟨h.1, h.2.2.1⟩) hP hQ he e0 e1
    hf f0 f1

end ECP

namespace ecdh

/-! ### The hash value -/

open Amcl.ecdh (hashit IsSha length_H hashit_eq)

theorem hash_eq {sha : Nat} (hs : IsSha sha) {f : List UInt8} (hf : f.length + 17 ≤ 2 ^ 29) :
    hashit sha f 0 none 32 (List.replicate 32 0) = some ((Spec.Kdf.H sha f).take 32) ∧ ((Spec.Kdf.H sha f).take 32).length = 32 := by
  have hd : Amcl.ecdh.data f 0 none = f := by simp [Amcl.ecdh.data]
  have h1 := hashit_eq hs (n := 0) (b := none) (by norm_num) (by rw [hd]; exact hf) (pad := 32) (w := List.replicate 32 0) (by simp)
  have hl := length_H hs hf
  have h2 := hs.pos
  rw [hd, Amcl.ecdh.fit, if_neg (by norm_num), if_pos h2] at h1
  refine ⟨by simpa using h1, by rw [List.length_take]; omega⟩

theorem hash_unknown {sha : Nat} (h : ¬ IsSha sha) (f : List UInt8) :
    hashit sha f 0 none 32 (List.replicate 32 0) = some (List.replicate 32 0) := by
  have hd : ∀ x, mpin.digest sha x = some none := by
    intro x
    unfold IsSha at h
    unfold mpin.digest
    rw [if_neg (by omega), if_neg (by omega), if_neg (by omega)]; rfl
  rw [hashit, Amcl.ecdh.digest64, hd]
  simp only [Option.bind_eq_bind, Option.bind_some, pure]
  rw [if_neg (by norm_num)]
  split
  · rw [Amcl.ecdh.copy_eq _ _ _ _ _ (by simp) (by simp)]
    simp
  · rename_i c
    rw [Amcl.ecdh.copy_eq _ _ _ _ _ (by simp; omega) (by simp; omega), Option.bind_some]
    have := Amcl.ecdh.clear_eq (32 - sha) [] (List.replicate 32 0) (by simp)
    simp only [List.length_nil, List.nil_append] at this
    have e : List.take (32 - sha) (List.replicate 32 (0 : UInt8)) ++ List.take sha (List.drop 0 (List.replicate 64 0)) ++
        List.drop (32 - sha + sha) (List.replicate 32 0) = List.replicate 32 0 := by
      simp only [List.take_replicate, List.drop_replicate, List.replicate_append_replicate]
      congr 1; omega
    rw [e, this]
    simp only [List.drop_replicate, List.replicate_append_replicate]
    congr 2; omega

theorem hashNum_unknown {sha : Nat} (h : ¬ IsSha sha) (f : List UInt8) : hashNum sha f = 0 := by
  unfold IsSha at h
  rw [hashNum, Spec.Kdf.H, Spec.mpinDigest, if_neg (by omega), if_neg (by omega), if_neg (by omega)]
  rfl

theorem hash_wp (sha : Nat) {f : List UInt8} (hf : f.length + 17 ≤ 2 ^ 29) :
    Wp (hashit sha f 0 none 32 (List.replicate 32 0)) fun b => 32 ≤ b.length ∧ beNat (b.take 32) = hashNum sha f := by
  by_cases hs : IsSha sha
  · obtain ⟨h1, h2⟩ := hash_eq hs hf
    refine Wp.of_eq h1 ⟨h2.ge, ?_⟩
    rw [hashNum, List.take_of_length_le (by omega : _ ≤ 32)]
  · refine Wp.of_eq (hash_unknown hs f) ⟨by simp, ?_⟩
    rw [hashNum_unknown hs]
    decide

/-! ### Signing -/

/-- Everything one pass of the loop starts from. -/
structure Start (d : Nat) (G : ECP) (sc fb : BIG) (e : Nat) : Prop where
  hG : ECP.Ok G 2 gen
  hsc : sc.Nrm
  hd : ∃ d' : Nat, sc.val = (d' : Int) ∧ d' < 2 ^ 256 ∧ (d' : ZMod n) = d
  hfb : fb.Nrm
  he : fb.val = (e : Int)
  lt : e < 2 ^ 256

variable {seed : List UInt8} {i d e : Nat} {G : ECP} {sc fb : BIG} {g : RAND}

theorem abscissa_wp {G : ECP} (hG : ECP.Ok G 2 gen) {u : BIG} {U : Nat} (nu : u.Nrm) (vu : u.val = (U : Int)) (hU : U < n) :
    ∃ V r, G.mul u = some V ∧ V.getx = some r ∧ r.1.Nrm ∧ ∃ a : Nat, r.1.val = (a : Int) ∧ a < 2 ^ 256 ∧ (U = 0 → a = 0) ∧
      ∀ x, HasX (U • gen) x → a = x.val := by
  by_cases h0 : U = 0
  · subst h0
    obtain ⟨y, -, -, e⟩ := ECP.new_coords
    obtain ⟨r, e1, n1, v1⟩ := ECP.new_getx e
    refine ⟨_, r, by rw [ECP.mul_zero nu vu, e], e1, n1, 0, v1, by norm_num, fun _ => rfl, fun x hx => ?_⟩
    exact absurd (zero_nsmul gen) hx.ne
  · obtain ⟨V, e, hV, -⟩ := ECP.mulY hG.okY nu vu hU
    have hne : U • gen ≠ 0 := by
      rw [Ne, smul_eq_zero gen_ne, Nat.mod_eq_of_lt hU]; exact h0
    obtain ⟨x, hx⟩ := hasX_of_ne hne
    obtain ⟨r, e1, n1, v1⟩ := hx.getx hV
    exact ⟨V, r, e, e1, n1, x.val, v1, val_lt_pow x, fun h => absurd h h0, fun x' hx' => by rw [hx.inj hx']⟩

/-- No finite point or an abscissa that is 0 modulo the order: the pass is repeated. -/
theorem attempt_skip (S : Start d G sc fb e) (hg : RAND.Gen (sha256 seed) i g)
    (h : ∀ x, HasX ((numberAt seed i 512 % n) • gen) x → x.val % n = 0) :
    Wp (signAttempt G fb sc g) fun r => RAND.Gen (sha256 seed) (i + 128) r.1 ∧ r.2.1 = sc ∧ r.2.2 = none := by
  unfold signAttempt
  refine Wp.bind (randomnum_n hg) ?_
  rintro ⟨u, g1⟩ ⟨nu, vu, hg1⟩
  refine Wp.bind (randomnum_n hg1) ?_
  rintro ⟨w, g2⟩ ⟨nw, vw, hg2⟩
  dsimp only at nu vu hg1 nw vw hg2 ⊢
  have hU : numberAt seed i 512 % n < n := Nat.mod_lt _ n_pos
  generalize numberAt seed i 512 % n = U at hU vu h
  obtain ⟨V, ⟨vx, V'⟩, e1, e2, nr, a, va, ha, h0, hx⟩ := abscissa_wp S.hG nu vu hU
  refine Wp.bind (Wp.eq e1) ?_
  rintro _ rfl
  refine Wp.bind (Wp.eq e2) ?_
  rintro _ rfl
  dsimp only at nr va ⊢
  refine Wp.bind (rmod_n nr va (by omega)) ?_
  rintro cb ⟨nc, vc⟩
  have hz : a % n = 0 := by
    by_cases hu : U = 0
    · rw [h0 hu]; rfl
    · have hne : U • gen ≠ 0 := by
        rw [Ne, smul_eq_zero gen_ne, Nat.mod_eq_of_lt hU]; exact hu
      obtain ⟨x, hx'⟩ := hasX_of_ne hne
      rw [hx x hx']; exact h x hx'
  rw [if_pos ((BIG.iszilch_spec nc).2 (by rw [vc, hz]; rfl))]
  exact Wp.ret ⟨hg2, rfl, rfl⟩

/-- A second random number 0: the inversion does not end. -/
theorem attempt_stuck (S : Start d G sc fb e) (hg : RAND.Gen (sha256 seed) i g) {x : Fp}
    (hx' : HasX ((numberAt seed i 512 % n) • gen) x) (hr : x.val % n ≠ 0) (hw : numberAt seed (i + 64) 512 % n = 0) :
    signAttempt G fb sc g = none := by
  unfold signAttempt
  obtain ⟨⟨u, g1⟩, e1, nu, vu, hg1⟩ := randomnum_n hg
  obtain ⟨⟨w, g2⟩, e2, nw, vw, hg2⟩ := randomnum_n hg1
  rw [hw] at vw
  dsimp only at nu vu hg1 nw vw hg2
  have hU : numberAt seed i 512 % n < n := Nat.mod_lt _ n_pos
  have hn := n_lt
  generalize numberAt seed i 512 % n = U at hU vu hx'
  obtain ⟨V, ⟨vx, V'⟩, e3, e4, nr, a, va, ha, h0, hx⟩ := abscissa_wp S.hG nu vu hU
  dsimp only at nr va
  obtain ⟨cb, e5, nc, vc⟩ := rmod_n nr va (by omega)
  obtain ⟨⟨u', w1, w'⟩, e6, ⟨nu', vu'⟩, -⟩ := modmul_n nu vu (by omega) nw vw (by norm_num)
  dsimp only at nu' vu'
  have e7 := invmodp_n_none nu' vu' (by norm_num) (by norm_num)
  have hz : ¬ cb.iszilch = true := by
    rw [BIG.iszilch_spec nc, vc, hx x hx']; exact_mod_cast hr
  simp only [e1, e2, e3, e4, e5, e6, e7, Option.bind_eq_bind, Option.bind_some, Option.bind_none, if_neg hz]

/-- The number `s` of the signature. -/
def sNum (d e u r : Nat) : Nat := ((u : ZMod n)⁻¹ * (e + r * d) : ZMod n).val

theorem attempt_main (S : Start d G sc fb e) (hg : RAND.Gen (sha256 seed) i g) {x : Fp}
    (hx' : HasX ((numberAt seed i 512 % n) • gen) x) (hr : x.val % n ≠ 0) (hw : numberAt seed (i + 64) 512 % n ≠ 0) :
    Wp (signAttempt G fb sc g) fun r => RAND.Gen (sha256 seed) (i + 128) r.1 ∧ Start d G r.2.1 fb e ∧
      (sNum d e (numberAt seed i 512 % n) (x.val % n) = 0 → r.2.2 = none) ∧
      (sNum d e (numberAt seed i 512 % n) (x.val % n) ≠ 0 → ∃ cb db : BIG, r.2.2 = some (cb, db) ∧ cb.Nrm ∧
        cb.val = ((x.val % n : Nat) : Int) ∧ db.Nrm ∧ db.val = (sNum d e (numberAt seed i 512 % n) (x.val % n) : Int)) := by
  unfold signAttempt
  refine Wp.bind (randomnum_n hg) ?_
  rintro ⟨u, g1⟩ ⟨nu, vu, hg1⟩
  refine Wp.bind (randomnum_n hg1) ?_
  rintro ⟨w, g2⟩ ⟨nw, vw, hg2⟩
  dsimp only at nu vu hg1 nw vw hg2 ⊢
  have hU : numberAt seed i 512 % n < n := Nat.mod_lt _ n_pos
  have hW : numberAt seed (i + 64) 512 % n < n := Nat.mod_lt _ n_pos
  have hn := n_lt
  have hn0 := n_pos
  generalize numberAt seed i 512 % n = U at hU vu hx' ⊢
  generalize numberAt seed (i + 64) 512 % n = W at hW vw hw
  obtain ⟨V, ⟨vx, V'⟩, e1, e2, nr, a, va, ha, h0, hx⟩ := abscissa_wp S.hG nu vu hU
  refine Wp.bind (Wp.eq e1) ?_
  rintro _ rfl
  refine Wp.bind (Wp.eq e2) ?_
  rintro _ rfl
  dsimp only at nr va ⊢
  refine Wp.bind (rmod_n nr va (by omega)) ?_
  rintro cb ⟨nc, vc⟩
  rw [hx x hx'] at vc
  have hR : x.val % n < n := Nat.mod_lt _ n_pos
  generalize x.val % n = R at hr hR vc ⊢
  have hz : ¬ cb.iszilch = true := by
    rw [BIG.iszilch_spec nc, vc]; exact_mod_cast hr
  rw [if_neg hz]
  refine Wp.bind (modmul_n nu vu (by omega) nw vw (by omega)) ?_
  rintro ⟨u1, uu, w1⟩ ⟨⟨nu1, vu1⟩, -, nw1, vw1⟩
  rw [Nat.mod_eq_of_lt hW] at vw1
  dsimp only at nu1 vu1 nw1 vw1 ⊢
  have hUn : U ≠ 0 := by
    rintro rfl
    exact hx'.ne (zero_nsmul gen)
  have hUz : (U : ZMod n) ≠ 0 := by rw [zmod_ne, Nat.mod_eq_of_lt hU]; exact hUn
  have hWz : (W : ZMod n) ≠ 0 := by rw [zmod_ne, Nat.mod_eq_of_lt hW]; exact hw
  have hm : ∀ A, A % n < n := fun A => Nat.mod_lt _ n_pos
  have hUW := hm (U * W)
  refine Wp.bind (invmodp_n nu1 vu1 (by omega) ?_) ?_
  · rw [Nat.mod_mod, ← zmod_ne]; push_cast; exact mul_ne_zero hUz hWz
  rintro u2 ⟨nu2, C, hC, vu2, hCz⟩
  rw [ZMod.natCast_mod] at hCz
  push_cast at hCz
  obtain ⟨d', vd, hd', hdz⟩ := S.hd
  refine Wp.bind (modmul_n S.hsc vd (by omega) nc vc (by omega)) ?_
  rintro ⟨db, sc', cb'⟩ ⟨⟨n1, v1⟩, ⟨n2, v2⟩, n3, v3⟩
  rw [Nat.mod_eq_of_lt hR] at v3
  dsimp only at n1 v1 n2 v2 n3 v3 ⊢
  have h1 := hm (d' * R)
  have hlt := S.lt
  refine Wp.bind (BIG.add_wp (n1.lim56 (by omega) (by omega)) (S.hfb.lim56 (by rw [S.he]; omega) (by rw [S.he]; omega)) (by norm_num)) ?_
  rintro db1 ⟨n4, v4⟩
  rw [v1, S.he] at v4
  refine Wp.bind (modmul_n' (A := d' * R % n + e) (n4.mono (by norm_num)) (by rw [v4]; push_cast; rfl) (by omega) nw1 vw1 (by omega)) ?_
  rintro ⟨db2, x1, x2⟩ ⟨⟨n5, v5⟩, -⟩
  dsimp only at n5 v5 ⊢
  have h2 := hm ((d' * R % n + e) * W)
  refine Wp.bind (modmul_n nu2 vu2 (by omega) n5 v5 (by omega)) ?_
  rintro ⟨db3, x3, x4⟩ ⟨⟨n6, v6⟩, -⟩
  dsimp only at n6 v6 ⊢
  have hs : C * ((d' * R % n + e) * W % n) % n = sNum d e U R := by
    refine val_of_cast (hm _) ?_
    rw [ZMod.natCast_mod, Nat.cast_mul, ZMod.natCast_mod, Nat.cast_mul, Nat.cast_add, ZMod.natCast_mod, Nat.cast_mul, hCz, hdz]
    field_simp
    ring
  rw [hs] at v6
  have h3 := hm d'
  refine Wp.ret ⟨hg2, ⟨S.hG, n2, ⟨d' % n, v2, by omega, by rw [ZMod.natCast_mod]; exact hdz⟩, S.hfb, S.he, S.lt⟩, fun h => ?_, fun h => ?_⟩
  · exact if_pos ((BIG.iszilch_spec n6).2 (by rw [v6, h]; rfl))
  · refine ⟨cb', db3, if_neg ?_, n3, v3, n6, v6⟩
    rw [BIG.iszilch_spec n6, v6]; exact_mod_cast h

theorem attempt_retry (S : Start d G sc fb e) (hg : RAND.Gen (sha256 seed) i g) (h : Retry d e seed i) :
    Wp (signAttempt G fb sc g) fun r => RAND.Gen (sha256 seed) (i + 128) r.1 ∧ Start d G r.2.1 fb e ∧ r.2.2 = none := by
  by_cases c : ∀ x, HasX ((numberAt seed i 512 % n) • gen) x → x.val % n = 0
  · refine (attempt_skip S hg c).mono ?_
    rintro r ⟨h1, h2, h3⟩
    exact ⟨h1, by rw [h2]; exact S, h3⟩
  · push Not at c
    obtain ⟨x, hx, hr⟩ := c
    refine (attempt_main S hg hx hr fun hw => h.1 ⟨hw, x, hx, hr⟩).mono ?_
    rintro r ⟨h1, h2, h3, -⟩
    refine ⟨h1, h2, h3 ?_⟩
    by_contra hs
    exact h.2 _ _ ⟨x, hx, rfl, hr, ZMod.val_lt _, hs, ZMod.natCast_zmod_val _⟩

theorem attempt_good (S : Start d G sc fb e) (hg : RAND.Gen (sha256 seed) i g) (h : ¬ Stuck seed i) {r s : Nat}
    (h' : IsSignature d e (numberAt seed i 512 % n) r s) :
    Wp (signAttempt G fb sc g) fun q => RAND.Gen (sha256 seed) (i + 128) q.1 ∧ ∃ cb db : BIG, q.2.2 = some (cb, db) ∧ cb.Nrm ∧
        cb.val = (r : Int) ∧ db.Nrm ∧ db.val = (s : Int) := by
  obtain ⟨x, hx, rfl, hr, hs, hs0, e1⟩ := h'
  have hs' := val_of_cast hs e1
  refine (attempt_main S hg hx hr fun hw => h ⟨hw, x, hx, hr⟩).mono ?_
  rintro q ⟨h1, -, -, h4⟩
  rw [sNum, ← hs'] at h4
  exact ⟨h1, h4 hs0⟩

theorem signLoop_good : ∀ (k : Nat) {i : Nat} {sc : BIG} {g : RAND}, Start d G sc fb e → RAND.Gen (sha256 seed) i g →
    (∀ j < k, Retry d e seed (i + 128 * j)) → ¬ Stuck seed (i + 128 * k) → ∀ {r s : Nat},
    IsSignature d e (oneTime seed (i + 128 * k)) r s →
    Wp (signLoop G fb sc g) fun q => RAND.Gen (sha256 seed) (i + 128 * (k + 1)) q.1 ∧ q.2.1.Nrm ∧ q.2.1.val = (r : Int) ∧
      q.2.2.Nrm ∧ q.2.2.val = (s : Int) := by
  intro k
  induction k with
  | zero =>
    intro i sc g S hg _ h1 r s h2
    rw [signLoop]
    refine Wp.bind (attempt_good S hg h1 h2) ?_
    rintro ⟨g', sc', o⟩ ⟨h3, cb, db, rfl, h4⟩
    exact Wp.ret ⟨h3, h4⟩
  | succ k ih =>
    intro i sc g S hg h0 h1 r s h2
    rw [signLoop]
    refine Wp.bind (attempt_retry S hg (h0 0 (by omega))) ?_
    rintro ⟨g', sc', o⟩ ⟨h3, h4, rfl⟩
    rw [show i + 128 * (k + 1) = i + 128 + 128 * k by ring] at h1 h2
    have := ih h4 h3 (fun j hj => by
      have := h0 (j + 1) (by omega)
      rwa [show i + 128 * (j + 1) = i + 128 + 128 * j by ring] at this) h1 h2
    rwa [show i + 128 + 128 * (k + 1) = i + 128 * (k + 1 + 1) by ring] at this

theorem signLoop_stuck : ∀ (k : Nat) {i : Nat} {sc : BIG} {g : RAND}, Start d G sc fb e → RAND.Gen (sha256 seed) i g →
    (∀ j < k, Retry d e seed (i + 128 * j)) → Stuck seed (i + 128 * k) → signLoop G fb sc g = none := by
  intro k
  induction k with
  | zero =>
    intro i sc g S hg _ h1
    obtain ⟨hw, x, hx, hr⟩ := h1
    rw [signLoop, attempt_stuck S hg hx hr hw]; rfl
  | succ k ih =>
    intro i sc g S hg h0 h1
    obtain ⟨⟨g', sc', o⟩, e1, h3, h4, h5⟩ := attempt_retry S hg (h0 0 (by omega))
    dsimp only at h3 h4 h5
    subst h5
    rw [show i + 128 * (k + 1) = i + 128 + 128 * k by ring] at h1
    have := ih h4 h3 (fun j hj => by
      have := h0 (j + 1) (by omega)
      rwa [show i + 128 * (j + 1) = i + 128 + 128 * j by ring] at this) h1
    rw [signLoop, e1]
    exact this

theorem signLoop_forever (S : Start d G sc fb e) (hg : RAND.Gen (sha256 seed) i g) (h : ∀ j, Retry d e seed (i + 128 * j)) :
    signLoop G fb sc g = none := by
  by_contra hne
  obtain ⟨q, hq⟩ := Option.ne_none_iff_exists'.1 hne
  refine signLoop.partial_correctness G fb (motive := fun sc g _ => ∀ i, Start d G sc fb e → RAND.Gen (sha256 seed) i g →
    (∀ j, Retry d e seed (i + 128 * j)) → False) ?_ sc g q hq i S hg h
  intro f ih sc g q hq i S hg h
  obtain ⟨⟨g', sc', o⟩, e1, h3, h4, h5⟩ := attempt_retry S hg (h 0)
  dsimp only at h3 h4 h5
  subst h5
  rw [e1] at hq
  refine ih sc' g' q hq (i + 128) h4 h3 fun j => ?_
  have := h (j + 1)
  rwa [show i + 128 * (j + 1) = i + 128 + 128 * j by ring] at this

theorem start_wp {s : List UInt8} (hs : 32 ≤ s.length) {b : List UInt8} (hb : 32 ≤ b.length) {G : ECP} (hG : ECP.Ok G 2 gen)
    {sc fb : BIG} (h1 : sc.Nrm ∧ sc.val = beNat (s.take 32)) (h2 : fb.Nrm ∧ fb.val = beNat (b.take 32)) :
    Start (beNat (s.take 32)) G sc fb (beNat (b.take 32)) := by
  have l1 := Spec.beNat_lt (s.take 32)
  rw [List.length_take, Nat.min_eq_left hs] at l1
  have l2 := Spec.beNat_lt (b.take 32)
  rw [List.length_take, Nat.min_eq_left hb] at l2
  exact ⟨hG, h1.1, ⟨_, h1.2, by omega, rfl⟩, h2.1, h2.2, by omega⟩

/-! ### Lengths -/

theorem IsSignature.lt {d e u r s : Nat} (h : IsSignature d e u r s) : r < n ∧ s < n := by
  obtain ⟨x, -, rfl, -, hs, -⟩ := h
  exact ⟨Nat.mod_lt _ n_pos, hs⟩

section
variable {sha : Nat} {s f c c' : List UInt8}

theorem sign_good (hf : f.length + 17 ≤ 2 ^ 29) (h32 : 32 ≤ s.length) (hc : 32 ≤ c.length) (hc' : 32 ≤ c'.length)
    (hg : RAND.Gen (sha256 seed) i g) (k : Nat) (h0 : ∀ j < k, Retry (beNat (s.take 32)) (hashNum sha f) seed (i + 128 * j))
    (h1 : ¬ Stuck seed (i + 128 * k)) {r t : Nat} (h2 : IsSignature (beNat (s.take 32)) (hashNum sha f) (oneTime seed (i + 128 * k)) r t) :
    Wp (ecpsp_dsa sha g s f c c') fun q => RAND.Gen (sha256 seed) (i + 128 * (k + 1)) q.1 ∧ q.2 = (0, toBE 32 r ++ c.drop 32, toBE 32 t ++ c'.drop 32) := by
  unfold ecpsp_dsa
  have hn := n_lt
  have hlt := IsSignature.lt h2
  refine Wp.bind (hash_wp sha hf) ?_
  rintro b ⟨hb, hb'⟩
  refine Wp.bind ECP.generator_wp fun G hG => ?_
  refine Wp.bind (BIG.frombytes_wp h32) fun sc hsc => ?_
  refine Wp.bind (BIG.frombytes_wp hb) fun fb hfb => ?_
  rw [← hb'] at h0 h2
  refine Wp.bind (signLoop_good k (start_wp h32 hb hG hsc hfb) hg h0 h1 h2) ?_
  rintro ⟨g', cb, db⟩ ⟨hg', n1, v1, n2, v2⟩
  dsimp only at hg' n1 v1 n2 v2 ⊢
  refine Wp.bind (Wp.eq (n1.tobytes v1 (by omega))) ?_
  rintro _ rfl
  refine Wp.bind (Wp.eq (put_eq (by rw [length_toBE]; exact hc))) ?_
  rintro _ rfl
  refine Wp.bind (Wp.eq (n2.tobytes v2 (by omega))) ?_
  rintro _ rfl
  refine Wp.bind (Wp.eq (put_eq (by rw [length_toBE]; exact hc'))) ?_
  rintro _ rfl
  exact Wp.ret ⟨hg', by rw [length_toBE, length_toBE]⟩

theorem sign_none (hf : f.length + 17 ≤ 2 ^ 29) (h32 : 32 ≤ s.length) (hg : RAND.Gen (sha256 seed) i g)
    (h : (∃ k, (∀ j < k, Retry (beNat (s.take 32)) (hashNum sha f) seed (i + 128 * j)) ∧ Stuck seed (i + 128 * k)) ∨
      ∀ j, Retry (beNat (s.take 32)) (hashNum sha f) seed (i + 128 * j)) : ecpsp_dsa sha g s f c c' = none := by
  unfold ecpsp_dsa
  obtain ⟨b, e1, hb, hb'⟩ := hash_wp sha hf
  obtain ⟨G, e2, hG⟩ := ECP.generator_wp
  obtain ⟨sc, e3, hsc⟩ := BIG.frombytes_wp h32
  obtain ⟨fb, e4, hfb⟩ := BIG.frombytes_wp hb
  rw [← hb'] at h
  have e5 : signLoop G fb sc g = none := by
    rcases h with ⟨k, h1, h2⟩ | h
    · exact signLoop_stuck k (start_wp h32 hb hG hsc hfb) hg h1 h2
    · exact signLoop_forever (start_wp h32 hb hG hsc hfb) hg h
  simp only [e1, e2, e3, e4, e5, Option.bind_eq_bind, Option.bind_some, Option.bind_none]

end

/-! ### Verification -/

theorem range_iff {cb db : BIG} {r t : Nat} (n1 : cb.Nrm) (v1 : cb.val = (r : Int)) (n2 : db.Nrm) (v2 : db.val = (t : Int)) :
    (cb.iszilch = true ∨ cb.comp rom.CURVE_ORDER ≥ 0 ∨ db.iszilch = true ∨ db.comp rom.CURVE_ORDER ≥ 0) ↔
      ¬ (0 < r ∧ r < n ∧ 0 < t ∧ t < n) := by
  have a1 := BIG.iszilch_spec n1
  have a2 := BIG.iszilch_spec n2
  have a3 := BIG.comp_lt n1 order_nrm
  have a4 := BIG.comp_lt n2 order_nrm
  rw [a1, a2, ge_iff_le, ge_iff_le, ← not_lt, ← not_lt, a3, a4, v1, v2, order_val]
  omega

section
variable {w f c c' : List UInt8}

theorem verify_range {sha : Nat} {b : List UInt8} (hb : hashit sha f 0 none 32 (List.replicate 32 0) = some b) (hb' : 32 ≤ b.length)
    (hc : 32 ≤ c.length) (hc' : 32 ≤ c'.length)
    (h : ¬ (0 < beNat (c.take 32) ∧ beNat (c.take 32) < n ∧ 0 < beNat (c'.take 32) ∧ beNat (c'.take 32) < n)) :
    ecpvp_dsa sha w f c c' = some INVALID := by
  unfold ecpvp_dsa
  obtain ⟨G, e2, hG⟩ := ECP.generator_wp
  obtain ⟨cb, e3, n1, v1⟩ := BIG.frombytes_wp hc
  obtain ⟨db, e4, n2, v2⟩ := BIG.frombytes_wp hc'
  obtain ⟨fb, e5, -⟩ := BIG.frombytes_wp hb'
  simp only [hb, e2, e3, e4, e5, Option.bind_eq_bind, Option.bind_some]
  rw [if_pos ((range_iff n1 v1 n2 v2).2 h)]
  rfl

/-- The state after the two products. -/
theorem verify_start {sha : Nat} {b : List UInt8} (hb : hashit sha f 0 none 32 (List.replicate 32 0) = some b) (hb' : 32 ≤ b.length)
    (hc : 32 ≤ c.length) (hc' : 32 ≤ c'.length)
    (h : 0 < beNat (c.take 32) ∧ beNat (c.take 32) < n ∧ 0 < beNat (c'.take 32) ∧ beNat (c'.take 32) < n) :
    ∃ (G : ECP) (h2 tb cb : BIG), ECP.Ok G 2 gen ∧ h2.Nrm ∧ tb.Nrm ∧ cb.Nrm ∧
      h2.val = ((beNat (c.take 32) * (beNat (c'.take 32) : ZMod n)⁻¹ : ZMod n).val : Int) ∧
      tb.val = ((beNat (b.take 32) * (beNat (c'.take 32) : ZMod n)⁻¹ : ZMod n).val : Int) ∧ cb.val = (beNat (c.take 32) : Int) ∧
      ecpvp_dsa sha w f c c' = (do
        let W ← ECP.frombytes w
        if ← W.is_infinity then return ERROR
        let P ← W.mul2 h2 G tb
        if ← P.is_infinity then return INVALID
        let (x, _) ← P.getx
        let db ← BIG.rmod x rom.CURVE_ORDER
        if db.comp cb ≠ 0 then return INVALID
        return 0) := by
  unfold ecpvp_dsa
  obtain ⟨G, e2, hG⟩ := ECP.generator_wp
  obtain ⟨cb, e3, n1, v1⟩ := BIG.frombytes_wp hc
  obtain ⟨db, e4, n2, v2⟩ := BIG.frombytes_wp hc'
  obtain ⟨fb, e5, n3, v3⟩ := BIG.frombytes_wp hb'
  have hn := n_lt
  have l2 := Spec.beNat_lt (b.take 32)
  rw [List.length_take, Nat.min_eq_left hb'] at l2
  have hr := range_iff n1 v1 n2 v2
  generalize beNat (c.take 32) = r at h v1 hr ⊢
  generalize beNat (c'.take 32) = t at h v2 hr ⊢
  generalize beNat (b.take 32) = m at l2 v3 ⊢
  have ht : t % n ≠ 0 := by rw [Nat.mod_eq_of_lt h.2.2.2]; omega
  obtain ⟨di, e6, n4, C, hC, v4, hCz⟩ := invmodp_n n2 v2 (by omega) ht
  obtain ⟨⟨tb, x1, di'⟩, e7, ⟨n5, v5⟩, -, n6, v6⟩ := modmul_n n3 v3 (by omega) n4 v4 (by omega)
  dsimp only at n5 v5 n6 v6
  rw [Nat.mod_eq_of_lt hC] at v6
  obtain ⟨⟨h2, cb', x2⟩, e8, ⟨n7, v7⟩, ⟨n8, v8⟩, -⟩ := modmul_n n1 v1 (by omega) n6 v6 (by omega)
  dsimp only at n7 v7 n8 v8
  rw [Nat.mod_eq_of_lt h.2.1] at v8
  refine ⟨G, h2, tb, cb', hG, n7, n5, n8, ?_, ?_, v8, ?_⟩
  · rw [v7]
    refine congrArg Nat.cast (val_of_cast (Nat.mod_lt _ n_pos) ?_)
    rw [ZMod.natCast_mod, Nat.cast_mul, hCz]
  · rw [v5]
    refine congrArg Nat.cast (val_of_cast (Nat.mod_lt _ n_pos) ?_)
    rw [ZMod.natCast_mod, Nat.cast_mul, hCz]
  · simp only [hb, e2, e3, e4, e5, e6, e7, e8, Option.bind_eq_bind, Option.bind_some]
    rw [if_neg (fun c => hr.1 c h)]

theorem verify_key {sha : Nat} {b : List UInt8} (hb : hashit sha f 0 none 32 (List.replicate 32 0) = some b) (hb' : 32 ≤ b.length)
    (hc : 32 ≤ c.length) (hc' : 32 ≤ c'.length)
    (h : 0 < beNat (c.take 32) ∧ beNat (c.take 32) < n ∧ 0 < beNat (c'.take 32) ∧ beNat (c'.take 32) < n)
    (hQ : ∀ Q, ¬ Begins w Q) (hw : ECP.frombytes w ≠ none) : ecpvp_dsa sha w f c c' = some ERROR := by
  obtain ⟨G, h2, tb, cb, -, -, -, -, -, -, -, e⟩ := verify_start (w := w) hb hb' hc hc' h
  rw [e]
  suffices Wp _ fun r => r = ERROR by obtain ⟨r, e, rfl⟩ := this; exact e
  refine Wp.bind (decode_inf hQ hw) fun W hW => ?_
  refine Wp.bind (ECP.is_infinity_wpY hW (by norm_num)) fun b hb' => ?_
  rw [if_pos (hb'.2 rfl)]
  exact Wp.ret rfl

theorem verify_panic {sha : Nat} {b : List UInt8} (hb : hashit sha f 0 none 32 (List.replicate 32 0) = some b) (hb' : 32 ≤ b.length)
    (hc : 32 ≤ c.length) (hc' : 32 ≤ c'.length)
    (h : 0 < beNat (c.take 32) ∧ beNat (c.take 32) < n ∧ 0 < beNat (c'.take 32) ∧ beNat (c'.take 32) < n)
    (hw : ECP.frombytes w = none) : ecpvp_dsa sha w f c c' = none := by
  obtain ⟨G, h2, tb, cb, -, -, -, -, -, -, -, e⟩ := verify_start (w := w) hb hb' hc hc' h
  rw [e, hw]; rfl

theorem verify_main {sha : Nat} {b : List UInt8} (hb : hashit sha f 0 none 32 (List.replicate 32 0) = some b) (hb' : 32 ≤ b.length)
    (hc : 32 ≤ c.length) (hc' : 32 ≤ c'.length)
    (h : 0 < beNat (c.take 32) ∧ beNat (c.take 32) < n ∧ 0 < beNat (c'.take 32) ∧ beNat (c'.take 32) < n)
    {Q : G1} (hQ : Begins w Q) : Wp (ecpvp_dsa sha w f c c') fun q =>
      (Accepts Q (beNat (b.take 32)) (beNat (c.take 32)) (beNat (c'.take 32)) → q = 0) ∧
      (¬ Accepts Q (beNat (b.take 32)) (beNat (c.take 32)) (beNat (c'.take 32)) → q = INVALID) := by
  obtain ⟨G, h2, tb, cb, hG, n1, n2, n3, v1, v2, v3, e⟩ := verify_start (w := w) hb hb' hc hc' h
  rw [e]
  have hn := n_lt
  generalize beNat (c.take 32) = r at h v1 v3 ⊢
  generalize beNat (c'.take 32) = t at h v1 v2 ⊢
  generalize beNat (b.take 32) = m at v2 ⊢
  have l1 := ZMod.val_lt ((r : ZMod n) * (t : ZMod n)⁻¹)
  have l2 := ZMod.val_lt ((m : ZMod n) * (t : ZMod n)⁻¹)
  refine Wp.bind (decode_wp hQ) fun W hW => ?_
  refine Wp.bind (ECP.is_infinity_wpY hW (by norm_num)) fun b hb' => ?_
  rw [if_neg (fun e => hQ.ne (hb'.1 e))]
  have := ECP.mul2_wpY (hW.mono (by norm_num)) (hG.okY.mono (by norm_num)) n1 (by omega) (by omega) n2 (by omega) (by omega)
  rw [v1, v2, natCast_zsmul, natCast_zsmul, add_comm] at this
  refine Wp.bind this ?_
  rintro P ⟨hP, -⟩
  refine Wp.bind (ECP.is_infinity_wp hP (by norm_num)) fun b hb' => ?_
  by_cases h0 : ((m : ZMod n) * (t : ZMod n)⁻¹).val • gen + ((r : ZMod n) * (t : ZMod n)⁻¹).val • Q = 0
  · rw [if_pos (hb'.2 h0)]
    refine Wp.ret ⟨?_, fun _ => rfl⟩
    rintro ⟨-, -, -, -, x, hx, -⟩
    exact absurd h0 hx.ne
  · rw [if_neg (fun e => h0 (hb'.1 e))]
    obtain ⟨x, hx⟩ := hasX_of_ne h0
    refine Wp.bind (hx.getx (hP.mono (by norm_num))) ?_
    rintro ⟨X, P'⟩ ⟨n4, v4⟩
    dsimp only at n4 v4 ⊢
    have := val_lt_pow x
    refine Wp.bind (rmod_n n4 v4 (by omega)) ?_
    rintro db ⟨n5, v5⟩
    have hcmp : db.comp cb = 0 ↔ x.val % n = r := by
      rw [BIG.comp_eq_zero n5 n3, v5, v3]; exact Nat.cast_inj
    have hacc : Accepts Q m r t ↔ x.val % n = r := by
      constructor
      · rintro ⟨-, -, -, -, x', hx', h'⟩
        rw [hx.inj hx']; exact h'
      · intro h'
        exact ⟨h.1, h.2.1, h.2.2.1, h.2.2.2, x, hx, h'⟩
    rw [hacc, ← hcmp]
    by_cases hz : db.comp cb = 0
    · rw [if_neg (not_not.2 hz)]
      exact Wp.ret ⟨fun _ => rfl, fun c => absurd hz c⟩
    · rw [if_pos hz]
      exact Wp.ret ⟨fun c => absurd c hz, fun _ => rfl⟩

end

end ecdh

/-! ### Signatures are accepted -/

theorem zval_smul (z : ZMod n) (a : Nat) (h : (a : ZMod n) = z) (Q : G1) : z.val • Q = a • Q :=
  smul_congr (by rw [ZMod.natCast_zmod_val, h]) Q

theorem signature_accepts {d e u r s : Nat} (h : IsSignature d e u r s) : Accepts (d • gen) e r s := by
  obtain ⟨x, hx, rfl, hr, hs, hs0, e1⟩ := h
  have hu : (u : ZMod n) ≠ 0 := by
    intro h
    rw [ZMod.natCast_eq_zero_iff, Nat.dvd_iff_mod_eq_zero] at h
    exact hx.ne ((smul_eq_zero gen_ne).2 h)
  have hsz : (s : ZMod n) ≠ 0 := by rw [zmod_ne, Nat.mod_eq_of_lt hs]; exact hs0
  refine ⟨by omega, Nat.mod_lt _ n_pos, by omega, hs, x, ?_, rfl⟩
  rw [← mul_nsmul', ← add_nsmul]
  convert hx using 1
  refine smul_congr ?_ gen
  push_cast
  rw [ZMod.natCast_zmod_val, ZMod.natCast_zmod_val]
  have : (u : ZMod n) * s = e + ((x.val % n : Nat) : ZMod n) * d := by
    rw [e1, mul_inv_cancel_left₀ hu]
  rw [mul_right_comm, ← add_mul, ← this, mul_inv_cancel_right₀ hsz]

theorem accepts_neg {Q : G1} {e r s : Nat} (h : Accepts Q e r s) : Accepts Q e r (n - s) := by
  obtain ⟨r0, r1, s0, s1, x, hx, h⟩ := h
  refine ⟨r0, r1, by omega, by omega, x, ?_, h⟩
  have key : ∀ (z : ZMod n) (P : G1), (-z).val • P = -(z.val • P) := by
    intro z P
    rw [eq_neg_iff_add_eq_zero, ← add_nsmul]
    have : ((((-z).val + z.val : Nat)) : ZMod n) = ((0 : Nat) : ZMod n) := by
      push_cast
      rw [ZMod.natCast_zmod_val, ZMod.natCast_zmod_val]; ring
    rw [smul_congr this, zero_nsmul]
  have hc : (((n - s : Nat) : ZMod n))⁻¹ = -((s : ZMod n))⁻¹ := by
    rw [Nat.cast_sub s1.le, ZMod.natCast_self, zero_sub, inv_neg]
  rw [hc, mul_neg, mul_neg, key, key, ← neg_add]
  exact hx.neg

end Amcl.Secp
