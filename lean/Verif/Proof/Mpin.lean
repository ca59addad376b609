import Verif.Model.Mpin
import Verif.Spec.Mpin
import Verif.Proof.Fp12More
import Verif.Proof.Fp4More
import Verif.Proof.EcpCodec
import Verif.Proof.Ecp2More
import Verif.Proof.Mapit1
import Verif.Proof.Endo
import Verif.Proof.Verify
import Verif.Proof.Ate2
import Verif.Proof.Sha256
import Verif.Proof.Sha512
import Verif.Proof.Compow
import Verif.Props.Ecp2Codec
import Verif.Props.EcpCodec
import Verif.Props.Pairing
import Verif.Props.Octets12
import Verif.Props.Ate2
import Verif.Props.Mapit1
/-!
# Lemmas for the functions of `mpin.rs`
-/

set_option exponentiation.threshold 6000

namespace Amcl

open Spec

seal Spec.finalExp Spec.toBE

/-! ### Comparisons -/

theorem FP4.equalsM_wp {f g : FP4} {L E L' E' : Int} {v w : Fp4} (hf : Ok f L E v) (hg : Ok g L' E' w)
    (h : 1 ≤ L ∧ L ≤ 16 ∧ 1 ≤ E ∧ E ≤ 2 ^ 27 ∧ 1 ≤ L' ∧ L' ≤ 16 ∧ 1 ≤ E' ∧ E' ≤ 2 ^ 27) :
    Wp (equalsM f g) fun r => (r.1 = true ↔ v = w) ∧ Ok r.2.1 L E v ∧ Ok r.2.2 L' E' w := by
  unfold equalsM
  refine Wp.bind (FP2.equals_wp hf.a hg.a h) ?_
  rintro ⟨ea, fa, xa⟩ ⟨ha, oa, oa', -⟩
  dsimp only at ha oa oa' ⊢
  split
  · rename_i hz
    refine Wp.bind (FP2.equals_wp hf.b hg.b h) ?_
    rintro ⟨eb, fb, xb⟩ ⟨hb, ob, ob', -⟩
    dsimp only at hb ob ob' ⊢
    refine Wp.ret ⟨?_, ⟨oa, ob⟩, oa', ob'⟩
    rw [hb]
    exact ⟨fun e => QuadraticAlgebra.ext (ha.1 hz) e, fun e => by rw [e]⟩
  · rename_i hz
    refine Wp.ret ⟨?_, ⟨oa, hf.b⟩, oa', hg.b⟩
    refine ⟨fun e => by simp at e, fun e => absurd (ha.2 (by rw [e])) hz⟩

theorem FP12.equalsM_wp {f g : FP12} {L E L' E' : Int} {v w : Fp12} (hf : Ok f L E v) (hg : Ok g L' E' w)
    (h : 1 ≤ L ∧ L ≤ 16 ∧ 1 ≤ E ∧ E ≤ 2 ^ 27 ∧ 1 ≤ L' ∧ L' ≤ 16 ∧ 1 ≤ E' ∧ E' ≤ 2 ^ 27) :
    Wp (equalsM f g) fun r => (r.1 = true ↔ v = w) ∧ Ok r.2.1 L E v ∧ Ok r.2.2 L' E' w := by
  obtain ⟨a, b, c, ha, hb, hc, rfl⟩ := hf
  obtain ⟨a', b', c', ha', hb', hc', rfl⟩ := hg
  rw [Fp12_ext_iff]
  unfold equalsM
  refine Wp.bind (FP4.equalsM_wp ha ha' h) ?_
  rintro ⟨ea, fa, xa⟩ ⟨e1, oa, oa'⟩
  dsimp only at e1 oa oa' ⊢
  split
  · rename_i hz
    refine Wp.bind (FP4.equalsM_wp hb hb' h) ?_
    rintro ⟨eb, fb, xb⟩ ⟨e2, ob, ob'⟩
    dsimp only at e2 ob ob' ⊢
    split
    · rename_i hz'
      refine Wp.bind (FP4.equalsM_wp hc hc' h) ?_
      rintro ⟨ec, fc, xc⟩ ⟨e3, oc, oc'⟩
      dsimp only at e3 oc oc' ⊢
      exact Wp.ret ⟨by rw [e3]; exact ⟨fun e => ⟨e1.1 hz, e2.1 hz', e⟩, fun e => e.2.2⟩,
        ⟨_, _, _, oa, ob, oc, rfl⟩, _, _, _, oa', ob', oc', rfl⟩
    · rename_i hz'
      exact Wp.ret ⟨⟨fun e => by simp at e, fun e => absurd (e2.2 e.2.1) hz'⟩,
        ⟨_, _, _, oa, ob, hc, rfl⟩, _, _, _, oa', ob', hc', rfl⟩
  · rename_i hz
    exact Wp.ret ⟨⟨fun e => by simp at e, fun e => absurd (e1.2 e.1) hz⟩,
        ⟨_, _, _, oa, hb, hc, rfl⟩, _, _, _, oa', hb', hc', rfl⟩

theorem FP12.isunity_wp {f : FP12} {L E : Int} {v : Fp12} (hf : Ok f L E v)
    (h : 1 ≤ L ∧ L ≤ 16 ∧ 1 ≤ E ∧ E ≤ 2 ^ 27) :
    Wp (isunity f) fun r => (r.1 = true ↔ v = 1) ∧ Ok r.2 L E v := by
  obtain ⟨a, b, c, ha, hb, hc, rfl⟩ := hf
  rw [show (1 : Fp12) = ι4 1 + ι4 0 * W + ι4 0 * W ^ 2 by simp, Fp12_ext_iff]
  unfold isunity
  refine Wp.bind (FP4.new_int_wp (a := 1) (by norm_num) (by norm_num)) fun one h1 => ?_
  rw [Int.cast_one] at h1
  refine Wp.bind (FP4.equalsM_wp ha h1 (by omega)) ?_
  rintro ⟨ea, fa, xa⟩ ⟨e1, oa, -⟩
  dsimp only at e1 oa ⊢
  have up : ∀ {x : FP4} {y : Fp4}, FP4.Can x y → FP4.Ok x L E y := fun hx => hx.ok.mono (by omega)
  split
  · rename_i hz
    refine Wp.bind (FP4.iszilch_wp hb (by omega)) ?_
    rintro ⟨eb, fb⟩ ⟨e2, ob⟩
    dsimp only at e2 ob ⊢
    split
    · rename_i hz'
      refine Wp.bind (FP4.iszilch_wp hc (by omega)) ?_
      rintro ⟨ec, fc⟩ ⟨e3, oc⟩
      dsimp only at e3 oc ⊢
      exact Wp.ret ⟨by rw [e3]; exact ⟨fun e => ⟨e1.1 hz, e2.1 hz', e⟩, fun e => e.2.2⟩, _, _, _, oa, up ob, up oc, rfl⟩
    · rename_i hz'
      exact Wp.ret ⟨⟨fun e => by simp at e, fun e => absurd (e2.2 e.2.1) hz'⟩, _, _, _, oa, up ob, hc, rfl⟩
  · rename_i hz
    exact Wp.ret ⟨⟨fun e => by simp at e, fun e => absurd (e1.2 e.1) hz⟩, _, _, _, oa, hb, hc, rfl⟩

/-! ### Hashes -/

theorem toBE_four (n : Nat) : toBE 4 n = [UInt8.ofNat (n / 16777216 % 256), UInt8.ofNat (n / 65536 % 256),
    UInt8.ofNat (n / 256 % 256), UInt8.ofNat (n % 256)] := by
  rw [toBE, toBE, toBE, toBE, toBE]
  simp only [List.nil_append, List.cons_append, Nat.div_div_eq_div_mul]

theorem numBytes_eq {n : Nat} (hn : n < 2 ^ 32) : numBytes (asI32 n) = toBE 4 n := by
  have hm : asI32 n = n ∨ asI32 n = n - 4294967296 := by
    unfold asI32
    rw [Int.bmod_def]
    have h2 : ((2 ^ 32 : Nat) : Int) = 4294967296 := by norm_num
    rw [h2]
    have : (n : Int) < 4294967296 := by exact_mod_cast hn
    have h3 : (n : Int) % 4294967296 = n := by omega
    rw [h3]
    split
    · exact Or.inl rfl
    · exact Or.inr rfl
  rw [numBytes, toBE_four, Int.shiftRight_eq_div_pow, Int.shiftRight_eq_div_pow, Int.shiftRight_eq_div_pow]
  generalize asI32 n = m at *
  norm_num
  refine ⟨?_, ?_, ?_, ?_⟩ <;> congr 1 <;> omega

theorem length_sha256 (m : List UInt8) (hm : m.length + 9 ≤ 2 ^ 29) : (sha256 m).length = 32 := by
  obtain ⟨t, -, ht⟩ := HASH256.foldlM_wp HASH256.After.new m (by simp; omega)
  obtain ⟨d, -, hd⟩ := HASH256.hash_wp ht (by simpa using hm)
  rw [List.nil_append] at hd
  rw [← hd, Vector.length_toList]

theorem mpin.digest_wp (sha : Nat) {m : List UInt8} (hm : m.length + 17 ≤ 2 ^ 29) :
    Wp (mpin.digest sha m) fun d => d = mpinDigest sha m ∧ (d.map List.length = some sha ∨ d = none) := by
  unfold mpin.digest mpinDigest
  by_cases h32 : sha = 32
  · rw [if_pos h32, if_pos h32, h32]
    refine Wp.bind (HASH256.foldlM_wp HASH256.After.new m (by simp; omega)) fun t ht => ?_
    refine Wp.bind (HASH256.hash_wp ht (by simp; omega)) fun d hd => ?_
    rw [List.nil_append] at hd
    exact Wp.ret ⟨by rw [hd], Or.inl (by rw [Option.map_some, Vector.length_toList])⟩
  rw [if_neg h32, if_neg h32]
  by_cases h48 : sha = 48
  · rw [if_pos h48, if_pos h48, h48]
    refine Wp.bind (Sha64.foldlM_wp (Sha64.After.init Sha64.st_384 _) m (by simp; omega)) fun t ht => ?_
    refine Wp.bind (Sha64.hash384_wp ht (by simp; omega)) ?_
    rintro ⟨d, t'⟩ ⟨hd, -⟩
    rw [List.nil_append] at hd
    exact Wp.ret ⟨by rw [hd], Or.inl (by rw [Option.map_some, Vector.length_toList])⟩
  rw [if_neg h48, if_neg h48]
  by_cases h64 : sha = 64
  · rw [if_pos h64, if_pos h64, h64]
    refine Wp.bind (Sha64.foldlM_wp (Sha64.After.init Sha64.st_512 _) m (by simp; omega)) fun t ht => ?_
    refine Wp.bind (Sha64.hash512_wp ht (by simp; omega)) ?_
    rintro ⟨d, t'⟩ ⟨hd, -⟩
    rw [List.nil_append] at hd
    exact Wp.ret ⟨by rw [hd], Or.inl (by rw [Option.map_some, Vector.length_toList])⟩
  rw [if_neg h64, if_neg h64]
  exact Wp.ret ⟨rfl, Or.inr rfl⟩

theorem mpinDigest_some {sha : Nat} {m d : List UInt8} (h : mpinDigest sha m = some d) : sha = 32 ∨ sha = 48 ∨ sha = 64 := by
  unfold mpinDigest at h
  split at h
  · exact Or.inl ‹_›
  · split at h
    · exact Or.inr (Or.inl ‹_›)
    · split at h
      · exact Or.inr (Or.inr ‹_›)
      · cases h

theorem mpin.hashit_wp (sha : Nat) {n : Nat} {id : List UInt8} (w : List UInt8) (hn : n < 2 ^ 32) (hid : id.length + 21 ≤ 2 ^ 29) :
    Wp (mpin.hashit sha n id w) fun r => (r.1 = true ↔ (sha = 32 ∨ sha = 48 ∨ sha = 64)) ∧
      (r.1 = true → r.2 = mpinHash sha n id) ∧ (r.1 = false → r.2 = w ∧ mpinHash sha n id = List.replicate 48 0) ∧
      (mpinHash sha n id).length = 48 := by
  unfold mpin.hashit mpinHash
  have e : (if n > 0 then numBytes (asI32 n) ++ id else id) = (if n = 0 then id else toBE 4 n ++ id) := by
    by_cases h : n = 0
    · rw [if_pos h, if_neg (by omega)]
    · rw [if_neg h, if_pos (by omega), numBytes_eq hn]
  rw [e]
  have hl : (if n = 0 then id else toBE 4 n ++ id).length + 17 ≤ 2 ^ 29 := by
    split
    · omega
    · rw [List.length_append, length_toBE]; omega
  refine Wp.bind (mpin.digest_wp sha hl) ?_
  rintro d ⟨hd, hl'⟩
  rw [← hd]
  rcases d with _ | d
  · refine Wp.ret ⟨⟨fun h => by simp at h, fun h => ?_⟩, fun h => by simp at h, fun _ => ⟨rfl, rfl⟩, by simp⟩
    unfold mpinDigest at hd
    rcases h with h | h | h <;> subst h <;> simp at hd
  · have hs := mpinDigest_some hd.symm
    simp only [Option.map_some, Option.some.injEq, reduceCtorEq, or_false] at hl'
    refine Wp.ret ⟨⟨fun _ => hs, fun _ => rfl⟩, fun _ => ?_, fun h => by simp at h, ?_⟩
    · dsimp only
      split
      · rename_i h
        rw [show 48 - sha = 0 by omega, List.replicate_zero, List.nil_append]
      · rw [List.take_of_length_le (by omega)]
    · simp only [List.length_append, List.length_replicate, List.length_take]
      omega

theorem mpin.hashed_wp (sha : Nat) {n : Nat} {id : List UInt8} (hn : n < 2 ^ 32) (hid : id.length + 21 ≤ 2 ^ 29) :
    Wp (mpin.hashed sha n id) fun h => h = mpinHash sha n id ∧ h.length = 48 := by
  unfold mpin.hashed
  refine Wp.bind (mpin.hashit_wp sha _ hn hid) ?_
  rintro ⟨b, h⟩ ⟨-, h1, h2, h3⟩
  refine Wp.ret ?_
  have : h = mpinHash sha n id := by
    cases b
    · obtain ⟨e1, e2⟩ := h2 rfl
      exact e1.trans e2.symm
    · exact h1 rfl
  exact ⟨this, by rw [this]; exact h3⟩

/-! ### Strings of points -/

theorem _root_.Spec.Str1.ne {b : List UInt8} {g : G1} (h : Str1 b g) : g ≠ 0 := by
  obtain ⟨x, y, h, rfl, -⟩ := h
  exact Pt.mk_ne h

theorem _root_.Spec.Str1.length {b : List UInt8} {g : G1} (h : Str1 b g) : b.length = 97 := by
  obtain ⟨x, y, h, -, rfl⟩ := h
  simp [octets, length_toBE]

theorem ECP.frombytes_str {b : List UInt8} {g : G1} (h : Str1 b g) :
    Wp (ECP.frombytes b) fun P => Ok P 2 g ∧ P.z.toF = 1 := by
  obtain ⟨x, y, h, rfl, rfl⟩ := h
  have hp0 := p_pos
  have hple := p_le_pow
  have h25 := p_le25
  have hx := ZMod.val_lt x
  have hy := ZMod.val_lt y
  unfold frombytes octets
  rw [if_neg (by simp [length_toBE]), List.drop_one, List.tail_cons]
  have t1 : (toBE 48 x.val ++ toBE 48 y.val).take 48 = toBE 48 x.val := by
    rw [List.take_append_of_le_length (by rw [length_toBE]), List.take_of_length_le (by rw [length_toBE])]
  have t2 : (((4 : UInt8) :: (toBE 48 x.val ++ toBE 48 y.val)).drop 49).take 48 = toBE 48 y.val := by
    rw [List.drop_succ_cons, List.drop_append_of_le_length (by rw [length_toBE]),
      List.drop_of_length_le (by rw [length_toBE]), List.nil_append, List.take_of_length_le (by rw [length_toBE])]
  have tk : ∀ n, (toBE 48 n).take 48 = toBE 48 n := fun n => List.take_of_length_le (by rw [length_toBE])
  rw [t1]
  refine Wp.bind (BIG.frombytes_wp (b := toBE 48 x.val) (by rw [length_toBE])) ?_
  rintro px ⟨nx, vx⟩
  rw [tk, beNat_toBE, Nat.mod_eq_of_lt (by omega)] at vx
  refine Wp.bind (R := fun c => c = 4) (Wp.eq (by simp)) ?_
  intro c hc
  rw [hc]
  unfold fromHead
  rw [if_neg (by rw [comp_modulus nx vx]; omega), if_pos rfl]
  unfold fromCoords
  rw [if_neg (by simp [length_toBE]), t2]
  refine Wp.bind (BIG.frombytes_wp (b := toBE 48 y.val) (by rw [length_toBE])) ?_
  rintro py ⟨ny, vy⟩
  rw [tk, beNat_toBE, Nat.mod_eq_of_lt (by omega)] at vy
  rw [if_neg (by rw [comp_modulus ny vy]; omega)]
  have lx : px.Lim (2 ^ 61) := (nx.lim58 (by omega) (by omega)).mono (by norm_num)
  have ly : py.Lim (2 ^ 61) := (ny.lim58 (by omega) (by omega)).mono (by norm_num)
  refine (new_bigs_wp lx ly (by omega) (by omega) (by omega) (by omega)).mono ?_
  rintro P ⟨k1, k2⟩
  rw [vx, vy, Int.cast_natCast, Int.cast_natCast, ZMod.natCast_zmod_val, ZMod.natCast_zmod_val] at k1 k2
  obtain ⟨k3, k4, -⟩ := k1 h
  exact ⟨k3, k4⟩

theorem ECP.tobytes_str {P : ECP} {g : G1} {E : Int} (hP : OkY P E g) (hE : E ≤ 2 ^ 20) (hg : r • g = 0) (h0 : g ≠ 0) :
    Wp P.tobytes fun b => Str1 b.1 g ∧ OkY b.2 E g := by
  rcases Pt.cases g with rfl | ⟨x, y, h, rfl⟩
  · exact absurd rfl h0
  refine (tobytes_wpY hP (by omega)).mono ?_
  rintro ⟨b, Q⟩ ⟨hb, hQ⟩
  refine ⟨⟨x, y, h, rfl, ?_⟩, hQ⟩
  dsimp only at hb
  rw [hb, octets, xOut, if_neg]
  rintro ⟨hx, -⟩
  exact XNe.of_order hg x y h rfl hx

theorem ECP.sub_wpY {P Q : ECP} {g h : G1} (hP : OkY P (2 ^ 14) g) (hQ : OkY Q (2 ^ 13) h) :
    Wp (sub P Q) fun r => Ok r 32 (g - h) := by
  unfold sub
  refine Wp.bind (neg_wpY hQ (by norm_num)) fun N hN => ?_
  rw [sub_eq_add_neg]
  exact add_wpY hP (hN.okY.mono (by norm_num))

theorem _root_.Spec.Str2.ne {b : List UInt8} {g : G2} (h : Str2 b g) : g ≠ 0 := by
  obtain ⟨x, y, h, rfl, -⟩ := h
  exact Pt.mk_ne h

theorem ECP2.frombytes_str {b : List UInt8} {g : G2} (h : Str2 b g) : Wp (ECP2.frombytes b) fun P => P.Aff g := by
  obtain ⟨x, y, h, rfl, hl, rfl, rfl⟩ := h
  refine (frombytes_wp hl.ge).mono ?_
  rintro P ⟨h1, -⟩
  obtain ⟨h2, h3⟩ := h1 h
  exact ⟨h2.mono (by norm_num), fun _ => h3⟩

theorem ECP2.tobytes_str {P : ECP2} {g : G2} (hP : P.Rep g) (h0 : g ≠ 0) : Wp P.tobytes fun b => Str2 b g := by
  rcases Pt.cases g with rfl | ⟨x, y, h, rfl⟩
  · exact absurd rfl h0
  obtain ⟨b, e, hl, h1, h2, -⟩ := Props.C50_encode P x y h hP
  exact ⟨b, e, x, y, h, rfl, hl, h1, h2⟩

/-! ### Scalars and hashed points -/

theorem scalar_wp {s : List UInt8} (h : s.length = 48) :
    Wp (BIG.frombytes s) fun a => a.Nrm ∧ a.val = (beNat s : Nat) ∧ beNat s < 2 ^ 384 := by
  refine (BIG.frombytes_wp h.ge).mono ?_
  rintro a ⟨h1, h2⟩
  rw [List.take_of_length_le h.le] at h2
  exact ⟨h1, h2, beNat_lt48 h⟩

theorem _root_.Spec.BytesPt.torsion {b : List UInt8} {g : G1} (h : BytesPt h1 b g) : r • g = 0 ∧ g ≠ 0 := by
  obtain ⟨k, y, hy, -, -, eg, h0⟩ := h
  refine ⟨?_, h0⟩
  rw [eg, smul_smul, mul_comm, ← card_G1.2]
  have := card_G1.1
  exact card_nsmul_eq_zero'

theorem ECP.mapit_str {b : List UInt8} {g : G1} (hb : b.length = 48) (h : BytesPt h1 b g) :
    Wp (ECP.mapit b) fun P => Ok P (2 ^ 10) g := by
  refine (mapit_wp hb.ge).mono ?_
  rintro P ⟨g', h', hP⟩
  rw [List.take_of_length_le hb.le] at h'
  rw [Amcl.MapsTo1.unique h h']
  exact hP.1

theorem pair.g1mul_nat {P : ECP} {g : G1} {E : Int} (hP : ECP.Ok P E g) (hE : E ≤ 2 ^ 11) (hg : r • g = 0) {e : BIG} (he : e.Nrm)
    {n : Nat} (ve : e.val = n) (hn : n < 2 ^ 403) : Wp (g1mul P e) fun R => ECP.Ok R (2 ^ 5) (n • g) := by
  refine (pair.g1mul_wp (hP.mono hE) hg he (by omega) (by omega)).mono ?_
  rintro R ⟨h, -⟩
  rw [ve, natCast_zsmul] at h
  exact h.mono (by norm_num)

theorem smul_ne {g : G1} (hg : r • g = 0) (h0 : g ≠ 0) {n : Nat} (hn : ¬ r ∣ n) : n • g ≠ 0 := by
  have := Fact.mk Primes.prime_r
  rwa [← addOrderOf_eq_prime hg h0, addOrderOf_dvd_iff_nsmul_eq_zero] at hn

theorem torsion_smul {g : G1} (hg : r • g = 0) (n : Nat) : r • n • g = 0 := by rw [smul_comm, hg, smul_zero]

theorem torsion_add {g g' : G1} (hg : r • g = 0) (hg' : r • g' = 0) : r • (g + g') = 0 := by
  rw [smul_add, hg, hg', add_zero]

theorem torsion_sub {g g' : G1} (hg : r • g = 0) (hg' : r • g' = 0) : r • (g - g') = 0 := by
  rw [smul_sub, hg, hg', sub_zero]

theorem torsion_neg {g : G1} (hg : r • g = 0) : r • (-g) = 0 := by rw [smul_neg, hg, neg_zero]

theorem pin_nat {pin : Nat} (h : pin < 2 ^ 31) : (asI32 pin).tmod mpin.MAXPIN = ((pin % 10000 : Nat) : Int) := by
  have e : asI32 pin = pin := by
    unfold asI32
    rw [Int.bmod_def]
    have h2 : ((2 ^ 32 : Nat) : Int) = 4294967296 := by norm_num
    rw [h2]
    have : (pin : Int) < 2147483648 := by exact_mod_cast h
    have h3 : (pin : Int) % 4294967296 = pin := by omega
    rw [h3, if_pos (by omega)]
  rw [e, mpin.MAXPIN, Int.tmod_eq_emod_of_nonneg (by omega)]
  norm_num

theorem ECP.pinmul_nat {P : ECP} {g : G1} {E : Int} (hP : OkY P E g) (hE : E ≤ 2 ^ 10) {e n : Nat} (hn : n ≤ 32) (he : e < 2 ^ n) :
    Wp (pinmul P e n) fun R => OkY R (2 ^ 10) (e • g) := by
  refine (pinmul_wp (hP.mono hE) e (bts := n) (by omega)).mono ?_
  rintro R ⟨hR, -⟩
  rwa [Int.toNat_natCast, Int.emod_eq_of_lt (by omega) (by exact_mod_cast he), natCast_zsmul] at hR

namespace mpin

/-! ### The functions -/

theorem get_server_secret_wp {s : List UInt8} (hs : s.length = 48) (h0 : ¬ r ∣ beNat s) :
    Wp (get_server_secret s) fun b => Str2 b (beNat s • gen2) := by
  unfold get_server_secret
  refine Wp.bind ECP2.generator_wp ?_
  rintro Q ⟨hQ, -⟩
  refine Wp.bind (scalar_wp hs) ?_
  rintro a ⟨na, va, la⟩
  refine Wp.bind (pair.g2mul_wp (hQ.mono (by norm_num)) r_gen2 na (by omega) (by omega)) ?_
  rintro R ⟨hR, -⟩
  rw [va, natCast_zsmul] at hR
  refine ECP2.tobytes_str (hR.mono (by norm_num)) ?_
  rwa [Ne, ← addOrderOf_dvd_iff_nsmul_eq_zero, addOrderOf_gen2]

theorem get_client_secret_wp {s cid : List UInt8} {A : G1} (hs : s.length = 48) (h0 : ¬ r ∣ beNat s)
    (hc : cid.length = 48) (hA : BytesPt Spec.h1 cid A) :
    Wp (get_client_secret s cid) fun b => ∃ t, b = .ok t ∧ Str1 t (beNat s • A) := by
  obtain ⟨tA, nA⟩ := hA.torsion
  unfold get_client_secret get_g1_multiple pick base
  refine Wp.bind (R := fun x => ∃ t w, x = .ok (t, w) ∧ Str1 t (beNat s • A)) ?_ ?_
  · refine Wp.bind (R := fun a => a.1.Nrm ∧ a.1.val = (beNat s : Nat)) ?_ ?_
    · refine Wp.bind (scalar_wp hs) ?_
      rintro a ⟨na, va, la⟩
      exact Wp.ret ⟨na, va⟩
    rintro ⟨a, x, g⟩ ⟨na, va⟩
    dsimp only at na va ⊢
    rw [if_neg (by norm_num)]
    refine Wp.bind (R := fun P => ∃ P', P = some P' ∧ ECP.Ok P' (2 ^ 10) A) ?_ ?_
    · refine Wp.bind (ECP.mapit_str hc hA) fun P hP => ?_
      exact Wp.ret ⟨P, rfl, hP⟩
    rintro _ ⟨P, rfl, hP⟩
    dsimp only
    refine Wp.bind (pair.g1mul_nat hP (by norm_num) tA na va (by have := beNat_lt48 hs; omega)) fun R hR => ?_
    refine Wp.bind (ECP.tobytes_str hR.okY (by norm_num) (torsion_smul tA _) (smul_ne tA nA h0)) ?_
    rintro ⟨b, R'⟩ ⟨hb, -⟩
    exact Wp.ret ⟨b, _, rfl, hb⟩
  · rintro _ ⟨t, w, rfl, ht⟩
    exact Wp.ret ⟨t, rfl, ht⟩

/-- The common part of `extract_factor` and `restore_factor`. -/
theorem extract_factor_wp (sha : Nat) {id token : List UInt8} {A T : G1} (hid : id.length + 21 ≤ 2 ^ 29)
    (hA : BytesPt h1 (mpinHash sha 0 id) A) (hT : Str1 token T) (tT : r • T = 0) {e n : Nat} (hn : n ≤ 32) (he : e < 2 ^ n)
    (h0 : T - e • A ≠ 0) : Wp (extract_factor sha id e n token) fun b => ∃ t, b = .ok t ∧ Str1 t (T - e • A) := by
  obtain ⟨tA, nA⟩ := hA.torsion
  unfold extract_factor
  refine Wp.bind (ECP.frombytes_str hT) ?_
  rintro P ⟨hP, -⟩
  refine Wp.bind (ECP.is_infinity_wp hP (by norm_num)) fun b hb => ?_
  rw [if_neg (fun h => hT.ne (hb.1 h))]
  refine Wp.bind (hashed_wp sha (by norm_num) hid) ?_
  rintro h ⟨rfl, hl⟩
  refine Wp.bind (ECP.mapit_str hl hA) fun R hR => ?_
  refine Wp.bind (ECP.pinmul_nat hR.okY (by norm_num) hn he) fun R' hR' => ?_
  refine Wp.bind (ECP.sub_wpY (hP.okY.mono (by norm_num)) (hR'.mono (by norm_num))) fun Q hQ => ?_
  refine Wp.bind (ECP.tobytes_str hQ.okY (by norm_num) (torsion_sub tT (torsion_smul tA _)) h0) ?_
  rintro ⟨b, Q'⟩ ⟨hb, -⟩
  exact Wp.ret ⟨b, rfl, hb⟩

theorem restore_factor_wp (sha : Nat) {id token : List UInt8} {A T : G1} (hid : id.length + 21 ≤ 2 ^ 29)
    (hA : BytesPt h1 (mpinHash sha 0 id) A) (hT : Str1 token T) (tT : r • T = 0) {e n : Nat} (hn : n ≤ 32) (he : e < 2 ^ n)
    (h0 : T + e • A ≠ 0) : Wp (restore_factor sha id e n token) fun b => ∃ t, b = .ok t ∧ Str1 t (T + e • A) := by
  obtain ⟨tA, nA⟩ := hA.torsion
  unfold restore_factor
  refine Wp.bind (ECP.frombytes_str hT) ?_
  rintro P ⟨hP, -⟩
  refine Wp.bind (ECP.is_infinity_wp hP (by norm_num)) fun b hb => ?_
  rw [if_neg (fun h => hT.ne (hb.1 h))]
  refine Wp.bind (hashed_wp sha (by norm_num) hid) ?_
  rintro h ⟨rfl, hl⟩
  refine Wp.bind (ECP.mapit_str hl hA) fun R hR => ?_
  refine Wp.bind (ECP.pinmul_nat hR.okY (by norm_num) hn he) fun R' hR' => ?_
  refine Wp.bind (ECP.add_wpY (hP.okY.mono (by norm_num)) (hR'.mono (by norm_num))) fun Q hQ => ?_
  refine Wp.bind (ECP.tobytes_str hQ.okY (by norm_num) (torsion_add tT (torsion_smul tA _)) h0) ?_
  rintro ⟨b, Q'⟩ ⟨hb, -⟩
  exact Wp.ret ⟨b, rfl, hb⟩

theorem get_client_permit_wp (sha : Nat) {date : Nat} {s cid : List UInt8} {A : G1} (hd : date < 2 ^ 32) (hs : s.length = 48)
    (h0 : ¬ r ∣ beNat s) (hid : cid.length + 21 ≤ 2 ^ 29) (hA : BytesPt Spec.h1 (mpinHash sha date cid) A) :
    Wp (get_client_permit sha date s cid) fun b => Str1 b (beNat s • A) := by
  obtain ⟨tA, nA⟩ := hA.torsion
  unfold get_client_permit
  refine Wp.bind (hashed_wp sha hd hid) ?_
  rintro h ⟨rfl, hl⟩
  refine Wp.bind (ECP.mapit_str hl hA) fun P hP => ?_
  refine Wp.bind (scalar_wp hs) ?_
  rintro a ⟨na, va, la⟩
  refine Wp.bind (pair.g1mul_nat hP (by norm_num) tA na va (by omega)) fun R hR => ?_
  refine Wp.bind (ECP.tobytes_str hR.okY (by norm_num) (torsion_smul tA _) (smul_ne tA nA h0)) ?_
  rintro ⟨b, R'⟩ ⟨hb, -⟩
  exact Wp.ret hb

theorem pick_none_wp {x : List UInt8} (hx : x.length = 48) :
    Wp (pick none x) fun a => a.1.Nrm ∧ a.1.val = (beNat x : Nat) ∧ a.2 = (x, none) := by
  unfold pick
  refine Wp.bind (scalar_wp hx) ?_
  rintro a ⟨na, va, la⟩
  exact Wp.ret ⟨na, va, rfl⟩

theorem client1Plain_wp {sx : BIG} {P T : ECP} {A : G1} (nx : sx.Nrm) {ξ : Nat} (vx : sx.val = ξ) (lx : ξ < 2 ^ 403)
    (h0 : ¬ r ∣ ξ) (hP : ECP.Ok P (2 ^ 10) A) (tA : r • A = 0) (nA : A ≠ 0) :
    Wp (client1Plain sx P T true) fun a => ∃ b, a = .ok (T, some b, none) ∧ Str1 b (ξ • A) := by
  unfold client1Plain
  rw [if_pos rfl]
  refine Wp.bind (pair.g1mul_nat hP (by norm_num) tA nx vx lx) fun R hR => ?_
  refine Wp.bind (ECP.tobytes_str hR.okY (by norm_num) (torsion_smul tA _) (smul_ne tA nA h0)) ?_
  rintro ⟨b, R'⟩ ⟨hb, -⟩
  exact Wp.ret ⟨b, rfl, hb⟩

theorem commit_wp {sx : BIG} {P W : ECP} {A A' : G1} (nx : sx.Nrm) {ξ : Nat} (vx : sx.val = ξ) (lx : ξ < 2 ^ 403)
    (h0 : ¬ r ∣ ξ) (hP : ECP.Ok P (2 ^ 10) A) (tA : r • A = 0) (nA : A ≠ 0) (hW : ECP.Ok W (2 ^ 10) A') (tA' : r • A' = 0) :
    Wp (commit sx P W true) fun a => ECP.Ok a.1 32 (ξ • (A + A')) ∧ ∃ b, a.2 = some b ∧ Str1 b (ξ • A) := by
  unfold commit
  rw [if_pos rfl]
  refine Wp.bind (pair.g1mul_nat hP (by norm_num) tA nx vx lx) fun R hR => ?_
  refine Wp.bind (ECP.tobytes_str hR.okY (by norm_num) (torsion_smul tA _) (smul_ne tA nA h0)) ?_
  rintro ⟨b, R'⟩ ⟨hb, hR'⟩
  refine Wp.bind (pair.g1mul_nat hW (by norm_num) tA' nx vx lx) fun W' hW' => ?_
  refine Wp.bind (ECP.add_wpY (hR'.mono (by norm_num)) (hW'.okY.mono (by norm_num))) fun Q hQ => ?_
  rw [← smul_add] at hQ
  exact Wp.ret ⟨hQ, b, rfl, hb⟩

theorem client1Date_wp (sha : Nat) {date : Nat} {h permit : List UInt8} {sx : BIG} {P T W : ECP} {A A' D B : G1} (hd : date < 2 ^ 32)
    (hl : h.length = 48) (nx : sx.Nrm) {ξ : Nat} (vx : sx.val = ξ) (lx : ξ < 2 ^ 403) (h0 : ¬ r ∣ ξ)
    (hP : ECP.Ok P (2 ^ 10) A) (tA : r • A = 0) (nA : A ≠ 0) (hT : ECP.Ok T 32 B) (hD : Str1 permit D)
    (hA' : BytesPt h1 (mpinHash sha date h) A') (h00 : A + A' ≠ 0) :
    Wp (client1Date sha date h sx P T W true true (some permit)) fun a => ∃ T' b c, a = .ok (T', some b, some c) ∧
      ECP.Ok T' 32 (B + D) ∧ Str1 b (ξ • A) ∧ Str1 c (ξ • (A + A')) := by
  obtain ⟨tA', nA'⟩ := hA'.torsion
  unfold client1Date
  refine Wp.bind (ECP.frombytes_str hD) ?_
  rintro U ⟨hU, -⟩
  refine Wp.bind (ECP.is_infinity_wp hU (by norm_num)) fun b hb => ?_
  rw [if_neg (fun h => hD.ne (hb.1 h))]
  refine Wp.bind (ECP.add_wp (hT.mono (by norm_num)) (hU.mono (by norm_num))) fun T' hT' => ?_
  refine Wp.bind (hashed_wp sha hd (by omega)) ?_
  rintro h2 ⟨rfl, hl2⟩
  refine Wp.bind (ECP.mapit_str hl2 hA') fun W' hW' => ?_
  refine Wp.bind (commit_wp nx vx lx h0 hP tA nA hW' tA') ?_
  rintro ⟨Q, b'⟩ ⟨hQ, b, rfl, hb'⟩
  dsimp only at hQ ⊢
  rw [if_pos rfl]
  have tS := torsion_add tA tA'
  refine Wp.bind (ECP.tobytes_str hQ.okY (by norm_num) (torsion_smul tS _) (smul_ne tS h00 h0)) ?_
  rintro ⟨c, Q'⟩ ⟨hc, -⟩
  exact Wp.ret ⟨T', b, c, rfl, hT', hb', hc⟩

/-- `client_1` without a date. -/
theorem client_1_plain_wp (sha : Nat) {id x token : List UInt8} {pin : Nat} {A T : G1} (xcid : Bool) (permit : Option (List UInt8))
    (hid : id.length + 21 ≤ 2 ^ 29)
    (hA : BytesPt h1 (mpinHash sha 0 id) A) (hx : x.length = 48) (x0 : ¬ r ∣ beNat x)
    (hT : Str1 token T) (tT : r • T = 0) (hp : pin < 2 ^ 31) (h0 : T + (pin % 10000) • A ≠ 0) :
    Wp (client_1 sha 0 id none x pin token true xcid permit) fun a => ∃ sec xid, a = .ok ⟨x, sec, some xid, none, none⟩ ∧
      Str1 sec (T + (pin % 10000) • A) ∧ Str1 xid (beNat x • A) := by
  obtain ⟨tA, nA⟩ := hA.torsion
  unfold client_1
  refine Wp.bind (pick_none_wp hx) ?_
  rintro ⟨sx, x', rg⟩ ⟨nx, vx, e⟩
  dsimp only at nx vx e ⊢
  rw [Prod.mk.injEq] at e
  obtain ⟨rfl, rfl⟩ := e
  refine Wp.bind (hashed_wp sha (by norm_num) hid) ?_
  rintro h ⟨rfl, hl⟩
  refine Wp.bind (ECP.mapit_str hl hA) fun P hP => ?_
  refine Wp.bind (ECP.frombytes_str hT) ?_
  rintro S ⟨hS, -⟩
  refine Wp.bind (ECP.is_infinity_wp hS (by norm_num)) fun b hb => ?_
  rw [if_neg (fun h => hT.ne (hb.1 h)), pin_nat hp]
  refine Wp.bind (ECP.pinmul_nat hP.okY (by norm_num) (n := PBLEN) (by decide) (by
    have := Nat.mod_lt pin (show 0 < 10000 by norm_num)
    rw [PBLEN]; omega)) fun W hW => ?_
  refine Wp.bind (ECP.add_wpY (hS.okY.mono (by norm_num)) (hW.mono (by norm_num))) fun S' hS' => ?_
  rw [if_neg (by simp)]
  refine Wp.bind (client1Plain_wp nx vx (by have := beNat_lt48 hx; omega) x0 hP tA nA) ?_
  rintro _ ⟨xid, rfl, hxid⟩
  dsimp only
  refine Wp.bind (ECP.tobytes_str hS'.okY (by norm_num) (torsion_add tT (torsion_smul tA _)) h0) ?_
  rintro ⟨sec, S2⟩ ⟨hsec, -⟩
  exact Wp.ret ⟨sec, xid, rfl, hsec, hxid⟩

/-- `client_1` with a date. -/
theorem client_1_date_wp (sha : Nat) {date : Nat} {id x token permit : List UInt8} {pin : Nat} {A A' T D : G1}
    (hd0 : date ≠ 0) (hd : date < 2 ^ 32) (hid : id.length + 21 ≤ 2 ^ 29)
    (hA : BytesPt h1 (mpinHash sha 0 id) A) (hA' : BytesPt h1 (mpinHash sha date (mpinHash sha 0 id)) A') (h00 : A + A' ≠ 0)
    (hx : x.length = 48) (x0 : ¬ r ∣ beNat x)
    (hT : Str1 token T) (tT : r • T = 0) (hD : Str1 permit D) (tD : r • D = 0) (hp : pin < 2 ^ 31)
    (h0 : T + (pin % 10000) • A + D ≠ 0) :
    Wp (client_1 sha date id none x pin token true true (some permit)) fun a => ∃ sec xid xcid,
      a = .ok ⟨x, sec, some xid, some xcid, none⟩ ∧
      Str1 sec (T + (pin % 10000) • A + D) ∧ Str1 xid (beNat x • A) ∧ Str1 xcid (beNat x • (A + A')) := by
  obtain ⟨tA, nA⟩ := hA.torsion
  unfold client_1
  refine Wp.bind (pick_none_wp hx) ?_
  rintro ⟨sx, x', rg⟩ ⟨nx, vx, e⟩
  dsimp only at nx vx e ⊢
  rw [Prod.mk.injEq] at e
  obtain ⟨rfl, rfl⟩ := e
  refine Wp.bind (hashed_wp sha (by norm_num) hid) ?_
  rintro h ⟨rfl, hl⟩
  refine Wp.bind (ECP.mapit_str hl hA) fun P hP => ?_
  refine Wp.bind (ECP.frombytes_str hT) ?_
  rintro S ⟨hS, -⟩
  refine Wp.bind (ECP.is_infinity_wp hS (by norm_num)) fun b hb => ?_
  rw [if_neg (fun h => hT.ne (hb.1 h)), pin_nat hp]
  refine Wp.bind (ECP.pinmul_nat hP.okY (by norm_num) (n := PBLEN) (by decide) (by
    have := Nat.mod_lt pin (show 0 < 10000 by norm_num)
    rw [PBLEN]; omega)) fun W hW => ?_
  refine Wp.bind (ECP.add_wpY (hS.okY.mono (by norm_num)) (hW.mono (by norm_num))) fun S' hS' => ?_
  rw [if_pos hd0]
  refine Wp.bind (client1Date_wp sha hd hl nx vx (by have := beNat_lt48 hx; omega) x0 hP tA nA hS' hD hA' h00) ?_
  rintro _ ⟨T', xid, xcid, rfl, hT', hxid, hxcid⟩
  dsimp only
  refine Wp.bind (ECP.tobytes_str hT'.okY (by norm_num) (torsion_add (torsion_add tT (torsion_smul tA _)) tD) h0) ?_
  rintro ⟨sec, S2⟩ ⟨hsec, -⟩
  exact Wp.ret ⟨sec, xid, xcid, rfl, hsec, hxid, hxcid⟩

/-- `client_1` with a date but without permit. -/
theorem client_1_nopermit_wp (sha : Nat) {date : Nat} {id x token : List UInt8} {pin : Nat} {A A' T : G1}
    (hd0 : date ≠ 0) (hd : date < 2 ^ 32) (hid : id.length + 21 ≤ 2 ^ 29)
    (hA : BytesPt h1 (mpinHash sha 0 id) A) (hA' : BytesPt h1 (mpinHash sha date (mpinHash sha 0 id)) A') (h00 : A + A' ≠ 0)
    (hx : x.length = 48) (x0 : ¬ r ∣ beNat x)
    (hT : Str1 token T) (tT : r • T = 0) (hp : pin < 2 ^ 31)
    (h0 : T + (pin % 10000) • A + (pin % 10000) • A ≠ 0) :
    Wp (client_1 sha date id none x pin token true true none) fun a =>
      (pin % 10000 = 0 ∧ a = .error INVALID_POINT) ∨ (pin % 10000 ≠ 0 ∧ ∃ sec xid xcid,
      a = .ok ⟨x, sec, some xid, some xcid, none⟩ ∧
      Str1 sec (T + (pin % 10000) • A + (pin % 10000) • A) ∧ Str1 xid (beNat x • A) ∧ Str1 xcid (beNat x • (A + A'))) := by
  obtain ⟨tA, nA⟩ := hA.torsion
  obtain ⟨tA', nA'⟩ := hA'.torsion
  have hr : 10000 < r := by decide +kernel
  have hm := Nat.mod_lt pin (show 0 < 10000 by norm_num)
  unfold client_1
  refine Wp.bind (pick_none_wp hx) ?_
  rintro ⟨sx, x', rg⟩ ⟨nx, vx, e⟩
  dsimp only at nx vx e ⊢
  rw [Prod.mk.injEq] at e
  obtain ⟨rfl, rfl⟩ := e
  refine Wp.bind (hashed_wp sha (by norm_num) hid) ?_
  rintro h ⟨rfl, hl⟩
  refine Wp.bind (ECP.mapit_str hl hA) fun P hP => ?_
  refine Wp.bind (ECP.frombytes_str hT) ?_
  rintro S ⟨hS, -⟩
  refine Wp.bind (ECP.is_infinity_wp hS (by norm_num)) fun b hb => ?_
  rw [if_neg (fun h => hT.ne (hb.1 h)), pin_nat hp]
  refine Wp.bind (ECP.pinmul_nat hP.okY (by norm_num) (n := PBLEN) (by decide) (by rw [PBLEN]; omega)) fun W hW => ?_
  refine Wp.bind (ECP.add_wpY (hS.okY.mono (by norm_num)) (hW.mono (by norm_num))) fun S' hS' => ?_
  rw [if_pos hd0]
  unfold client1Date
  by_cases h1 : pin % 10000 = 0
  · refine Wp.bind (R := fun a => a = .error INVALID_POINT) ?_ ?_
    · refine Wp.bind (R := fun a => a = W) (Wp.ret rfl) ?_
      intro W' hW'
      rw [hW']
      refine Wp.bind (ECP.is_infinity_wpY hW (by norm_num)) fun b hb => ?_
      rw [if_pos (hb.2 (by rw [h1, zero_smul]))]
      exact Wp.ret rfl
    · intro a ha
      rw [ha]
      exact Wp.ret (Or.inl ⟨h1, rfl⟩)
  refine Wp.bind (R := fun a => ∃ T' b c, a = .ok (T', some b, some c) ∧
      ECP.Ok T' 32 (T + (pin % 10000) • A + (pin % 10000) • A) ∧ Str1 b (beNat x' • A) ∧ Str1 c (beNat x' • (A + A'))) ?_ ?_
  · refine Wp.bind (R := fun a => a = W) (Wp.ret rfl) ?_
    intro W' hW'
    rw [hW']
    refine Wp.bind (ECP.is_infinity_wpY hW (by norm_num)) fun b hb => ?_
    rw [if_neg (fun h => smul_ne tA nA (n := pin % 10000)
      (fun hd => h1 (Nat.eq_zero_of_dvd_of_lt hd (by omega))) (hb.1 h))]
    refine Wp.bind (ECP.add_wpY (hS'.okY.mono (by norm_num)) (hW.mono (by norm_num))) fun T' hT' => ?_
    refine Wp.bind (hashed_wp sha hd (by omega)) ?_
    rintro h2 ⟨rfl, hl2⟩
    refine Wp.bind (ECP.mapit_str hl2 hA') fun W' hW' => ?_
    refine Wp.bind (commit_wp nx vx (by have := beNat_lt48 hx; omega) x0 hP tA nA hW' tA') ?_
    rintro ⟨Q, b'⟩ ⟨hQ, b, rfl, hb'⟩
    dsimp only at hQ ⊢
    rw [if_pos rfl]
    have tS := torsion_add tA tA'
    refine Wp.bind (ECP.tobytes_str hQ.okY (by norm_num) (torsion_smul tS _) (smul_ne tS h00 x0)) ?_
    rintro ⟨c, Q'⟩ ⟨hc, -⟩
    exact Wp.ret ⟨T', b, c, rfl, hT', hb', hc⟩
  rintro _ ⟨T', xid, xcid, rfl, hT', hxid, hxcid⟩
  dsimp only
  refine Wp.bind (ECP.tobytes_str hT'.okY (by norm_num)
    (torsion_add (torsion_add tT (torsion_smul tA _)) (torsion_smul tA _)) h0) ?_
  rintro ⟨sec, S2⟩ ⟨hsec, -⟩
  exact Wp.ret (Or.inr ⟨h1, sec, xid, xcid, rfl, hsec, hxid, hxcid⟩)

/-- `server_1` without a date. -/
theorem server_1_plain_wp (sha : Nat) {cid : List UInt8} {A : G1} (want : Bool) (hid : cid.length + 21 ≤ 2 ^ 29)
    (hA : BytesPt h1 (mpinHash sha 0 cid) A) :
    Wp (server_1 sha 0 cid want) fun a => Str1 a.1 A ∧ a.2 = none := by
  obtain ⟨tA, nA⟩ := hA.torsion
  unfold server_1
  refine Wp.bind (hashed_wp sha (by norm_num) hid) ?_
  rintro h ⟨rfl, hl⟩
  refine Wp.bind (ECP.mapit_str hl hA) fun P hP => ?_
  refine Wp.bind (ECP.tobytes_str hP.okY (by norm_num) tA nA) ?_
  rintro ⟨b, P'⟩ ⟨hb, -⟩
  dsimp only at hb ⊢
  rw [if_neg (by simp)]
  exact Wp.ret ⟨hb, rfl⟩

/-- `server_1` with a date. -/
theorem server_1_date_wp (sha : Nat) {date : Nat} {cid : List UInt8} {A A' : G1} (hd0 : date ≠ 0) (hd : date < 2 ^ 32)
    (hid : cid.length + 21 ≤ 2 ^ 29) (hA : BytesPt h1 (mpinHash sha 0 cid) A)
    (hA' : BytesPt h1 (mpinHash sha date (mpinHash sha 0 cid)) A') (h00 : A + A' ≠ 0) :
    Wp (server_1 sha date cid true) fun a => Str1 a.1 A ∧ ∃ b, a.2 = some b ∧ Str1 b (A + A') := by
  obtain ⟨tA, nA⟩ := hA.torsion
  obtain ⟨tA', nA'⟩ := hA'.torsion
  unfold server_1
  refine Wp.bind (hashed_wp sha (by norm_num) hid) ?_
  rintro h ⟨rfl, hl⟩
  refine Wp.bind (ECP.mapit_str hl hA) fun P hP => ?_
  refine Wp.bind (ECP.tobytes_str hP.okY (by norm_num) tA nA) ?_
  rintro ⟨b, P'⟩ ⟨hb, hP'⟩
  dsimp only at hb hP' ⊢
  rw [if_pos hd0]
  refine Wp.bind (hashed_wp sha hd (by omega)) ?_
  rintro h2 ⟨rfl, hl2⟩
  refine Wp.bind (ECP.mapit_str hl2 hA') fun R hR => ?_
  refine Wp.bind (ECP.add_wpY (hP'.mono (by norm_num)) (hR.okY.mono (by norm_num))) fun Q hQ => ?_
  rw [if_pos rfl]
  refine Wp.bind (ECP.tobytes_str hQ.okY (by norm_num) (torsion_add tA tA') h00) ?_
  rintro ⟨c, Q'⟩ ⟨hc, -⟩
  exact Wp.ret ⟨hb, c, rfl, hc⟩

theorem mod_smul {g : G1} (hg : r • g = 0) (n : Nat) : (n % r) • g = n • g := by
  conv_rhs => rw [← Nat.mod_add_div n r, add_smul, mul_comm, mul_smul, hg, smul_zero, add_zero]

theorem client_2_wp {x y sec : List UInt8} {V : G1} (hx : x.length = 48) (hy : y.length = 48) (hV : Str1 sec V) (tV : r • V = 0)
    (h0 : ¬ r ∣ beNat x + beNat y) :
    Wp (client_2 x y sec) fun a => ∃ b, a = .ok b ∧ Str1 b (-((beNat x + beNat y) • V)) := by
  unfold client_2
  refine Wp.bind (ECP.frombytes_str hV) ?_
  rintro P ⟨hP, -⟩
  refine Wp.bind (ECP.is_infinity_wp hP (by norm_num)) fun b hb => ?_
  rw [if_neg (fun h => hV.ne (hb.1 h))]
  refine Wp.bind (scalar_wp hx) ?_
  rintro px ⟨nx, vx, lx⟩
  refine Wp.bind (scalar_wp hy) ?_
  rintro py ⟨ny, vy, ly⟩
  refine Wp.bind (BIG.add_wp (nx.lim58 (by omega) (by omega)) (ny.lim58 (by omega) (by omega)) (by norm_num)) ?_
  rintro pz ⟨lz, vz⟩
  refine Wp.bind (BIG.rmod_wp (lz.mono (by norm_num)) (by omega) (by omega) order_nrm (by decide +kernel)) ?_
  rintro pw ⟨nw, vw⟩
  rw [vz, vx, vy, order_val, ← Nat.cast_add, ← Int.natCast_mod] at vw
  have hr : r < 2 ^ 382 := by decide +kernel
  have hm := Nat.mod_lt (beNat x + beNat y) (show 0 < r by decide +kernel)
  refine Wp.bind (pair.g1mul_nat hP (by norm_num) tV nw vw (by omega)) fun R hR => ?_
  rw [mod_smul tV] at hR
  refine Wp.bind (ECP.neg_wp hR (by norm_num)) fun N hN => ?_
  refine Wp.bind (ECP.tobytes_str hN.okY (by norm_num) (torsion_neg (torsion_smul tV _)) ?_) ?_
  · rw [neg_ne_zero]; exact smul_ne tV hV.ne h0
  rintro ⟨b, N'⟩ ⟨hb, -⟩
  exact Wp.ret ⟨b, rfl, hb⟩

theorem get_y_wp (sha : Nat) {t : Nat} {xcid : List UInt8} (ht : t < 2 ^ 32) (hl : xcid.length + 21 ≤ 2 ^ 29) :
    Wp (get_y sha t xcid) fun y => y = toBE 48 (beNat (mpinHash sha t xcid) % r) := by
  unfold get_y
  refine Wp.bind (hashed_wp sha ht hl) ?_
  rintro h ⟨rfl, hl⟩
  refine Wp.bind (scalar_wp hl) ?_
  rintro a ⟨na, va, la⟩
  refine Wp.bind (BIG.rmod_wp ((na.lim58 (by omega) (by omega)).mono (by norm_num)) (by omega) (by omega) order_nrm (by decide +kernel)) ?_
  rintro b ⟨nb, vb⟩
  rw [va, order_val, ← Int.natCast_mod] at vb
  have hr : r < 2 ^ 382 := by decide +kernel
  have hm := Nat.mod_lt (beNat (mpinHash sha t xcid)) (show 0 < r by decide +kernel)
  refine Wp.eq ?_
  rw [BIG.tobytes_eq ((nb.lim58 (by omega) (by omega)).mono (by norm_num)) (by omega), vb, Int.toNat_natCast]

/-! ### `server_2` -/

theorem decodeOpt_wp {b : List UInt8} {g : G1} (h : Str1 b g) :
    Wp (decodeOpt (some b)) fun a => ∃ P, a = .ok P ∧ ECP.Ok P 2 g ∧ P.z.toF = 1 := by
  unfold decodeOpt
  refine Wp.bind (ECP.frombytes_str h) ?_
  rintro P ⟨hP, hz⟩
  refine Wp.bind (ECP.is_infinity_wp hP (by norm_num)) fun b hb => ?_
  rw [if_neg (fun h' => h.ne (hb.1 h'))]
  exact Wp.ret ⟨P, rfl, hP, hz⟩

theorem pairing_bind {α : Type} {Q : ECP2} {P : ECP} {S : G2} {g : G1} (hQ : Q.Aff S) (tS : r • S = 0) (nS : S ≠ 0) (hP : P.Aff g)
    {k : FP12 → Option α} {p : α → Prop} (h : ∀ z, FP12.Can z (pairing S g) → Wp (k z) p) :
    Wp (do let a ← pair.ate Q P; let b ← pair.fexp a; k b) p := by
  obtain ⟨z, e, hz⟩ := Props.C31_pairing_any_key Q S P g hQ tS hP nS
  obtain ⟨a, e1, e2⟩ := Option.bind_eq_some_iff.1 e
  rw [e1]
  show Wp ((pair.fexp a).bind k) p
  rw [e2]
  exact h z hz

theorem failPoint_wp {date : Nat} {hid xid y : List UInt8} {sy : BIG} {P : ECP} {A R B : G1} (hA : Str1 hid A) (tA : r • A = 0)
    (hR : Str1 xid R) (ny : sy.Nrm) {η : Nat} (vy : sy.val = η) (ly : η < 2 ^ 403) (hP : P.Aff B)
    (hB : date = 0 → B = η • A + R) :
    Wp (failPoint date hid xid sy P) fun a => ∃ P', a = some P' ∧ P'.Aff (η • A + R) := by
  unfold failPoint
  by_cases hd : date = 0
  · rw [if_neg (by simp [hd])]
    exact Wp.ret ⟨P, rfl, by rw [← hB hd]; exact hP⟩
  rw [if_pos hd]
  refine Wp.bind (ECP.frombytes_str hA) ?_
  rintro P1 ⟨hP1, -⟩
  refine Wp.bind (ECP.is_infinity_wp hP1 (by norm_num)) fun b hb => ?_
  rw [if_neg (fun h' => hA.ne (hb.1 h'))]
  refine Wp.bind (ECP.frombytes_str hR) ?_
  rintro R1 ⟨hR1, -⟩
  refine Wp.bind (ECP.is_infinity_wp hR1 (by norm_num)) fun b hb => ?_
  rw [if_neg (fun h' => hR.ne (hb.1 h'))]
  refine Wp.bind (pair.g1mul_nat hP1 (by norm_num) tA ny vy ly) fun P2 hP2 => ?_
  refine Wp.bind (ECP.add_wp (hP2.mono (by norm_num)) (hR1.mono (by norm_num))) fun P3 hP3 => ?_
  refine Wp.bind (ECP.affine_wp hP3 (by norm_num)) ?_
  rintro P4 ⟨h4, -, h5, -⟩
  exact Wp.ret ⟨P4, rfl, h4.mono (by norm_num), fun h => (h5 h).res⟩

/-- The status and the strings after a failure. -/
structure Fail (η : Nat) (hid : List UInt8) (xid : Option (List UInt8)) (v : Fp12) (want : Bool)
    (a : Int × Option (List UInt8 × List UInt8)) : Prop where
  status : a.1 = BAD_PIN
  silent : want = false ∨ xid = none → a.2 = none
  strings : want = true → ∀ xb A R, xid = some xb → Str1 hid A → Str1 xb R → ∃ e f, a.2 = some (e, f) ∧
    e.length = 576 ∧ f.length = 576 ∧ block12 e = v ∧ block12 f = pairing gen2 (η • A + R)

theorem Str1_inj {b : List UInt8} {g g' : G1} (h : Str1 b g) (h' : Str1 b g') : g = g' := by
  obtain ⟨P, e, hP, z⟩ := ECP.frombytes_str h
  obtain ⟨P', e', hP', z'⟩ := ECP.frombytes_str h'
  rw [e, Option.some_inj] at e'
  subst e'
  exact (Proj.eq_iff hP.pt hP'.pt).1 ⟨by ring, by ring⟩

theorem failure_wp {date : Nat} {hid : List UInt8} {xid : Option (List UInt8)} {sy : BIG} {Q : ECP2} {P : ECP} {B : G1} {g : FP12}
    {v : Fp12} (wantE wantF : Bool) (ny : sy.Nrm) {η : Nat} (vy : sy.val = η) (ly : η < 2 ^ 403) (aQ : ECP2.Aff Q gen2)
    (aP : P.Aff B) (hg : FP12.Ok g 1 1 v)
    (hf : ∀ xb, xid = some xb → (wantE && wantF) = true → ∃ A R, Str1 hid A ∧ r • A = 0 ∧ Str1 xb R ∧ (date = 0 → B = η • A + R)) :
    Wp (failure date hid xid sy Q P g wantE wantF) (Fail η hid xid v (wantE && wantF)) := by
  unfold failure
  rcases xid with _ | xb
  · exact Wp.ret ⟨rfl, fun _ => rfl, fun _ xb A R h => by simp at h⟩
  dsimp only
  by_cases hw : (wantE && wantF) = true
  · rw [if_pos hw]
    obtain ⟨A, R, hA, tA, hR, hB⟩ := hf xb rfl hw
    obtain ⟨e, ee, he, ve⟩ := Props.C54_encode g v (hg.mono (by norm_num))
    refine Wp.bind (R := fun a => a = e) (Wp.eq ee) ?_
    intro c hc
    rw [hc]
    refine Wp.bind (failPoint_wp (date := date) (y := []) hA tA hR ny vy ly aP hB) ?_
    rintro _ ⟨P', rfl, aP'⟩
    dsimp only
    refine pairing_bind aQ r_gen2 gen2_ne aP' fun z hz => ?_
    obtain ⟨f, ef, hf', vf⟩ := Props.C54_encode z _ (hz.ok.mono (by norm_num))
    refine Wp.bind (R := fun a => a = f) (Wp.eq ef) ?_
    intro c hc
    rw [hc]
    refine Wp.ret ⟨rfl, fun h => by simp [hw] at h, fun _ xb' A' R' hx hA' hR' => ⟨e, f, rfl, he, hf', ve, ?_⟩⟩
    rw [Option.some_inj] at hx
    subst hx
    rw [vf, Str1_inj hA hA', Str1_inj hR hR']
  · rw [if_neg hw]
    exact Wp.ret ⟨rfl, fun _ => rfl, fun h => absurd h hw⟩

theorem server_2_wp {date : Nat} {hid y sst msec rb ab : List UInt8} {htid xid xcid : Option (List UInt8)} {A R V : G1} {S : G2}
    (wantE wantF : Bool) (eR : (if date ≠ 0 then xcid else xid) = some rb) (hR : Str1 rb R)
    (eA : (if date ≠ 0 then htid else some hid) = some ab) (hA : Str1 ab A) (tA : r • A = 0)
    (hy : y.length = 48) (hS : Str2 sst S) (tS : r • S = 0) (hV : Str1 msec V)
    (hf : date ≠ 0 → ∀ xb, xid = some xb → (wantE && wantF) = true → ∃ A R, Str1 hid A ∧ r • A = 0 ∧ Str1 xb R) :
    Wp (server_2 date hid htid y sst xid xcid msec wantE wantF) fun a =>
      (pairing gen2 V * pairing S (beNat y • A + R) = 1 ∧ a = (0, none)) ∨
      (pairing gen2 V * pairing S (beNat y • A + R) ≠ 1 ∧
        Fail (beNat y) hid xid (pairing gen2 V * pairing S (beNat y • A + R)) (wantE && wantF) a) := by
  unfold server_2
  refine Wp.bind ECP2.generator_wp ?_
  rintro Q ⟨hQ, zQ⟩
  have aQ : ECP2.Aff Q gen2 := ⟨hQ.mono (by norm_num), fun _ => zQ⟩
  refine Wp.bind (ECP2.frombytes_str hS) fun sQ aS => ?_
  refine Wp.bind (ECP2.is_infinity_wp aS.1 (by norm_num)) fun b hb => ?_
  rw [if_neg (fun h' => hS.ne (hb.1 h')), eR]
  refine Wp.bind (decodeOpt_wp hR) ?_
  rintro _ ⟨R1, rfl, hR1, -⟩
  dsimp only
  refine Wp.bind (scalar_wp hy) ?_
  rintro sy ⟨ny, vy, ly384⟩
  have ly : beNat y < 2 ^ 403 := by omega
  rw [eA]
  refine Wp.bind (decodeOpt_wp hA) ?_
  rintro _ ⟨P1, rfl, hP1, -⟩
  dsimp only
  refine Wp.bind (pair.g1mul_nat hP1 (by norm_num) tA ny vy ly) fun P2 hP2 => ?_
  refine Wp.bind (ECP.add_wp (hP2.mono (by norm_num)) (hR1.mono (by norm_num))) fun P3 hP3 => ?_
  refine Wp.bind (ECP.affine_wp hP3 (by norm_num)) ?_
  rintro P4 ⟨h4, -, h5, -⟩
  have aP : ECP.Aff P4 (beNat y • A + R) := ⟨h4.mono (by norm_num), fun h => (h5 h).res⟩
  refine Wp.bind (ECP.frombytes_str hV) ?_
  rintro V1 ⟨hV1, zV⟩
  have aV : ECP.Aff V1 V := ⟨hV1.mono (by norm_num), fun _ => zV⟩
  refine Wp.bind (ECP.is_infinity_wp hV1 (by norm_num)) fun b hb => ?_
  rw [if_neg (fun h' => hV.ne (hb.1 h'))]
  obtain ⟨z, e, z₁, z₂, v₁, v₂, e1, e2, e₁, e₂, h₁, h₂, hz⟩ := Props.C47_product Q sQ gen2 S V1 P4 V _ aQ aV.1 aS aP.1
  obtain ⟨w₁, f₁, k₁⟩ := Props.C31_pairing_any_key Q gen2 V1 V aQ r_gen2 aV gen2_ne
  obtain ⟨w₂, f₂, k₂⟩ := Props.C31_pairing_any_key sQ S P4 _ aS tS aP hS.ne
  rw [e₁, Option.some_inj] at f₁
  rw [e₂, Option.some_inj] at f₂
  subst f₁ f₂
  rw [FP12.Can.inj h₁ k₁, FP12.Can.inj h₂ k₂] at hz
  refine Wp.bind (R := fun a => a = e) (Wp.eq e1) ?_
  intro c hc
  rw [hc]
  refine Wp.bind (R := fun a => a = z) (Wp.eq e2) ?_
  intro c' hc'
  rw [hc']
  refine Wp.bind (FP12.isunity_wp hz.ok (by norm_num)) ?_
  rintro ⟨u, g⟩ ⟨hu, hg⟩
  dsimp only at hu hg ⊢
  by_cases h1 : pairing gen2 V * pairing S (beNat y • A + R) = 1
  · rw [if_pos (hu.2 h1)]
    exact Wp.ret (Or.inl ⟨h1, rfl⟩)
  · rw [if_neg (fun h => h1 (hu.1 h))]
    refine (failure_wp (date := date) wantE wantF ny vy ly aQ aP hg ?_).mono fun a ha => Or.inr ⟨h1, ha⟩
    intro xb hxb hw
    by_cases hd : date = 0
    · rw [if_neg (by simp [hd])] at eR eA
      rw [hxb, Option.some_inj] at eR
      rw [Option.some_inj] at eA
      subst eR eA
      exact ⟨A, R, hA, tA, hR, fun _ => rfl⟩
    · obtain ⟨A', R', h1, h2, h3⟩ := hf hd xb hxb hw
      exact ⟨A', R', h1, h2, h3, fun h => absurd h hd⟩

end mpin

end Amcl
