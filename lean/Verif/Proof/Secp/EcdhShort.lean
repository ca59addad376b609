import Verif.Proof.Secp.Ecdsa
/-!
# `ecdh.rs` on secp256k1: short slices, and the three ways in which signing goes
-/

set_option exponentiation.threshold 2000

namespace Amcl.Secp.ecdh

open Spec.Secp
open Amcl (Wp)
open Spec (Pt toBE beNat length_toBE beNat_toBE sha256)
open Spec.Rng (numberAt)
open Amcl.ecdh (hashit)

seal Spec.toBE

theorem frombytes_short {b : List UInt8} (h : b.length < 32) : BIG.frombytes b = none := by
  unfold BIG.frombytes
  exact if_pos h

theorem secret_none {s : List UInt8} (hs : 32 ≤ s.length) : ∃ sc : BIG, secret none s = some (sc, none) ∧ sc.Nrm ∧
    sc.val = ((beNat (s.take 32) % n : Nat) : Int) := by
  have hb := Spec.beNat_lt (s.take 32)
  rw [List.length_take, Nat.min_eq_left hs] at hb
  obtain ⟨a, e, h1, h2⟩ := BIG.frombytes_wp hs
  obtain ⟨b, e', h3, h4⟩ := rmod_n h1 h2 (by omega)
  refine ⟨b, ?_, h3, h4⟩
  simp [secret, e, e']

theorem secret_some {e : List UInt8} {i : Nat} {g : RAND} (hg : RAND.Gen (sha256 e) i g) (s : List UInt8) :
    ∃ (sc : BIG) (g' : RAND), secret (some g) s = some (sc, some g') ∧ sc.Nrm ∧ sc.val = ((numberAt e i 512 % n : Nat) : Int) ∧
      RAND.Gen (sha256 e) (i + 64) g' := by
  obtain ⟨⟨a, g'⟩, e, h1, h2, h3⟩ := randomnum_n hg
  refine ⟨a, g', ?_, h1, h2, h3⟩
  simp [secret, e]

theorem key_pair_short {rng rng' : Option RAND} {s w : List UInt8} {sc : BIG} {d : Nat} (he : secret rng s = some (sc, rng'))
    (hs : sc.Nrm) (hv : sc.val = (d : Int)) (hd : d < n) (h : s.length < 32 ∨ w.length < 65) : key_pair_generate rng s w = none := by
  have hn := n_lt
  unfold key_pair_generate
  obtain ⟨G, e1, hG⟩ := ECP.generator_wp
  rw [e1, he]
  simp only [Option.bind_eq_bind, Option.bind_some]
  have e2 := hs.tobytes hv (by omega)
  rw [e2, Option.bind_some]
  by_cases h32 : s.length < 32
  · rw [put_none (by rw [length_toBE]; exact h32)]; rfl
  · rw [put_eq (by rw [length_toBE]; omega), Option.bind_some]
    obtain ⟨⟨l, P⟩, e3, hl⟩ := key_bytes hG hs hv hd
    dsimp only at hl
    have hl' := hl.length hd
    cases hm : G.mul sc with
    | none => rw [hm] at e3; cases e3
    | some W =>
      rw [hm, Option.bind_eq_bind, Option.bind_some] at e3
      rw [Option.bind_some, e3, Option.bind_some]
      dsimp only
      rw [put_none (by omega)]; rfl

theorem sign_cases (d e : Nat) (seed : List UInt8) (i : Nat) :
    (∃ k, (∀ j < k, Retry d e seed (i + 128 * j)) ∧ ¬ Stuck seed (i + 128 * k) ∧ ∃ r s, IsSignature d e (oneTime seed (i + 128 * k)) r s) ∨
    (∃ k, (∀ j < k, Retry d e seed (i + 128 * j)) ∧ Stuck seed (i + 128 * k)) ∨ ∀ j, Retry d e seed (i + 128 * j) := by
  classical
  by_cases h : ∃ k, ¬ Retry d e seed (i + 128 * k)
  · have h1 := Nat.find_spec h
    have h2 : ∀ j < Nat.find h, Retry d e seed (i + 128 * j) := fun j hj => not_not.1 (Nat.find_min h hj)
    by_cases hs : Stuck seed (i + 128 * Nat.find h)
    · exact Or.inr (Or.inl ⟨_, h2, hs⟩)
    · refine Or.inl ⟨_, h2, hs, ?_⟩
      rw [Retry, not_and] at h1
      have := h1 hs
      push Not at this
      exact this
  · push Not at h
    exact Or.inr (Or.inr h)

theorem sign_short {sha : Nat} {s f c c' seed : List UInt8} {i : Nat} {g : RAND} (hf : f.length + 17 ≤ 2 ^ 29)
    (hg : RAND.Gen (sha256 seed) i g) (h : s.length < 32 ∨ c.length < 32 ∨ c'.length < 32) : ecpsp_dsa sha g s f c c' = none := by
  have hn := n_lt
  obtain ⟨b, e1, hb, hb'⟩ := hash_wp sha hf
  by_cases h32 : s.length < 32
  · unfold ecpsp_dsa
    obtain ⟨G, e2, hG⟩ := ECP.generator_wp
    rw [e1, e2, frombytes_short h32]; rfl
  · rcases sign_cases (beNat (s.take 32)) (hashNum sha f) seed i with ⟨k, h0, h1, r, t, h2⟩ | hx
    · unfold ecpsp_dsa
      obtain ⟨G, e2, hG⟩ := ECP.generator_wp
      obtain ⟨sc, e3, hsc⟩ := BIG.frombytes_wp (Nat.not_lt.1 h32)
      obtain ⟨fb, e4, hfb⟩ := BIG.frombytes_wp hb
      rw [← hb'] at h0 h2
      have hlt := IsSignature.lt h2
      obtain ⟨⟨g', cb, db⟩, e5, -, n1, v1, n2, v2⟩ := signLoop_good k (start_wp (Nat.not_lt.1 h32) hb hG hsc hfb) hg h0 h1 h2
      dsimp only at n1 v1 n2 v2
      have e6 := n1.tobytes v1 (by omega)
      have e7 := n2.tobytes v2 (by omega)
      rw [e1, e2, e3]
      simp only [Option.bind_eq_bind, Option.bind_some]
      rw [e4, Option.bind_some, e5, Option.bind_some]
      dsimp only
      rw [e6, e7, Option.bind_some]
      by_cases hc : c.length < 32
      · rw [put_none (by rw [length_toBE]; exact hc)]; rfl
      · rw [put_eq (by rw [length_toBE]; omega), Option.bind_some, Option.bind_some, put_none (by rw [length_toBE]; omega)]; rfl
    · exact sign_none hf (Nat.not_lt.1 h32) hg hx

theorem verify_short {sha : Nat} {w f c c' : List UInt8} (h : c.length < 32 ∨ c'.length < 32) : ecpvp_dsa sha w f c c' = none := by
  unfold ecpvp_dsa
  obtain ⟨G, e2, hG⟩ := ECP.generator_wp
  cases hashit sha f 0 none 32 (List.replicate 32 0) with
  | none => rfl
  | some b =>
    rw [e2]
    simp only [Option.bind_eq_bind, Option.bind_some]
    by_cases hc : c.length < 32
    · rw [frombytes_short hc]; rfl
    · obtain ⟨cb, e3, -⟩ := BIG.frombytes_wp (Nat.not_lt.1 hc)
      rw [e3, Option.bind_some, frombytes_short (by omega)]; rfl

theorem dh_short {s wd z : List UInt8} (h : s.length < 32 ∨ ECP.frombytes wd = none) : ecpsvdp_dh s wd z = none := by
  unfold ecpsvdp_dh
  by_cases hs : s.length < 32
  · rw [frombytes_short hs]; rfl
  · obtain ⟨sc, e, -⟩ := BIG.frombytes_wp (Nat.not_lt.1 hs)
    rw [e, Option.bind_eq_bind, Option.bind_some, (h.resolve_left hs)]; rfl

theorem dh_short_z {s wd z : List UInt8} (hs : 32 ≤ s.length) {Q : G1} (hQ : Begins wd Q) (hx : beNat (s.take 32) • Q ≠ 0)
    (hz : z.length < 32) : ecpsvdp_dh s wd z = none := by
  have hn := n_lt
  have hb := Spec.beNat_lt (s.take 32)
  rw [List.length_take, Nat.min_eq_left hs] at hb
  unfold ecpsvdp_dh
  obtain ⟨sc, e, n1, v1⟩ := BIG.frombytes_wp hs
  obtain ⟨W, e1, hW⟩ := decode_wp hQ
  obtain ⟨b, e2, h2⟩ := ECP.is_infinity_wpY hW (by norm_num)
  have hbf : b = false := by
    cases b
    · rfl
    · exact absurd (h2.1 rfl) hQ.ne
  subst hbf
  obtain ⟨sc', e3, n3, v3⟩ := rmod_n n1 v1 (by omega)
  obtain ⟨P, e4, hP⟩ := ECP.mulY hW n3 v3 (Nat.mod_lt _ n_pos)
  obtain ⟨b', e5, h5⟩ := ECP.is_infinity_wpY hP.1.okY (by norm_num)
  rw [smul_mod] at h5
  have hbf : b' = false := by
    cases b'
    · rfl
    · exact absurd (h5.1 rfl) hx
  subst hbf
  obtain ⟨x, hx'⟩ := hasX_of_ne hx
  have hok := hP.1
  rw [smul_mod] at hok
  obtain ⟨⟨X, P'⟩, e6, n6, v6⟩ := hx'.getx hok
  dsimp only at n6 v6
  have e7 := n6.tobytes v6 (by have := val_lt_pow x; omega)
  rw [e, Option.bind_eq_bind, Option.bind_some, e1]
  simp only [Option.bind_eq_bind, Option.bind_some, e2]
  rw [if_neg (by simp), e3, Option.bind_some, e4, Option.bind_some, e5, Option.bind_some, if_neg (by simp), e6, Option.bind_some]
  dsimp only
  rw [e7, Option.bind_some, put_none (by rw [length_toBE]; exact hz)]; rfl

end Amcl.Secp.ecdh
