import Verif.Model.Secp.Rand
import Verif.Proof.Secp.Dbig
import Verif.Proof.Secp.BigArith
import Verif.Proof.Rng
/-!
# The numbers `randomnum` of secp256k1 returns
-/

set_option exponentiation.threshold 2000

namespace Amcl.Secp.BIG

open Spec Spec.Rng
open Amcl.BIG (numberAt_lt)

theorem randomLoop_wp {e : List UInt8} (i : Nat) : ∀ (n k : Nat) (j : Nat) (r : UInt8) (d : DBIG) (g : RAND), k + n ≤ 560 →
    j = k % 8 → (j ≠ 0 → r.toNat = (byte e (i + k / 8)).toNat / 2 ^ (j - 1)) → RAND.Gen (sha256 e) (i + (k + 7) / 8) g →
    d.Nrm → d.val = (numberAt e i k : Int) →
    Wp (randomLoop n j r d g) fun q => q.1.Nrm ∧ q.1.val = (numberAt e i (k + n) : Int) ∧ RAND.Gen (sha256 e) (i + (k + n + 7) / 8) q.2
  | 0, k, j, r, d, g, _, _, _, hg, hd, hv => ⟨_, rfl, hd, hv, hg⟩
  | n + 1, k, j, r, d, g, hk, hj, hr, hg, hd, hv => by
    have tail : ∀ (r' : UInt8) (g' : RAND), r'.toNat = (byte e (i + k / 8)).toNat / 2 ^ j →
        RAND.Gen (sha256 e) (i + (k + 1 + 7) / 8) g' →
        Wp (do
          let d ← d.shl 1
          let w ← add64 d.lo.w0 ((r' &&& 1).toNat : Int)
          randomLoop n ((j + 1) % 8) r' ⟨{ d.lo with w0 := w }, d.hi⟩ g')
          fun q => q.1.Nrm ∧ q.1.val = (numberAt e i (k + (n + 1)) : Int) ∧ RAND.Gen (sha256 e) (i + (k + (n + 1) + 7) / 8) q.2 := by
      intro r' g' h1 h2
      have hlt : (numberAt e i k : Int) < 2 ^ 560 := by
        have := numberAt_lt e i k
        have h3 : 2 ^ k ≤ 2 ^ 560 := Nat.pow_le_pow_right (by norm_num) (by omega)
        have h4 : numberAt e i k < 2 ^ 560 := by omega
        exact_mod_cast h4
      have ht := hd.top
      rw [hv] at ht
      refine Wp.bind (DBIG.shl_wp hd (by norm_num) (by omega) (by omega)) ?_
      rintro d' ⟨nd, vd⟩
      have hb : (((r' &&& 1).toNat : Nat) : Int) = (Rng.bit e (8 * i + k) : Int) := by
        congr 1
        rw [UInt8.toNat_and]
        show r'.toNat &&& (2 ^ 1 - 1) = _
        rw [Nat.and_two_pow_sub_one_eq_mod, h1, Rng.bit, hj, show (8 * i + k) / 8 = i + k / 8 by omega,
          show (8 * i + k) % 8 = k % 8 by omega]
      have hbit : Rng.bit e (8 * i + k) < 2 := Nat.mod_lt _ (by norm_num)
      rw [hb]
      rw [hv] at vd
      have hev : d'.lo.w0 % 2 = 0 := by
        simp only [DBIG.val, BIG.val] at vd
        omega
      have h0 := nd.lo.n0
      rw [add64_eq (by omega) (by omega)]
      simp only [Option.bind_eq_bind, Option.bind_some]
      have := randomLoop_wp i n (k + 1) ((j + 1) % 8) r' ⟨{ d'.lo with w0 := d'.lo.w0 + Rng.bit e (8 * i + k) }, d'.hi⟩ g' (by omega)
        (by omega) ?_ h2 ?_ ?_
      · rwa [show k + 1 + n = k + (n + 1) by omega] at this
      · intro hne
        rw [h1]
        congr 2
        · congr 1
          omega
        · omega
      · obtain ⟨⟨n0, n1, n2, n3⟩, n6, hi⟩ := nd
        refine ⟨⟨?_, n1, n2, n3⟩, n6, hi⟩
        show 0 ≤ d'.lo.w0 + Rng.bit e (8 * i + k) ∧ d'.lo.w0 + Rng.bit e (8 * i + k) < 2 ^ 56
        omega
      · rw [numberAt]
        simp only [DBIG.val, BIG.val] at vd ⊢
        push_cast
        omega
    rw [randomLoop]
    by_cases h0 : j = 0
    · rw [if_pos h0]
      refine Wp.bind (RAND.getbyte_wp hg) ?_
      rintro ⟨r', g'⟩ ⟨h1, h2⟩
      dsimp only at h1 h2
      refine tail r' g' ?_ ?_
      · rw [h1, h0, pow_zero, Nat.div_one]
        congr 2
        omega
      · rwa [show i + (k + 7) / 8 + 1 = i + (k + 1 + 7) / 8 by omega] at h2
    · rw [if_neg h0]
      refine tail (r >>> 1) g ?_ ?_
      · rw [UInt8.toNat_shiftRight, hr h0]
        show (_ / _) >>> 1 = _
        rw [Nat.shiftRight_eq_div_pow, Nat.div_div_eq_div_mul, ← pow_add, show j - 1 + 1 = j by omega]
      · rwa [show (k + 7) / 8 = (k + 1 + 7) / 8 by omega] at hg

theorem randomnum_at {e : List UInt8} {i : Nat} {q : BIG} {g : RAND} (hg : RAND.Gen (sha256 e) i g) (hq : q.Nrm) (h0 : 0 < q.val)
    (h1 : q.val < 2 ^ 276) :
    Wp (randomnum q g) fun x => x.1.Nrm ∧ x.1.val = (numberAt e i (2 * Nat.size q.val.toNat) : Int) % q.val ∧
      RAND.Gen (sha256 e) (i + (2 * Nat.size q.val.toNat + 7) / 8) x.2 := by
  rw [randomnum]
  refine Wp.bind (nbits_wp (hq.lim56 (by omega) (by omega) |>.mono (by norm_num)) (by omega)) ?_
  rintro _ rfl
  have hsz : Nat.size q.val.toNat ≤ 276 := by
    rw [Nat.size_le]
    omega
  refine Wp.bind (randomLoop_wp i (2 * Nat.size q.val.toNat) 0 0 0 DBIG.new g (by omega) rfl (fun h => absurd rfl h) hg ?_ rfl) ?_
  · constructor
    · constructor <;> norm_num [DBIG.new, BIG.new]
    · norm_num [DBIG.new, BIG.new]
    · constructor <;> norm_num [DBIG.new, BIG.new]
  rintro ⟨d, g'⟩ ⟨nd, vd, hg'⟩
  rw [Nat.zero_add] at vd hg'
  have hlt : d.val < 2 ^ 560 := by
    rw [vd]
    have := numberAt_lt e i (2 * Nat.size q.val.toNat)
    have h3 : 2 ^ (2 * Nat.size q.val.toNat) ≤ 2 ^ 560 := Nat.pow_le_pow_right (by norm_num) (by omega)
    have h4 : numberAt e i (2 * Nat.size q.val.toNat) < 2 ^ 560 := by omega
    exact_mod_cast h4
  dsimp only at vd nd ⊢
  refine Wp.bind (DBIG.dmod_wp (nd.lim (B := 2 ^ 60) (by omega) (by omega) (by norm_num) |>.mono (by norm_num)) (by omega) (by omega) hq h0 (by omega)) ?_
  rintro m ⟨nm, vm⟩
  refine ⟨_, rfl, nm, ?_, hg'⟩
  rw [← vd]
  exact vm

end Amcl.Secp.BIG
