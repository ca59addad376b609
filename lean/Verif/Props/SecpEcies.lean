import Verif.Spec.Secp.Ecies
import Verif.Proof.Secp.EcdhShort
import Verif.Proof.EcdhPb
import Verif.Props.Ecdh
import Verif.Props.EcdhCbc
import Verif.Props.SecpEcdh
/-!
# Property C76: ECIES of `secp256k1/ecdh.rs`

The reference is `Verif/Spec/Secp/Ecies.lean`. Encryption is right. Decryption refuses what it should refuse, if the tag has 4 to 32
bytes, but it returns a wrong last block (C68).
-/

set_option exponentiation.threshold 2000

namespace Props.Secp

open Amcl.Secp Amcl.Secp.ecdh Spec.Secp Spec.Secp.Ecies
open Amcl (Wp RAND)
open Spec (Pt toBE beNat length_toBE beNat_toBE sha256)
open Spec.Rng (numberAt)
open Spec.AES (Block)
open Spec.Modes (pad blocksOf cbcEnc cbcDec)
open Amcl.ecdh (IsSha EFS EGS cbc_iv0_encrypt cbc_iv0_decrypt copy_eq)
open Amcl.NHS (copy)

seal Spec.toBE

theorem copy_src_none (p q : Nat) (src : List UInt8) : ∀ (n i : Nat) (dst : List UInt8), 0 < n → src.length < i + n + q →
    copy p q src n i dst = none := by
  intro n
  induction n with
  | zero => intro i dst h; omega
  | succ n ih =>
    intro i dst _ h
    rw [copy]
    cases hs : src[i + q]? with
    | none => rfl
    | some x =>
      rw [Option.bind_eq_bind, Option.bind_some]
      have hi : i + q < src.length := by
        by_contra c
        rw [List.getElem?_eq_none (by omega)] at hs
        cases hs
      cases Amcl.SHA3.setB dst (i + p) x with
      | none => rfl
      | some d =>
        rw [Option.bind_eq_bind, Option.bind_some]
        exact ih (i + 1) d (by omega) (by omega)

theorem keys_eq {sha : Nat} (hs : IsSha sha) (p1 v : List UInt8) (x : Fp) :
    keys sha p1 v x = (Spec.Kdf.H sha (v ++ toBE 32 x.val ++ toBE 4 1 ++ p1)).take 32 := by
  have h : Spec.Kdf.ceilDiv 32 sha = 1 := by rcases hs with rfl | rfl | rfl <;> rfl
  rw [keys, Spec.Kdf.kdf2, h, Spec.Kdf.blocks, Spec.Kdf.blocks, List.append_nil]

theorem length_keys {sha : Nat} (hs : IsSha sha) {p1 v : List UInt8} {x : Fp} (hl : v.length + p1.length + 53 ≤ 2 ^ 29) :
    (keys sha p1 v x).length = 32 := by
  rw [keys_eq hs, List.length_take, Amcl.ecdh.length_H hs (by simp only [List.length_append, length_toBE]; omega)]
  have := hs.pos
  omega

theorem eciesKeys_eq {sha : Nat} (hs : IsSha sha) {p1 v : List UInt8} {x : Fp} (hv : 65 ≤ v.length) (hl : p1.length + 118 ≤ 2 ^ 29) :
    eciesKeys sha p1 v (toBE 32 x.val) = some (encKey sha p1 (v.take 65) x, macKey sha p1 (v.take 65) x) := by
  have h65 : (v.take 65).length = 65 := by rw [List.length_take]; omega
  have hk := length_keys hs (p1 := p1) (v := v.take 65) (x := x) (by omega)
  have hc : Spec.Kdf.ceilDiv 32 sha = 1 := by rcases hs with rfl | rfl | rfl <;> rfl
  have e1 : copy 0 0 v 65 0 (List.replicate 97 0) = some (v.take 65 ++ List.replicate 32 0) := by
    rw [copy_eq 0 0 65 v _ (by omega) (by simp)]
    simp
  have e2 : copy 65 0 (toBE 32 x.val) 32 0 (v.take 65 ++ List.replicate 32 0) = some (v.take 65 ++ toBE 32 x.val) := by
    rw [copy_eq 65 0 32 (toBE 32 x.val) _ (by rw [length_toBE]) (by simp; omega), List.take_left' h65, List.drop_zero,
      List.take_of_length_le (length_toBE _ _).le, List.drop_of_length_le (by simp), List.append_nil]
  have e3 := C67_kdf2 hs (z := v.take 65 ++ toBE 32 x.val) (p := some p1)
    (by simp only [List.length_append, length_toBE, h65, Option.getD_some]; omega) (olen := 32) (by rw [hc]; norm_num)
    (k := List.replicate 32 0) (by simp)
  rw [List.drop_of_length_le (by simp), List.append_nil, Option.getD_some] at e3
  change _ = some (keys sha p1 (v.take 65) x) at e3
  unfold eciesKeys
  change (copy 0 0 v 65 0 (List.replicate 97 0)).bind _ = _
  rw [e1, Option.bind_some]
  change (copy 65 0 (toBE 32 x.val) 32 0 _).bind _ = _
  rw [e2, Option.bind_some]
  change (Amcl.ecdh.kdf2 sha _ (some p1) 32 (List.replicate 32 0)).bind _ = _
  rw [e3, Option.bind_some]
  change (copy 0 0 _ 16 0 (List.replicate 16 0)).bind _ = _
  rw [copy_eq 0 0 16 _ _ (by omega) (by simp), Option.bind_some]
  change (copy 0 16 _ 16 0 (List.replicate 16 0)).bind _ = _
  rw [copy_eq 0 16 16 _ _ (by omega) (by simp), Option.bind_some]
  simp only [List.take_zero, List.nil_append, List.drop_zero, List.drop_replicate, List.replicate_zero, List.append_nil, Nat.zero_add, Nat.sub_self]
  rw [encKey, macKey, List.take_of_length_le (l := List.drop 16 _) (by rw [List.length_drop]; omega)]
  rfl

theorem eciesKeys_short {sha : Nat} {p1 v z : List UInt8} (hv : v.length < 65) : eciesKeys sha p1 v z = none := by
  unfold eciesKeys
  change (copy 0 0 v 65 0 (List.replicate 97 0)).bind _ = _
  rw [copy_src_none _ _ _ _ _ _ (by norm_num) (by omega)]; rfl

theorem tagged_eq (c p2 : List UInt8) : tagged c p2 = some (c ++ p2 ++ toBE 8 p2.length) := by
  have h := Amcl.ecdh.intLoop_eq 8 p2.length 0 [] (by omega)
  have e : toBE 8 0 = List.replicate 8 0 := by decide +kernel
  rw [List.append_nil, List.append_nil, e] at h
  unfold tagged Amcl.ecdh.inttobytes
  rw [List.length_replicate, h]
  rfl

/-- The new contents of the slice `t` for the tag. -/
noncomputable def tagOf (sha : Nat) (k c p2 t : List UInt8) : List UInt8 :=
  if t.length < 4 then t else List.replicate (t.length - sha) 0 ++ (mac sha k c p2).take t.length

theorem hmac_tag {sha : Nat} (hs : IsSha sha) {k c p2 : List UInt8} (h : c.length + p2.length + 153 ≤ 2 ^ 29) (hk : k.length + 17 ≤ 2 ^ 29)
    (t : List UInt8) : ∃ b, Amcl.ecdh.hmac sha (c ++ p2 ++ toBE 8 p2.length) k t.length t = some (b, tagOf sha k c p2 t) := by
  unfold tagOf
  split
  · rename_i h4
    exact ⟨_, C67_hmac_short _ _ _ h4 _⟩
  · rename_i h4
    refine ⟨true, ?_⟩
    rw [C67_hmac hs (by simp only [List.length_append, length_toBE]; omega) hk (by omega) le_rfl, List.drop_of_length_le le_rfl, List.append_nil]
    rfl

theorem length_encKey {sha : Nat} (hs : IsSha sha) {p1 v : List UInt8} {x : Fp} (hl : v.length + p1.length + 53 ≤ 2 ^ 29) :
    (encKey sha p1 v x).length = 16 ∧ (macKey sha p1 v x).length = 16 := by
  have := length_keys hs (p1 := p1) (v := v) (x := x) hl
  rw [encKey, macKey, List.length_take, List.length_drop, this]
  exact ⟨rfl, rfl⟩

/-! ## Encryption -/

theorem encrypt_stop {sha : Nat} {p1 p2 w m v t u v' z : List UInt8} {g g' : RAND} {q res : Int}
    (e1 : key_pair_generate (some g) (List.replicate EGS 0) v = some (some g', q, u, v'))
    (e2 : ecpsvdp_dh u w (List.replicate EFS 0) = some (res, z)) (h : res ≠ 0) :
    ecies_encrypt sha p1 p2 g w m v t = some (g', v', t, none) := by
  unfold ecies_encrypt
  rw [e1]
  simp only [Option.bind_eq_bind, Option.bind_some]
  rw [e2, Option.bind_some]
  dsimp only
  rw [if_pos h]
  rfl

theorem encrypt_go {sha : Nat} {p1 p2 w m v t u v' z k1 k2 c y t' : List UInt8} {g g' : RAND} {q : Int} {b : Bool}
    (e1 : key_pair_generate (some g) (List.replicate EGS 0) v = some (some g', q, u, v'))
    (e2 : ecpsvdp_dh u w (List.replicate EFS 0) = some (0, z)) (e3 : eciesKeys sha p1 v' z = some (k1, k2))
    (e4 : cbc_iv0_encrypt k1 m = some c) (e5 : tagged c p2 = some y) (e6 : Amcl.ecdh.hmac sha y k2 t.length t = some (b, t')) :
    ecies_encrypt sha p1 p2 g w m v t = some (g', v', t', some c) := by
  unfold ecies_encrypt
  rw [e1]
  simp only [Option.bind_eq_bind, Option.bind_some]
  rw [e2, Option.bind_some]
  dsimp only
  rw [if_neg (by simp), e3, Option.bind_some]
  dsimp only
  rw [e4, Option.bind_some, e5, Option.bind_some, e6]
  rfl

theorem encrypt_core {sha : Nat} (hs : IsSha sha) {p1 p2 w m v t l : List UInt8} {g g' : RAND} {U : Nat}
    (e1 : key_pair_generate (some g) (List.replicate 32 0) v = some (some g', 0, toBE 32 U ++ (List.replicate 32 0).drop 32, l ++ v.drop 65))
    (hl : KeyString U l) (hlt : U < n) {Q : G1} (hQ : Begins w Q) (h1 : p1.length + 118 ≤ 2 ^ 29) (h2 : m.length + p2.length + 169 ≤ 2 ^ 29)
    (hu : U ≠ 0) :
    ∃ x c, HasX (U • Q) x ∧ ecies_encrypt sha p1 p2 g w m v t = some (g', l ++ v.drop 65, tagOf sha (macKey sha p1 l x) c p2 t, some c) ∧
      c.length = (pad m).length ∧
      blocksOf c = cbcEnc (Spec.AES.encrypt 4 (Amcl.AES.keyBytes (encKey sha p1 l x))) (fun _ => 0) (blocksOf (pad m)) ∧
      cbc_iv0_encrypt (encKey sha p1 l x) m = some c := by
  have hn := n_lt
  have hll := hl.length hlt
  rw [List.drop_of_length_le (by simp), List.append_nil] at e1
  have hnum := num_be (a := U) (by omega)
  obtain ⟨x, hx, e2⟩ := (C73_dh (toBE 32 U) w (List.replicate 32 0) (by rw [length_toBE]) Q hQ).2.2
    (by rw [hnum, Nat.mod_eq_of_lt hlt]; exact hu) (by simp)
  rw [hnum] at hx
  rw [List.drop_of_length_le (by simp), List.append_nil] at e2
  have ht : (l ++ v.drop 65).take 65 = l := List.take_left' hll
  have e3 := eciesKeys_eq hs (p1 := p1) (v := l ++ v.drop 65) (x := x) (by simp; omega) h1
  rw [ht] at e3
  obtain ⟨k1, k2⟩ := length_encKey hs (p1 := p1) (v := l) (x := x) (by omega)
  have hgk : GoodKey (encKey sha p1 l x) := Or.inl (by rw [k1])
  obtain ⟨c, e4, hc1, hc2⟩ := C68_encrypt hgk m
  have hcl : c.length ≤ m.length + 16 := by rw [hc1, Amcl.ecdh.length_pad]; omega
  obtain ⟨b, e5⟩ := hmac_tag hs (k := macKey sha p1 l x) (c := c) (p2 := p2) (by omega) (by omega) t
  rw [(C68_aes (k := encKey sha p1 l x) (Or.inl (by rw [k1]))).1, k1] at hc2
  refine ⟨x, c, hx, ?_, hc1, hc2, e4⟩
  exact encrypt_go e1 e2 e3 e4 (tagged_eq _ _) e5

theorem encrypt_none {sha : Nat} {p1 p2 w m v t l : List UInt8} {g g' : RAND} {U : Nat}
    (e1 : key_pair_generate (some g) (List.replicate 32 0) v = some (some g', 0, toBE 32 U ++ (List.replicate 32 0).drop 32, l ++ v.drop 65))
    (hlt : U < n)
    (h : ((∀ Q, ¬ Begins w Q) ∧ ¬ (w.length < 33 ∨ (w.length < 65 ∧ w.head? = some 4 ∧ beNat ((w.drop 1).take 32) < p))) ∨
      (∃ Q, Begins w Q) ∧ U = 0) :
    ecies_encrypt sha p1 p2 g w m v t = some (g', l ++ v.drop 65, t, none) := by
  have hn := n_lt
  rw [List.drop_of_length_le (by simp), List.append_nil] at e1
  have e2 : ecpsvdp_dh (toBE 32 U) w (List.replicate 32 0) = some (-3, List.replicate 32 0) := by
    rcases h with ⟨h1, h2⟩ | ⟨⟨Q, hQ⟩, h0⟩
    · rw [C73_dh_bad _ _ _ h1, if_neg]
      rw [length_toBE, not_or]
      exact ⟨by omega, h2⟩
    · refine (C73_dh _ w _ (by rw [length_toBE]) Q hQ).1 ?_
      rw [num_be (by omega), h0, Nat.zero_mod]
  exact encrypt_stop e1 e2 (by decide)

/-- **C76**: the one-time key `u` is made of 64 bytes of the generator; `v` gets its public key; `t` gets the HMAC of the ciphertext,
cut or filled with zeros in front to its length, if that is at least 4, and else is left as it is; the ciphertext is AES-128 in
CBC mode, with padding, under the key from the abscissa of `u • Q`. -/
theorem C76_encrypt (sha : Nat) (hs : IsSha sha) (p1 p2 w m v t e : List UInt8) (i : Nat) (g : RAND) (hg : RAND.Gen (sha256 e) i g)
    (Q : G1) (hQ : Begins w Q) (hv : 65 ≤ v.length) (h1 : p1.length + 118 ≤ 2 ^ 29) (h2 : m.length + p2.length + 169 ≤ 2 ^ 29)
    (hu : numberAt e i 512 % n ≠ 0) :
    ∃ g' l x c, RAND.Gen (sha256 e) (i + 64) g' ∧ KeyString (numberAt e i 512 % n) l ∧ HasX ((numberAt e i 512 % n) • Q) x ∧
      ecies_encrypt sha p1 p2 g w m v t = some (g', l ++ v.drop 65, tagOf sha (macKey sha p1 l x) c p2 t, some c) ∧
      c.length = (pad m).length ∧
      blocksOf c = cbcEnc (Spec.AES.encrypt 4 (Amcl.AES.keyBytes (encKey sha p1 l x))) (fun _ => 0) (blocksOf (pad m)) ∧
      cbc_iv0_encrypt (encKey sha p1 l x) m = some c := by
  obtain ⟨l, g', hl, hg', e1⟩ := C72_random e i g hg (List.replicate 32 0) v (by simp) hv
  obtain ⟨x, c, hx, r1, r2, r3, r4⟩ := encrypt_core (p2 := p2) (m := m) (t := t) hs e1 hl (Nat.mod_lt _ n_pos) hQ h1 h2 hu
  exact ⟨g', l, x, c, hg', hl, hx, r1, r2, r3, r4⟩

/-- **C76**: with a recipient's key that is no point, or the one-time key 0, there is no ciphertext, and `t` is left as it is. -/
theorem C76_encrypt_none (sha : Nat) (p1 p2 w m v t e : List UInt8) (i : Nat) (g : RAND) (hg : RAND.Gen (sha256 e) i g)
    (hv : 65 ≤ v.length)
    (h : ((∀ Q, ¬ Begins w Q) ∧ ¬ (w.length < 33 ∨ (w.length < 65 ∧ w.head? = some 4 ∧ beNat ((w.drop 1).take 32) < p))) ∨
      (∃ Q, Begins w Q) ∧ numberAt e i 512 % n = 0) :
    ∃ g' v', ecies_encrypt sha p1 p2 g w m v t = some (g', v', t, none) := by
  obtain ⟨l, g', hl, hg', e1⟩ := C72_random e i g hg (List.replicate 32 0) v (by simp) hv
  exact ⟨g', _, encrypt_none e1 (Nat.mod_lt _ n_pos) h⟩

/-! ## Decryption -/

/-- The ciphertext `c` and the tag `t` under the two keys, for tags of at most 32 bytes. -/
theorem decrypt_main {sha : Nat} (hs : IsSha sha) {p1 p2 v c t u : List UInt8} (h1 : p1.length + 118 ≤ 2 ^ 29)
    (h2 : c.length + p2.length + 153 ≤ 2 ^ 29) (hu : 32 ≤ u.length) {Q : G1} (hQ : Begins v Q) (hv : 65 ≤ v.length) (ht : t.length ≤ 32)
    {x : Fp} (hx : HasX (beNat (u.take 32) • Q) x) {o : Option (List UInt8)} (ho : cbc_iv0_decrypt (encKey sha p1 (v.take 65) x) c = some o) :
    ecies_decrypt sha p1 p2 v c t u =
      some (if t.length < 4 ∨ t = (mac sha (macKey sha p1 (v.take 65) x) c p2).take t.length then o else none) := by
  have e1 : put t (List.replicate 32 0) = some (t ++ List.replicate (32 - t.length) 0) := by
    rw [put_eq (by simpa using ht), List.drop_replicate]
  have e2 := dh_wp (z := List.replicate 32 0) hu hQ hx (by simp)
  rw [List.drop_of_length_le (by simp), List.append_nil] at e2
  have e3 := eciesKeys_eq hs (p1 := p1) (v := v) (x := x) hv h1
  have h65 : (v.take 65).length = 65 := by rw [List.length_take]; omega
  obtain ⟨k1, k2⟩ := length_encKey hs (p1 := p1) (v := v.take 65) (x := x) (by omega)
  have hsp := hs.pos
  have hmac : ∃ b tag, Amcl.ecdh.hmac sha (c ++ p2 ++ toBE 8 p2.length) (macKey sha p1 (v.take 65) x) t.length
      (t ++ List.replicate (32 - t.length) 0) = some (b, tag) ∧
      (t = tag.take t.length ↔ t.length < 4 ∨ t = (mac sha (macKey sha p1 (v.take 65) x) c p2).take t.length) := by
    by_cases h4 : t.length < 4
    · refine ⟨_, _, C67_hmac_short _ _ _ h4 _, ?_⟩
      rw [List.take_left' rfl]
      simp [h4]
    · refine ⟨true, _, C67_hmac hs (by simp only [List.length_append, length_toBE]; omega) (by omega) (by omega) (by simp), ?_⟩
      have hlm : (mac sha (macKey sha p1 (v.take 65) x) c p2).length = sha :=
        Amcl.ecdh.length_hmac hs (by simp only [List.length_append, length_toBE]; omega) (by omega)
      change t = List.take t.length (_ ++ List.take t.length (mac sha (macKey sha p1 (v.take 65) x) c p2) ++ _) ↔ _
      rw [show t.length - sha = 0 by omega, List.replicate_zero, List.nil_append, List.take_left' (by rw [List.length_take]; omega)]
      simp [h4]
  obtain ⟨b, tag, e5, htag⟩ := hmac
  unfold ecies_decrypt
  rw [e1, Option.bind_eq_bind, Option.bind_some]
  change (ecpsvdp_dh u v (List.replicate 32 0)).bind _ = _
  rw [e2, Option.bind_some]
  dsimp only
  rw [if_neg (by simp), e3]
  simp only [Option.bind_eq_bind, Option.bind_some]
  rw [ho, Option.bind_some]
  cases o with
  | none => rw [if_pos rfl]; simp
  | some m =>
    rw [if_neg (by simp), tagged_eq, Option.bind_some, e5, Option.bind_some]
    dsimp only
    by_cases hc : t = tag.take t.length
    · rw [if_neg (not_not.2 hc), if_pos (htag.1 hc)]; rfl
    · rw [if_pos hc, if_neg (fun h => hc (htag.2 h))]; rfl

/-- **C76**: decryption of a ciphertext `(v, c, t)` with the secret `d` in `u`: with the keys from the abscissa of `d • Q` and the
decrypted string `P`, the result is nothing if `c` is not a string of complete blocks, if `P` has no padding, or if the tag is wrong;
the tag counts only if it has at least 4 bytes. Otherwise it is `P` without its last block, and then copies of the byte of the
padding. -/
theorem C76_decrypt (sha : Nat) (hs : IsSha sha) (p1 p2 v c t u : List UInt8) (h1 : p1.length + 118 ≤ 2 ^ 29)
    (h2 : c.length + p2.length + 153 ≤ 2 ^ 29) (hu : 32 ≤ u.length) (Q : G1) (hQ : Begins v Q) (hv : 65 ≤ v.length) (ht : t.length ≤ 32)
    (x : Fp) (hx : HasX (beNat (u.take 32) • Q) x) :
    ((c.length = 0 ∨ c.length % 16 ≠ 0) → ecies_decrypt sha p1 p2 v c t u = some none) ∧
    (0 < c.length → c.length % 16 = 0 → ∃ P : List UInt8, P.length = c.length ∧
      blocksOf P = cbcDec (Spec.AES.decrypt 4 (Amcl.AES.keyBytes (encKey sha p1 (v.take 65) x))) (fun _ => 0) (blocksOf c) ∧
      ((∀ n, ¬ Padded n P) → ecies_decrypt sha p1 p2 v c t u = some none) ∧
      (4 ≤ t.length → t ≠ (mac sha (macKey sha p1 (v.take 65) x) c p2).take t.length → ecies_decrypt sha p1 p2 v c t u = some none) ∧
      ∀ n, Padded n P → (t.length < 4 ∨ t = (mac sha (macKey sha p1 (v.take 65) x) c p2).take t.length) →
        ecies_decrypt sha p1 p2 v c t u = some (some (P.take (P.length - 16) ++ List.replicate (16 - n) (UInt8.ofNat n)))) := by
  have h65 : (v.take 65).length = 65 := by rw [List.length_take]; omega
  obtain ⟨k1, k2⟩ := length_encKey hs (p1 := p1) (v := v.take 65) (x := x) (by omega)
  have hgk : GoodKey (encKey sha p1 (v.take 65) x) := Or.inl (by rw [k1])
  constructor
  · intro hc
    rw [decrypt_main hs h1 h2 hu hQ hv ht hx (C68_decrypt_length hgk hc), ite_self]
  · intro h0 h16
    obtain ⟨P, hP, hb, hg, hn⟩ := C68_decrypt hgk h0 h16
    rw [(C68_aes (k := encKey sha p1 (v.take 65) x) (Or.inl (by rw [k1]))).2, k1] at hb
    refine ⟨P, hP, hb, fun h => ?_, fun h4 hne => ?_, fun n h h' => ?_⟩
    · rw [decrypt_main hs h1 h2 hu hQ hv ht hx (hn h), ite_self]
    · by_cases hp : ∃ n, Padded n P
      · obtain ⟨n, hp⟩ := hp
        rw [decrypt_main hs h1 h2 hu hQ hv ht hx (hg n hp), if_neg (by rintro (h | h); omega; exact hne h)]
      · rw [decrypt_main hs h1 h2 hu hQ hv ht hx (hn fun n h => hp ⟨n, h⟩), ite_self]
    · rw [decrypt_main hs h1 h2 hu hQ hv ht hx (hg n h), if_pos h']

/-- **C76**: the other cases: a tag of more than 32 bytes makes it panic; so does a point `v` in compressed form with less than 65
bytes; a `v` that is no point and the secret 0 give nothing. -/
theorem C76_decrypt_bad (sha : Nat) (p1 p2 v c t u : List UInt8) :
    (32 < t.length → ecies_decrypt sha p1 p2 v c t u = none) ∧
    (t.length ≤ 32 → 32 ≤ u.length → (∃ Q, Begins v Q) → beNat (u.take 32) % n ≠ 0 → v.length < 65 → ecies_decrypt sha p1 p2 v c t u = none) ∧
    (t.length ≤ 32 → 32 ≤ u.length → (∃ Q, Begins v Q) → beNat (u.take 32) % n = 0 → ecies_decrypt sha p1 p2 v c t u = some none) ∧
    (t.length ≤ 32 → 32 ≤ u.length → (∀ Q, ¬ Begins v Q) →
      ¬ (v.length < 33 ∨ (v.length < 65 ∧ v.head? = some 4 ∧ beNat ((v.drop 1).take 32) < p)) → ecies_decrypt sha p1 p2 v c t u = some none) := by
  have stop : ∀ {z : List UInt8}, t.length ≤ 32 → ecpsvdp_dh u v (List.replicate EFS 0) = some (-3, z) →
      ecies_decrypt sha p1 p2 v c t u = some none := by
    intro z ht e
    unfold ecies_decrypt
    rw [put_eq (by simpa using ht), e]
    rfl
  refine ⟨fun ht => ?_, fun ht hu hQ h0 hv => ?_, fun ht hu hQ h0 => ?_, fun ht hu hQ hv => ?_⟩
  · unfold ecies_decrypt
    rw [put_none (by simpa using ht)]
    rfl
  · obtain ⟨Q, hQ⟩ := hQ
    obtain ⟨x, -, e⟩ := (C73_dh u v (List.replicate 32 0) hu Q hQ).2.2 h0 (by simp)
    unfold ecies_decrypt
    rw [put_eq (by simpa using ht), show EFS = 32 from rfl, e]
    simp only [Option.bind_eq_bind, Option.bind_some]
    rw [if_neg (by simp), eciesKeys_short hv]
    rfl
  · obtain ⟨Q, hQ⟩ := hQ
    exact stop ht ((C73_dh u v (List.replicate EFS 0) hu Q hQ).1 h0)
  · refine stop ht (z := List.replicate EFS 0) ?_
    rw [C73_dh_bad _ _ _ hQ, if_neg]
    rw [not_or]
    exact ⟨by omega, hv⟩

/-- **C76**: with a tag of less than 4 bytes neither the tag nor `p2` has any influence: every string that decrypts to a padded
string is accepted. -/
theorem C76_short_tag (sha : Nat) (hs : IsSha sha) (p1 p2 p2' v c t t' u : List UInt8) (h1 : p1.length + 118 ≤ 2 ^ 29)
    (h2 : c.length + p2.length + 153 ≤ 2 ^ 29) (h2' : c.length + p2'.length + 153 ≤ 2 ^ 29) (hu : 32 ≤ u.length) (Q : G1)
    (hQ : Begins v Q) (hv : 65 ≤ v.length) (ht : t.length < 4) (ht' : t'.length < 4) :
    ecies_decrypt sha p1 p2 v c t u = ecies_decrypt sha p1 p2' v c t' u := by
  by_cases h0 : beNat (u.take 32) % n = 0
  · rw [(C76_decrypt_bad sha p1 p2 v c t u).2.2.1 (by omega) hu ⟨Q, hQ⟩ h0, (C76_decrypt_bad sha p1 p2' v c t' u).2.2.1 (by omega) hu ⟨Q, hQ⟩ h0]
  · obtain ⟨x, hx⟩ := hasX_of_ne fun e => h0 ((smul_eq_zero hQ.ne).1 e)
    have h65 : (v.take 65).length = 65 := by rw [List.length_take]; omega
    obtain ⟨k1, -⟩ := length_encKey hs (p1 := p1) (v := v.take 65) (x := x) (by omega)
    have hgk : GoodKey (encKey sha p1 (v.take 65) x) := Or.inl (by rw [k1])
    have ho : ∃ o, cbc_iv0_decrypt (encKey sha p1 (v.take 65) x) c = some o := by
      by_cases hc : c.length = 0 ∨ c.length % 16 ≠ 0
      · exact ⟨_, C68_decrypt_length hgk hc⟩
      · obtain ⟨P, -, -, hg, hn⟩ := C68_decrypt (c := c) hgk (by omega) (by omega)
        by_cases hp : ∃ n, Padded n P
        · exact ⟨_, hg _ hp.choose_spec⟩
        · exact ⟨_, hn fun n h => hp ⟨n, h⟩⟩
    obtain ⟨o, ho⟩ := ho
    rw [decrypt_main hs h1 h2 hu hQ hv (by omega) hx ho, decrypt_main hs h1 h2' hu hQ hv (by omega) hx ho, if_pos (Or.inl ht), if_pos (Or.inl ht')]

/-! ## Round trip -/

theorem length_tagOf {sha : Nat} (hs : IsSha sha) {k c p2 : List UInt8} (h : c.length + p2.length + 153 ≤ 2 ^ 29) (hk : k.length + 17 ≤ 2 ^ 29)
    (t : List UInt8) : (tagOf sha k c p2 t).length = t.length := by
  have hlm : (mac sha k c p2).length = sha :=
    Amcl.ecdh.length_hmac hs (by simp only [List.length_append, length_toBE]; omega) hk
  unfold tagOf
  split
  · rfl
  · rw [List.length_append, List.length_replicate, List.length_take]; omega

/-- **C76**: what was encrypted for the public key of `d` is accepted with the secret `d`, in every case; the result is the message
with a wrong end. Tags of more than 32 bytes make decryption panic. -/
theorem C76_roundtrip (sha : Nat) (hs : IsSha sha) (p1 p2 w m v t e s : List UInt8) (i : Nat) (g g' : RAND) (v' t' c : List UInt8)
    (hg : RAND.Gen (sha256 e) i g) (h1 : p1.length + 118 ≤ 2 ^ 29) (h2 : m.length + p2.length + 169 ≤ 2 ^ 29) (hsl : 32 ≤ s.length)
    (hw : Begins w (beNat (s.take 32) • gen)) (h : ecies_encrypt sha p1 p2 g w m v t = some (g', v', t', some c)) :
    ecies_decrypt sha p1 p2 v' c t' s = if t.length ≤ 32 then some (some (mangled m)) else none := by
  have hv : 65 ≤ v.length := by
    by_contra hn
    have := (C72_short (List.replicate EGS 0) v (Or.inr (by omega))).2 e i g hg
    unfold ecies_encrypt at h
    rw [this] at h
    cases h
  have hu : numberAt e i 512 % n ≠ 0 := by
    intro h0
    obtain ⟨g'', v'', e'⟩ := C76_encrypt_none sha p1 p2 w m v t e i g hg hv (Or.inr ⟨⟨_, hw⟩, h0⟩)
    rw [e'] at h
    simp at h
  have hlt := Nat.mod_lt (numberAt e i 512) n_pos
  obtain ⟨g'', l, x, c', -, hl, hx, e', hc1, -, e4⟩ := C76_encrypt sha hs p1 p2 w m v t e i g hg _ hw hv h1 h2 hu
  rw [h] at e'
  generalize numberAt e i 512 % n = U at *
  simp only [Option.some.injEq, Prod.mk.injEq] at e'
  obtain ⟨-, rfl, rfl, rfl⟩ := e'
  have hll := hl.length hlt
  obtain ⟨k1, k2⟩ := length_encKey hs (p1 := p1) (v := l) (x := x) (by omega)
  have hcl : c.length ≤ m.length + 16 := by rw [hc1, Amcl.ecdh.length_pad]; omega
  have hlt' := length_tagOf hs (k := macKey sha p1 l x) (c := c) (p2 := p2) (by omega) (by omega) t
  split
  · rename_i ht
    have hQ := key_begins hl (by rw [Nat.mod_eq_of_lt hlt]; exact hu) (v.drop 65)
    have htk : (l ++ v.drop 65).take 65 = l := List.take_left' hll
    have hgk : GoodKey (encKey sha p1 l x) := Or.inl (by rw [k1])
    obtain ⟨c', e5, e6⟩ := C68_roundtrip hgk m
    obtain rfl : c = c' := by rw [e4] at e5; exact Option.some.inj e5
    rw [← mul_nsmul'] at hx
    have hx' : HasX (beNat (s.take 32) • U • gen) x := by rw [← mul_nsmul', mul_comm]; exact hx
    rw [← htk] at e6
    rw [decrypt_main hs h1 (by omega) hsl hQ (by simp; omega) (by omega) hx' e6, if_pos, mangled]
    rw [hlt', htk]
    have hsp := hs.pos
    by_cases h4 : t.length < 4
    · exact Or.inl h4
    · right
      rw [tagOf, if_neg h4, show t.length - sha = 0 by omega, List.replicate_zero, List.nil_append]
  · rename_i ht
    exact (C76_decrypt_bad sha p1 p2 _ c _ s).1 (by omega)

/-- **C76**: so a message comes back if its length is a multiple of 16, and otherwise only if its last bytes happen to be the
padding. -/
theorem C76_message_returns (m : List UInt8) : (mangled m = m ↔
    m.drop (16 * (m.length / 16)) = List.replicate (m.length % 16) (UInt8.ofNat (16 - m.length % 16))) ∧ (m.length % 16 = 0 → mangled m = m) := by
  have h : mangled m = m ↔ m.drop (16 * (m.length / 16)) = List.replicate (m.length % 16) (UInt8.ofNat (16 - m.length % 16)) := by
    unfold mangled
    constructor
    · intro h
      have := congrArg (List.drop (16 * (m.length / 16))) h
      rw [List.drop_left' (by rw [List.length_take]; omega)] at this
      exact this.symm
    · intro h
      rw [← h, List.take_append_drop]
  refine ⟨h, fun h0 => h.2 ?_⟩
  rw [h0, List.drop_of_length_le (by omega), List.replicate_zero]

/-- The message "a" comes back as the byte 15. -/
example : mangled [97] = [15] ∧ mangled (List.replicate 32 7) = List.replicate 32 7 := by decide

/-- Decryption with the secret 1 of a ciphertext with `v` the generator: the hypotheses of `C76_decrypt` and `C76_short_tag` hold; a
string of 5 bytes is refused, and with a tag of 3 bytes the tag does not matter. -/
example (c : List UInt8) (hc : c.length = 16) :
    ecies_decrypt 32 [1] [2] (octets gx gy) (List.replicate 5 0) [1, 2, 3, 4] (toBE 32 1) = some none ∧
    ecies_decrypt 32 [1] [2] (octets gx gy) c [1, 2, 3] (toBE 32 1) = ecies_decrypt 32 [1] [9, 9] (octets gx gy) c [] (toBE 32 1) := by
  have hb := begins_octets g_on []
  rw [List.append_nil] at hb
  have hx : HasX (beNat ((toBE 32 1).take 32) • gen) (gx : Fp) := by
    rw [num_be (by norm_num), one_nsmul]; exact gen_hasX
  have hl : 65 ≤ (octets (gx : Fp) (gy : Fp)).length := by simp [octets, length_toBE]
  refine ⟨(C76_decrypt 32 (Or.inl rfl) [1] [2] _ _ [1, 2, 3, 4] _ (by simp) (by simp) (by rw [length_toBE]) gen hb hl (by simp) gx hx).1
    (Or.inr (by simp)), ?_⟩
  exact C76_short_tag 32 (Or.inl rfl) [1] [2] [9, 9] _ c [1, 2, 3] [] _ (by simp) (by simp [hc]) (by simp [hc]) (by rw [length_toBE]) gen hb hl
    (by simp) (by simp)

/-- Encryption of the message "a" for the public key 1 after seeding with one byte, and decryption with the secret 1: if the one-time
key is not 0, the message becomes the byte 15. -/
example : ∃ g, RAND.new.seed [1] = some g ∧ (numberAt [1] 0 512 % n ≠ 0 → ∃ g' v t c,
    ecies_encrypt 32 [] [] g (octets gx gy) [97] (List.replicate 65 0) (List.replicate 32 0) = some (g', v, t, some c) ∧
    ecies_decrypt 32 [] [] v c t (toBE 32 1) = some (some [15])) := by
  obtain ⟨g, e, hg⟩ := seeded RAND.new [1] (by simp) (by simp)
  refine ⟨g, e, fun h0 => ?_⟩
  have hb := begins_octets g_on []
  rw [List.append_nil] at hb
  obtain ⟨g', l, x, c, -, -, -, e1, -⟩ := C76_encrypt 32 (Or.inl rfl) [] [] (octets gx gy) [97] (List.replicate 65 0) (List.replicate 32 0) [1] 0 g hg
    gen hb (by simp) (by simp) (by simp) h0
  refine ⟨g', _, _, c, e1, ?_⟩
  rw [C76_roundtrip 32 (Or.inl rfl) [] [] (octets gx gy) [97] (List.replicate 65 0) (List.replicate 32 0) [1] (toBE 32 1) 0 g g' _ _ c hg
    (by simp) (by simp) (by rw [length_toBE]) (by rw [num_be (by norm_num), one_nsmul]; exact hb) e1, if_pos (by simp)]
  rfl

end Props.Secp
