import Verif.Proof.Nhs
/-!
# Properties C64, C65 and C66: the key exchange of `nhs.rs`

`Spec.NewHope` has the ring `Z_q[X] / (X^1024 + 1)`, its roots, the encodings and the noise. `cf x l` is the
coefficient number `l` of an array, `draw e p n` the `n` bytes that the generator seeded with `e` gives after `p`.
-/

namespace Props

open Amcl Amcl.NHS
open Spec (sha256)
open Spec.NewHope (Zq eval point noise pubKey residue pack14 unpack14 pack3 unpack3 keyBit decodeBit)

/-! ## C64: the transforms -/

/-- **C64**: the points of the transform are 1024 different roots of `X^1024 + 1`. -/
theorem C64_points : (∀ f, point f ^ 1024 = -1) ∧ ∀ f g, f < 1024 → g < 1024 → point f = point g → f = g :=
  ⟨point_top, fun _ _ => point_inj⟩

/-- **C64**, `ntt`. No operation overflows and the result is `2^32` times the value at each point. -/
theorem C64_ntt (x : Poly) (hx : ∀ l, l < 1024 → 0 ≤ cf x l ∧ cf x l ≤ 758000) :
    ∃ y, ntt x = some y ∧ ∀ f, f < 1024 → (0 ≤ cf y f ∧ cf y f ≤ 258069) ∧
      (cf y f : Zq) = 2 ^ 32 * eval (fun l => cf x l) (point f) := ntt_wp x hx

/-- **C64**, `intt`. No operation overflows, and the result is the polynomial below `q` with the given values, divided
by `2^32`. -/
theorem C64_intt (x : Poly) (hx : ∀ l, l < 1024 → 0 ≤ cf x l ∧ cf x l ≤ 24578) :
    ∃ y, intt x = some y ∧ (∀ l, l < 1024 → 0 ≤ cf y l ∧ cf y l < 12289) ∧
      ∀ f, f < 1024 → 2 ^ 32 * eval (fun l => cf y l) (point f) = cf x f := intt_wp x hx

/-- **C64**: a polynomial is determined by its values, and all values occur. -/
theorem C64_values (v : ℕ → Zq) : ∃ a : ℕ → Zq, (∀ f, f < 1024 → eval a (point f) = v f) ∧
    ∀ b : ℕ → Zq, (∀ f, f < 1024 → eval b (point f) = v f) → ∀ l, l < 1024 → b l = a l := by
  obtain ⟨a, ha⟩ := interpolate v
  exact ⟨a, ha, fun b hb => eval_inj fun f hf => by rw [ha f hf, hb f hf]⟩

/-- **C64**: `intt` undoes `ntt`, up to the multiples of `q`. -/
theorem C64_inverse (x : Poly) (hx : ∀ l, l < 1024 → 0 ≤ cf x l ∧ cf x l ≤ 758000) :
    ∃ y, (do let y ← ntt x; let y ← poly_hard_reduce y; intt y) = some y ∧ ∀ l, l < 1024 → cf y l = cf x l % 12289 := by
  refine Wp.bind (ntt_wp x hx) fun y1 h1 => ?_
  refine .bind (poly_hard_reduce_wp y1 fun l hl => ⟨(h1 l hl).1.1, (h1 l hl).1.2.trans (by norm_num)⟩) fun y2 h2 => ?_
  refine (intt_wp y2 fun l hl => ⟨(h2 l hl).1.1, (h2 l hl).1.2.le.trans (by norm_num)⟩).mono fun y ⟨h3, h4⟩ l hl => ?_
  have e := eval_inj (a := fun l => (cf y l : Zq)) (b := fun l => (cf x l : Zq)) (fun f hf => cancel32 (by
    rw [mul_comm, h4 f hf, (h2 f hf).2, (h1 f hf).2, mul_comm])) l hl
  have := (ZMod.intCast_eq_intCast_iff' _ _ 12289).1 e
  rw [← Int.emod_eq_of_lt (h3 l hl).1 (h3 l hl).2]
  exact_mod_cast this

/-- **C64**: transforms and a product of the coefficients multiply modulo `X^1024 + 1`. -/
theorem C64_product (x y : Poly) (hx : ∀ l, l < 1024 → 0 ≤ cf x l ∧ cf x l ≤ 758000) (hy : ∀ l, l < 1024 → 0 ≤ cf y l ∧ cf y l ≤ 758000) :
    ∃ z, (do let x ← ntt x; let y ← ntt y; let z ← poly_mul x y; intt z) = some z ∧
      ∀ l, l < 1024 → (0 ≤ cf z l ∧ cf z l < 12289) ∧ (cf z l : Zq) = Spec.NewHope.mul (fun i => (cf x i : Zq)) (fun i => (cf y i : Zq)) l := by
  refine Wp.bind (ntt_wp x hx) fun x1 h1 => ?_
  refine .bind (ntt_wp y hy) fun y1 h2 => ?_
  refine .bind (poly_mul_any x1 y1 (fun l hl => (h1 l hl).1) (fun l hl => (h2 l hl).1)) fun z1 h3 => ?_
  refine (intt_wp z1 fun l hl => (h3 l hl).1).mono fun z ⟨h4, h5⟩ l hl => ⟨h4 l hl, ?_⟩
  refine eval_inj (a := fun l => (cf z l : Zq)) (fun f hf => ?_) l hl
  rw [eval_mul _ _ (point_top f)]
  refine cancel32 (cancel32 ?_)
  rw [mul_comm (eval _ _), h5 f hf, (h3 f hf).2, (h1 f hf).2, (h2 f hf).2]
  ring

/-- The product of `X^1023 + 758000` and `X` is `758000 X - 1`, with coefficients below `q`. -/
example : ∃ z, (do
      let x ← ntt (Vector.ofFn fun i => if i.val = 1023 then 1 else if i.val = 0 then 758000 else 0)
      let y ← ntt (Vector.ofFn fun i => if i.val = 1 then 1 else 0)
      let z ← poly_mul x y
      intt z) = some z ∧ cf z 0 = 12288 ∧ cf z 1 = 8371 := by
  have hf : ∀ (f : Fin 1024 → Int) (l : ℕ) (h : l < 1024), cf (Vector.ofFn f) l = f ⟨l, h⟩ := fun f l h => by simp [cf, h]
  obtain ⟨z, e, h⟩ := C64_product (Vector.ofFn fun i => if i.val = 1023 then 1 else if i.val = 0 then 758000 else 0)
    (Vector.ofFn fun i => if i.val = 1 then 1 else 0) (fun l hl => by rw [hf _ l hl]; dsimp only; split_ifs <;> norm_num)
    (fun l hl => by rw [hf _ l hl]; dsimp only; split_ifs <;> norm_num)
  refine ⟨z, e, ?_, ?_⟩
  · obtain ⟨⟨h0, h1⟩, h2⟩ := h 0 (by norm_num)
    rw [Spec.NewHope.mul, Finset.sum_eq_single 1023 (fun j hj hn => ?_) (by simp)] at h2
    · rw [if_neg (by norm_num), hf _ _ (by norm_num), hf _ _ (by norm_num)] at h2
      have := (ZMod.intCast_eq_intCast_iff' (cf z 0) (-1) 12289).1 (by rw [h2]; norm_num)
      norm_num at this
      omega
    · have hj := Finset.mem_range.1 hj
      split_ifs with c
      · rw [hf _ (0 - j) (by omega)]; simp
      · rw [hf _ j hj, if_neg hn, if_neg (show ¬ j = 0 by omega)]; simp
  · obtain ⟨⟨h0, h1⟩, h2⟩ := h 1 (by norm_num)
    rw [Spec.NewHope.mul, Finset.sum_eq_single 0 (fun j hj hn => ?_) (by simp)] at h2
    · rw [if_pos (by norm_num), hf _ _ (by norm_num), hf _ _ (by norm_num)] at h2
      have := (ZMod.intCast_eq_intCast_iff' (cf z 1) 758000 12289).1 (by rw [h2]; norm_num)
      norm_num at this
      omega
    · have hj := Finset.mem_range.1 hj
      split_ifs with c
      · rw [hf _ (1 - j) (by omega), if_neg (show ¬ 1 - j = 1 by omega)]; simp
      · rw [hf _ j hj, hf _ (1024 + 1 - j) (by omega)]
        dsimp only
        split_ifs <;> first | omega | simp

/-! ## C65: the encodings -/

/-- **C65**, `nhs_pack`: the little-endian bytes of the number with the digits `p` in base `2^14`. -/
theorem C65_pack (p : Poly) (hp : ∀ l, l < 1024 → 0 ≤ cf p l ∧ cf p l < 2 ^ 14) (l : List UInt8) (hl : l.length = 1792) :
    nhs_pack p l = some (pack14 fun i => (cf p i).toNat) := pack_list p hp l hl

/-- **C65**, `nhs_unpack`: the digits in base `2^14` of any 1792 bytes. -/
theorem C65_unpack (l : List UInt8) (hl : 1792 ≤ l.length) (p : Poly) :
    ∃ p', nhs_unpack l p = some p' ∧ ∀ i, i < 1024 → cf p' i = unpack14 l i :=
  (unpack_list l hl p).mono fun _ h i hi => (h i hi).1

/-- **C65**: `nhs_unpack` after `nhs_pack`, whatever follows the bytes. -/
theorem C65_unpack_pack (p : Poly) (hp : ∀ l, l < 1024 → 0 ≤ cf p l ∧ cf p l < 2 ^ 14) (l : List UInt8) (hl : l.length = 1792) (m : List UInt8) (q : Poly) :
    ∃ a p', nhs_pack p l = some a ∧ nhs_unpack (a ++ m) q = some p' ∧ ∀ i, i < 1024 → cf p' i = cf p i := by
  obtain ⟨p', e, h⟩ := unpack_list (pack14 (fun i => (cf p i).toNat) ++ m) (by rw [List.length_append, pack14_length]; omega) q
  refine ⟨_, p', pack_list p hp l hl, e, fun i hi => ?_⟩
  rw [(h i hi).1, unpack_pack (fun i hi => by have := hp i hi; show (cf p i).toNat < 2 ^ 14; omega) m hi, Int.toNat_of_nonneg (hp i hi).1]

/-- **C65**, `compress`: `8 x / q`, rounded, in three bits; it depends only on `x` modulo `q`. -/
theorem C65_compress (p : Poly) (hp : ∀ l, l < 1024 → 0 ≤ cf p l ∧ cf p l < 2 ^ 26) (l : List UInt8) (hl : l.length = 384) :
    compress p l = some (pack3 fun i => Spec.NewHope.compress (cf p i : Zq)) := compress_list p hp l hl

/-- **C65**, `decompress`: `q b / 8`, rounded, for the three-bit digits of any 384 bytes. -/
theorem C65_decompress (l : List UInt8) (hl : 384 ≤ l.length) (p : Poly) :
    ∃ p', decompress l p = some p' ∧ ∀ i, i < 1024 → cf p' i = Spec.NewHope.decompress (unpack3 l i) := decompress_list l hl p

/-- **C65**: `decompress` after `compress` returns every coefficient within 768, modulo `q`. -/
theorem C65_close (p : Poly) (hp : ∀ l, l < 1024 → 0 ≤ cf p l ∧ cf p l < 2 ^ 26) (l : List UInt8) (hl : l.length = 384) (q : Poly) :
    ∃ a p', compress p l = some a ∧ decompress a q = some p' ∧
      ∀ i, i < 1024 → ∃ ε : ℤ, |ε| ≤ 768 ∧ (12289 : ℤ) ∣ cf p i - cf p' i - ε := by
  obtain ⟨p', e, h⟩ := decompress_list (pack3 (fun i => Spec.NewHope.compress (cf p i : Zq))) (by rw [pack3_length]) q
  refine ⟨_, p', compress_list p hp l hl, e, fun i hi => ?_⟩
  obtain ⟨ε, h1, h2⟩ := compress_close (cf p i : Zq)
  refine ⟨ε, h1, ?_⟩
  have h3 := unpack3_pack3 (b := fun i => Spec.NewHope.compress (cf p i : Zq)) (fun i => compress_lt _) [] hi
  rw [List.append_nil] at h3
  rw [← Nat.cast_ofNat, ← ZMod.intCast_zmod_eq_zero_iff_dvd]
  push_cast
  rw [h i hi, h3, Int.cast_natCast, h2]
  ring

/-- The bound 768 is reached. -/
example : Spec.NewHope.decompress (Spec.NewHope.compress 768) = 0 ∧ Spec.NewHope.compress 769 = 1 ∧ Spec.NewHope.decompress 1 = 1536 := by decide

/-- **C65**, `encode`. -/
theorem C65_encode (key : List UInt8) (hk : 32 ≤ key.length) (p : Poly) :
    ∃ k, encode key p = some k ∧ ∀ l, l < 1024 → cf k l = Spec.NewHope.encode key l :=
  (encode_list key hk p).mono fun _ h l hl => (h l hl).1

/-- **C65**, `decode`, for coefficients below `q`: a vote of the four places of each bit. -/
theorem C65_decode (x : Poly) (hx : ∀ l, l < 1024 → 0 ≤ cf x l ∧ cf x l < 12289) (key : List UInt8) (hk : key.length = 32) :
    ∃ k, decode x key = some k ∧ k.length = 32 ∧ ∀ i, i < 256 → keyBit k i = decodeBit (fun l => (cf x l : Zq)) i := decode_list x hx key hk

/-- **C65**: the vote finds the bit as long as the errors at its four places sum up to at most 12287. -/
theorem C65_errors (key : List UInt8) (d : ℕ → ℤ) (i : ℕ) (hi : i < 256) (hd : ∑ h ∈ Finset.range 4, |d (i + 256 * h)| ≤ 12287) :
    decodeBit (fun l => ((Spec.NewHope.encode key l + d l : ℤ) : Zq)) i = keyBit key i :=
  decode_bit (keyBit_le key i) (fun h hh => by rw [Spec.NewHope.encode, show (i + 256 * h) % 256 = i by omega]) hd

/-- The bound is sharp: with errors of 3072 at all four places a zero becomes a one. -/
example : decodeBit (fun l => ((Spec.NewHope.encode [0] l + 3072 : ℤ) : Zq)) 5 = 1 ∧ keyBit [0] 5 = 0 ∧
    decodeBit (fun l => ((Spec.NewHope.encode [0xa0] l - 3000 : ℤ) : Zq)) 5 = 1 := by decide

/-- **C65**: a key is determined by its bits, so `decode` is determined by the votes. -/
theorem C65_bits {k m : List UInt8} (hk : k.length = 32) (hm : m.length = 32) (h : ∀ i, i < 256 → keyBit k i = keyBit m i) : k = m :=
  kbit_inj hk hm fun i hi => by rw [kbit_eq, kbit_eq, h i hi]

/-! ## C66: the exchange -/

/-- **C66**, `server_1`. `s` and `e` are the noise polynomials of the bytes after the seed. The first message is the
seed and the values of `a s + e`; the secret is `2^32` times the values of `s`. -/
theorem C66_server_1 {e : List UInt8} {p : ℕ} {g : RAND} (hg : RAND.Gen (sha256 e) p g) {sb ss : List UInt8} (hb : 1824 ≤ sb.length)
    (hs : 1792 ≤ ss.length) : ∃ g', server_1 g sb ss = some (g',
      draw e p 32 ++ pack14 (fun i => (pubKey (draw e p 32) (noise (Spec.Rng.byte e) (p + 4128)) (noise (Spec.Rng.byte e) (p + 32)) i).val) ++ sb.drop 1824,
      pack14 (fun i => (2 ^ 32 * eval (fun l => noise (Spec.Rng.byte e) (p + 4128) l) (point i)).val) ++ ss.drop 1792) ∧
      RAND.Gen (sha256 e) (p + 8224) g' := by
  obtain ⟨⟨g', b, s⟩, h1, h2, h3, h4⟩ := server_1_wp hg hb hs
  dsimp only at h2 h3 h4
  rw [h3, h4] at h1
  exact ⟨g', h1, h2⟩

/-- **C66**, `client`, for every message of at least 1824 bytes. `b` is the polynomial with the values in the message.
The answer is the values of `a s' + e'` and the compressed `b s' + e'' + encode v`, where `v` is the hash of 32 random
bytes; the key is the hash of `v`. -/
theorem C66_client {e : List UInt8} {p : ℕ} {g : RAND} (hg : RAND.Gen (sha256 e) p g) {sb uc okey : List UInt8} (hb : 1824 ≤ sb.length)
    (hu : 2176 ≤ uc.length) (hk : 32 ≤ okey.length) {b : ℕ → Zq} (hv : ∀ f, f < 1024 → eval b (point f) = unpack14 (sb.drop 32) f) :
    ∃ g', client g sb uc okey = some (g',
      pack14 (fun i => (pubKey (sb.take 32) (noise (Spec.Rng.byte e) p) (noise (Spec.Rng.byte e) (p + 4096)) i).val) ++
        pack3 (fun i => Spec.NewHope.compress (Spec.NewHope.mul b (fun l => noise (Spec.Rng.byte e) p l) i + noise (Spec.Rng.byte e) (p + 8224) i +
          Spec.NewHope.encode (Spec.NewHope.hash (draw e (p + 8192) 32)) i)) ++ uc.drop 2176,
      Spec.NewHope.hash (Spec.NewHope.hash (draw e (p + 8192) 32)) ++ okey.drop 32) ∧ RAND.Gen (sha256 e) (p + 12320) g' := by
  obtain ⟨⟨g', b, s⟩, h1, h2, h3, h4⟩ := client_wp hg hb hu hk hv
  dsimp only at h2 h3 h4
  rw [h3, h4] at h1
  exact ⟨g', h1, h2⟩

/-- **C66**, `server_2`, for every answer of at least 2176 bytes and every secret of at least 1792 bytes. `u` is the
polynomial with the values in the answer and `s` the one of the secret. The key is the hash of the decoded
`decompress c - u s`. -/
theorem C66_server_2 {ss uc okey : List UInt8} (hs : 1792 ≤ ss.length) (hu : 2176 ≤ uc.length) (hk : 32 ≤ okey.length) {s u : ℕ → Zq}
    (hv : ∀ f, f < 1024 → 2 ^ 32 * eval s (point f) = unpack14 ss f) (hw : ∀ f, f < 1024 → eval u (point f) = unpack14 uc f) :
    ∃ k : List UInt8, k.length = 32 ∧
      (∀ i, i < 256 → keyBit k i = decodeBit (fun l => (Spec.NewHope.decompress (unpack3 (uc.drop 1792) l) : Zq) - Spec.NewHope.mul u s l) i) ∧
      server_2 ss uc okey = some (Spec.NewHope.hash k ++ okey.drop 32) := by
  obtain ⟨r, e, k, h1, h2, h3⟩ := server_2_wp hs hu hk hv hw
  rw [h3] at e
  exact ⟨k, h1, h2, e⟩

/-- **C66**: no bytes make the three functions panic; buffers that are too short always do. -/
theorem C66_panics {e : List UInt8} {p : ℕ} {g : RAND} (hg : RAND.Gen (sha256 e) p g) (sb ss uc okey : List UInt8) :
    (server_1 g sb ss = none ↔ sb.length < 1824 ∨ ss.length < 1792) ∧
    (client g sb uc okey = none ↔ sb.length < 1824 ∨ uc.length < 2176 ∨ okey.length < 32) ∧
    (server_2 ss uc okey = none ↔ ss.length < 1792 ∨ uc.length < 2176 ∨ okey.length < 32) := by
  refine ⟨⟨fun h => ?_, server_1_none g⟩, ⟨fun h => ?_, client_none g⟩, ⟨fun h => ?_, server_2_none⟩⟩
  · by_contra c
    obtain ⟨r, e, -⟩ := server_1_wp hg (sb := sb) (ss := ss) (by omega) (by omega)
    rw [h] at e; cases e
  · by_contra c
    obtain ⟨b, hb⟩ := interpolate fun f => (unpack14 (sb.drop 32) f : Zq)
    obtain ⟨r, e, -⟩ := client_wp hg (sb := sb) (uc := uc) (okey := okey) (by omega) (by omega) (by omega) hb
    rw [h] at e; cases e
  · by_contra c
    obtain ⟨s, hs⟩ := interpolate fun f => 11857 * (unpack14 ss f : Zq)
    obtain ⟨u, hu⟩ := interpolate fun f => (unpack14 uc f : Zq)
    obtain ⟨r, e, -⟩ := server_2_wp (ss := ss) (uc := uc) (okey := okey) (by omega) (by omega) (by omega) (s := s) (fun f hf => by
      rw [hs f hf, ← mul_assoc, unit32, one_mul]) hu
    rw [h] at e; cases e

/-- **C66**, the exchange: with two generators and buffers that are long enough all three functions return, the key
of the client is the double hash of 32 random bytes, and the server has the same key if the noise
`e s' - e' s + e''`, computed over the integers, sums up to at most 9215 over the four places of every bit. -/
theorem C66_agreement {e e' : List UInt8} {p p' : ℕ} {g g' : RAND} (hg : RAND.Gen (sha256 e) p g) (hg' : RAND.Gen (sha256 e') p' g')
    {sb ss uc okey okey' : List UInt8} (hb : 1824 ≤ sb.length) (hs : 1792 ≤ ss.length) (hu : 2176 ≤ uc.length) (hk : 32 ≤ okey.length)
    (hk' : 32 ≤ okey'.length) :
    ∃ g1 sb1 ss1 g2 uc1 k1 k2, server_1 g sb ss = some (g1, sb1, ss1) ∧ client g' sb1 uc okey = some (g2, uc1, k1) ∧
      server_2 ss1 uc1 okey' = some k2 ∧ k1.take 32 = Spec.NewHope.hash (Spec.NewHope.hash (draw e' (p' + 8192) 32)) ∧
      ((∀ i, i < 256 → ∑ h ∈ Finset.range 4, |residue (noise (Spec.Rng.byte e) (p + 4128)) (noise (Spec.Rng.byte e) (p + 32))
        (noise (Spec.Rng.byte e') p') (noise (Spec.Rng.byte e') (p' + 4096)) (noise (Spec.Rng.byte e') (p' + 8224)) (i + 256 * h)| ≤ 9215) →
        k2.take 32 = k1.take 32) := agreement hg hg' hb hs hu hk hk'

/-- The noise is small enough when the absolute values in `e` and in `e'` sum up to at most 71. (Noise from the
generator is denser, and its products cancel: for the seeds `[1]` and `[2]` the largest of the 256 sums is 2943.) -/
theorem C66_quiet (B B' : ℕ → UInt8) (p p' : ℕ) (h : ∑ j ∈ Finset.range 1024, |noise B (p + 32) j| ≤ 71)
    (h' : ∑ j ∈ Finset.range 1024, |noise B' (p' + 4096) j| ≤ 71) (i : ℕ) :
    ∑ h ∈ Finset.range 4, |residue (noise B (p + 4128)) (noise B (p + 32)) (noise B' p') (noise B' (p' + 4096)) (noise B' (p' + 8224))
      (i + 256 * h)| ≤ 9215 := by
  have hm : ∀ (a b : ℕ → ℤ) (l : ℕ), ∑ j ∈ Finset.range 1024, |a j| ≤ 71 → (∀ j, |b j| ≤ 16) → |Spec.NewHope.mul a b l| ≤ 1136 := by
    intro a b l ha hb
    refine (Finset.abs_sum_le_sum_abs _ _).trans ?_
    have : ∑ j ∈ Finset.range 1024, |if j ≤ l then a j * b (l - j) else -(a j * b (1024 + l - j))| ≤ ∑ j ∈ Finset.range 1024, |a j| * 16 := by
      refine Finset.sum_le_sum fun j _ => ?_
      split_ifs
      · rw [abs_mul]; exact mul_le_mul_of_nonneg_left (hb _) (abs_nonneg _)
      · rw [abs_neg, abs_mul]; exact mul_le_mul_of_nonneg_left (hb _) (abs_nonneg _)
    rw [← Finset.sum_mul] at this
    omega
  have hr : ∀ l, |residue (noise B (p + 4128)) (noise B (p + 32)) (noise B' p') (noise B' (p' + 4096)) (noise B' (p' + 8224)) l| ≤ 2288 := fun l => by
    have h1 := abs_le.1 (hm _ (noise B' p') l h fun j => noise_le _ _ _)
    have h2 := abs_le.1 (hm _ (noise B (p + 4128)) l h' fun j => noise_le _ _ _)
    have h3 := abs_le.1 (noise_le B' (p' + 8224) l)
    rw [residue, abs_le]
    omega
  refine (Finset.sum_le_sum fun k _ => hr (i + 256 * k)).trans (by simp)

/-- Such noise, not all zero. -/
example : ∑ j ∈ Finset.range 1024, |noise (fun j => if j % 1000 = 36 then 255 else 0) (0 + 32) j| = 40 := by
  decide +kernel

/-- Seeded generators, as in the theorems. -/
example : ∃ g g', RAND.seed RAND.new [1] = some g ∧ RAND.seed RAND.new [2] = some g' ∧ ∃ g1 sb1 ss1 g2 uc1 k1 k2,
    server_1 g (List.replicate 1824 0) (List.replicate 1792 0) = some (g1, sb1, ss1) ∧
    client g' sb1 (List.replicate 2176 0) (List.replicate 32 0) = some (g2, uc1, k1) ∧
    server_2 ss1 uc1 (List.replicate 32 0) = some k2 ∧ k1.take 32 = Spec.NewHope.hash (Spec.NewHope.hash (draw [2] (0 + 8192) 32)) := by
  obtain ⟨g, e, hg⟩ := RAND.seed_wp RAND.new [1] (by simp) (by norm_num)
  obtain ⟨g', e', hg'⟩ := RAND.seed_wp RAND.new [2] (by simp) (by norm_num)
  obtain ⟨g1, sb1, ss1, g2, uc1, k1, k2, h1, h2, h3, h4, -⟩ := C66_agreement hg hg' (sb := List.replicate 1824 0) (ss := List.replicate 1792 0)
    (uc := List.replicate 2176 0) (okey := List.replicate 32 0) (okey' := List.replicate 32 0) (by rw [List.length_replicate])
    (by rw [List.length_replicate]) (by rw [List.length_replicate]) (by rw [List.length_replicate]) (by rw [List.length_replicate])
  exact ⟨g, g', e, e', g1, sb1, ss1, g2, uc1, k1, k2, h1, h2, h3, h4⟩

end Props
