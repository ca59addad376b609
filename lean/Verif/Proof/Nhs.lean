import Verif.Proof.NhsParts
/-!
# The three messages of `nhs.rs`
-/

namespace Amcl

namespace NHS

open HASH256 (setAt)
open SHA3 (setB In)
open Spec (sha256)
open Spec.NewHope (Zq uniform noise eval point pack14 unpack14 pack3 unpack3 keyBit decodeBit pubKey residue)

theorem chain2 {α β γ : Type} {m : Option α} {f : α → Option β} {k : β → Option γ} {R : β → Prop} {Q : γ → Prop}
    (h : Wp (m >>= f) R) (hk : ∀ b, R b → Wp (k b) Q) : Wp (m >>= fun a => f a >>= k) Q := by
  rw [← bind_assoc]; exact .bind h hk

theorem chain3 {α β γ δ : Type} {m : Option α} {f : α → Option β} {g : β → Option γ} {k : γ → Option δ} {R : γ → Prop} {Q : δ → Prop}
    (h : Wp (m >>= fun a => f a >>= g) R) (hk : ∀ b, R b → Wp (k b) Q) : Wp (m >>= fun a => f a >>= fun b => g b >>= k) Q := by
  simp only [← bind_assoc] at h ⊢; exact .bind h hk

/-- Every table of values is the values of a polynomial. -/
theorem interpolate (v : Nat → Zq) : ∃ a : Nat → Zq, ∀ f, f < 1024 → eval a (point f) = v f := by
  let x : Poly := Vector.ofFn fun i => ((2 ^ 32 * v i).val : Int)
  have hx : ∀ l, l < 1024 → cf x l = ((2 ^ 32 * v l).val : Int) := fun l hl => by
    simp [cf, x, hl]
  obtain ⟨x', -, h1, h2⟩ := intt_wp x fun l hl => by
    rw [hx l hl]
    have := ZMod.val_lt (2 ^ 32 * v l)
    exact ⟨by omega, by omega⟩
  refine ⟨fun l => cf x' l, fun f hf => cancel32 ?_⟩
  rw [mul_comm, h2 f hf, hx f hf, Int.cast_natCast, ZMod.natCast_zmod_val, mul_comm]

theorem val_of {x : Int} {z : Zq} (h0 : 0 ≤ x) (h1 : x < 12289) (h : (x : Zq) = z) : x.toNat = z.val := by
  rw [← h]
  have := ZMod.val_intCast (n := 12289) x
  rw [Int.emod_eq_of_lt h0 (by exact_mod_cast h1)] at this
  omega

theorem pack14_congr {v w : Nat → Nat} (h : ∀ i, i < 1024 → v i = w i) : pack14 v = pack14 w := by
  rw [pack14, pack14, Finset.sum_congr rfl fun i hi => by rw [h i (Finset.mem_range.1 hi)]]

theorem pack14_length (v : Nat → Nat) : (pack14 v).length = 1792 := by rw [pack14, List.length_map, List.length_range]

theorem pack3_length (v : Nat → Nat) : (pack3 v).length = 384 := by rw [pack3, List.length_map, List.length_range]

theorem pack3_congr {v w : Nat → Nat} (h : ∀ i, i < 1024 → v i = w i) : pack3 v = pack3 w := by
  rw [pack3, pack3]
  refine List.map_congr_left fun j hj => ?_
  have hj := List.mem_range.1 hj
  rw [Finset.sum_congr rfl fun e he => by rw [h _ (by have := Finset.mem_range.1 he; omega)]]

theorem unpack14_take (l : List UInt8) (i : Nat) : unpack14 (l.take 1792) i = unpack14 l i := by
  rw [unpack14, unpack14, Finset.sum_congr rfl fun j hj => by rw [getD_bt, bt_take l (Finset.mem_range.1 hj), ← getD_bt]]

theorem unpack3_take (l : List UInt8) {i : Nat} (hi : i < 1024) : unpack3 (l.take 384) i = unpack3 l i := by
  rw [unpack3, unpack3, Finset.sum_congr rfl fun j hj => by
    rw [getD_bt, bt_take l (by have := Finset.mem_range.1 hj; omega), ← getD_bt]]

/-- The coefficients of `error`. -/
theorem noise_bd (B : Nat → UInt8) (p l : Nat) : Bd 12305 (12289 + noise B p l) := by
  have := abs_le.1 (noise_le B p l)
  exact ⟨by omega, by omega⟩

theorem noise_cast (B : Nat → UInt8) (p l : Nat) : ((12289 + noise B p l : Int) : Zq) = noise B p l := by
  push_cast
  rw [q_zero, zero_add]

/-- `ntt` after `error`. -/
theorem ntt_noise {B : Nat → UInt8} {p : Nat} (x : Poly) (hx : ∀ l, l < 1024 → cf x l = 12289 + noise B p l) :
    Wp (ntt x) fun x' => ∀ f, f < 1024 → Bd 258069 (cf x' f) ∧ (cf x' f : Zq) = 2 ^ 32 * eval (fun l => noise B p l) (point f) := by
  refine (ntt_wp x fun l hl => ?_).mono fun x' h f hf => ⟨(h f hf).1, ?_⟩
  · rw [hx l hl]
    have := noise_bd B p l
    exact ⟨this.1, this.2.trans (by norm_num)⟩
  · rw [(h f hf).2, eval_congr fun i hi => by rw [hx i hi, noise_cast]]

/-- `poly_mul`, `poly_add`, `poly_hard_reduce`: the public polynomial in Montgomery form. -/
theorem public_wp {seed : List UInt8} {B C : Nat → UInt8} {p r : Nat} (a s e : Poly)
    (ha : ∀ i, i < 1024 → Bd 15122 (cf a i) ∧ (cf a i : Zq) = uniform seed i * 2 ^ 32)
    (hs : ∀ f, f < 1024 → Bd 258069 (cf s f) ∧ (cf s f : Zq) = 2 ^ 32 * eval (fun l => noise B p l) (point f))
    (he : ∀ f, f < 1024 → Bd 258069 (cf e f) ∧ (cf e f : Zq) = 2 ^ 32 * eval (fun l => noise C r l) (point f)) :
    Wp (do let b ← poly_mul a s; let b ← poly_add b e; poly_hard_reduce b) fun b =>
      ∀ l, l < 1024 → (0 ≤ cf b l ∧ cf b l < 12289) ∧ (cf b l : Zq) = 2 ^ 32 * pubKey seed (noise B p) (noise C r) l := by
  refine .bind (poly_mul_wp a s (fun l hl => (ha l hl).1) (fun l hl => (hs l hl).1) (by norm_num) (by norm_num) (by norm_num)) fun b1 h1 => ?_
  refine .bind (poly_add_wp b1 e (fun l hl => (h1 l hl).1) (fun l hl => (he l hl).1) (by norm_num)) fun b2 h2 => ?_
  refine (poly_hard_reduce_wp b2 fun l hl => ?_).mono fun b3 h3 l hl => ⟨(h3 l hl).1, ?_⟩
  · rw [h2 l hl]
    obtain ⟨u0, u1⟩ := (h1 l hl).1
    obtain ⟨w0, w1⟩ := (he l hl).1
    exact ⟨by omega, by omega⟩
  · rw [(h3 l hl).2, h2 l hl]
    push_cast
    rw [(he l hl).2, pubKey]
    have : (cf b1 l : Zq) = 2 ^ 32 * (uniform seed l * eval (fun l => noise B p l) (point l)) := by
      refine cancel32 ?_
      rw [(h1 l hl).2, (ha l hl).2, (hs l hl).2]; ring
    rw [this]; ring

/-- The bytes of a polynomial after `redc_it`. -/
theorem pack_redc {v : Nat → Zq} (b : Poly) (h : ∀ l, l < 1024 → (0 ≤ cf b l ∧ cf b l < 12289) ∧ (cf b l : Zq) = 2 ^ 32 * v l) (l : List UInt8)
    (hl : l.length = 1792) : Wp (do let b ← redc_it b; nhs_pack b l) fun r => r = pack14 fun i => (v i).val := by
  refine .bind (redc_it_wp b fun l hl => (h l hl).1) fun b1 h1 => ?_
  refine .of_eq (pack_list b1 (fun i hi => ⟨(h1 i hi).1.1, lt_of_lt_of_le (h1 i hi).1.2 (by norm_num)⟩) l hl) (pack14_congr fun i hi => ?_)
  refine val_of (h1 i hi).1.1 (h1 i hi).1.2 (cancel32 ?_)
  rw [(h1 i hi).2, (h i hi).2, mul_comm]

/-- Two copies, one after the other. -/
theorem copy_two (m n : Nat) (x y dst : List UInt8) (hx : x.length = m) (hy : y.length = n) (hd : m + n ≤ dst.length) :
    (do let d ← copy 0 0 x m 0 dst; copy m 0 y n 0 d) = some (x ++ y ++ dst.drop (m + n)) := by
  rw [copy_list 0 m x dst hx (by omega)]
  simp only [Option.bind_eq_bind, Option.bind_some, List.take_zero, List.nil_append, Nat.zero_add]
  rw [copy_list m n y _ hy (by simp; omega)]
  subst hx hy
  rw [List.take_append_of_le_length le_rfl, List.take_length, List.drop_append, List.drop_eq_nil_of_le (by omega), List.nil_append, List.drop_drop, Nat.add_sub_cancel_left]

theorem copy_one (m : Nat) (x dst : List UInt8) (hx : x.length = m) (hd : m ≤ dst.length) :
    copy 0 0 x m 0 dst = some (x ++ dst.drop m) := by
  rw [copy_list 0 m x dst hx (by omega)]
  simp

/-! ## The first message -/

theorem server_1_wp {e : List UInt8} {p : Nat} {g : RAND} (hg : RAND.Gen (sha256 e) p g) {sb ss : List UInt8} (hb : 1824 ≤ sb.length)
    (hs : 1792 ≤ ss.length) : Wp (server_1 g sb ss) fun r => RAND.Gen (sha256 e) (p + 8224) r.1 ∧
      r.2.1 = draw e p 32 ++ pack14 (fun i => (pubKey (draw e p 32) (noise (Spec.Rng.byte e) (p + 4128)) (noise (Spec.Rng.byte e) (p + 32)) i).val) ++
        sb.drop 1824 ∧
      r.2.2 = pack14 (fun i => (2 ^ 32 * eval (fun l => noise (Spec.Rng.byte e) (p + 4128) l) (point i)).val) ++ ss.drop 1792 := by
  rw [server_1]
  refine .bind (fetch_list hg 32 _ List.length_replicate) fun ⟨g1, seed⟩ ⟨hg1, hseed⟩ => ?_
  dsimp only at hg1 hseed ⊢
  subst hseed
  refine .bind (parse_wp _ (draw_length _ _ _) zero) fun a ha => ?_
  refine .bind (error_wp hg1 zero) fun ⟨g2, er⟩ ⟨hg2, her⟩ => ?_
  dsimp only at hg2 her ⊢
  rw [show p + 32 + 4096 = p + 4128 by omega] at hg2
  refine .bind (error_wp hg2 zero) fun ⟨g3, s⟩ ⟨hg3, hs0⟩ => ?_
  dsimp only at hg3 hs0 ⊢
  rw [show p + 4128 + 4096 = p + 8224 by omega] at hg3
  refine .bind (ntt_noise s hs0) fun s1 hs1 => ?_
  refine .bind (ntt_noise er her) fun er1 her1 => ?_
  refine chain3 (public_wp a s1 er1 ha hs1 her1) fun b hb3 => ?_
  refine chain2 (pack_redc b hb3 _ List.length_replicate) fun ar har => ?_
  refine chain2 (.of_eq (copy_two 32 1792 (draw e p 32) ar sb (draw_length _ _ _) (by rw [har, pack14_length]) hb) rfl) fun sb1 hsb1 => ?_
  refine .bind (poly_hard_reduce_wp s1 fun l hl => ⟨(hs1 l hl).1.1, (hs1 l hl).1.2.trans (by norm_num)⟩) fun s2 hs2 => ?_
  refine .bind (.of_eq (pack_list s2 (fun i hi => ⟨(hs2 i hi).1.1, lt_of_lt_of_le (hs2 i hi).1.2 (by norm_num)⟩) ar (by rw [har, pack14_length])) rfl)
    fun ar2 har2 => ?_
  refine .bind (.of_eq (copy_one 1792 ar2 ss (by rw [← har2, pack14_length]) hs) rfl) fun ss1 hss1 => ?_
  refine .ret ⟨hg3, ?_, ?_⟩
  · rw [← hsb1, har]
  · rw [← hss1, ← har2, pack14_congr fun i hi => val_of (hs2 i hi).1.1 (hs2 i hi).1.2 ((hs2 i hi).2.trans (hs1 i hi).2)]

theorem bind_none {α β : Type} {m : Option α} {f : α → Option β} (h : ∀ a, m = some a → f a = none) : (m >>= f) = none := by
  cases m with
  | none => rfl
  | some a => exact h a rfl

theorem copy_fits {p q n : Nat} {src dst d : List UInt8} (h : copy p q src n 0 dst = some d) (hn : 0 < n) :
    n + p ≤ dst.length ∧ n + q ≤ src.length ∧ d.length = dst.length := by
  have h1 : ¬ (dst.length < 0 + n + p ∨ src.length < 0 + n + q) := fun c => by
    rw [copy_none p q src n 0 dst c hn] at h; cases h
  obtain ⟨d1, f1, l1, -⟩ := copy_wp p q src n 0 dst (by omega) (by omega)
  obtain rfl : d1 = d := Option.some.inj (f1.symm.trans h)
  exact ⟨by omega, by omega, l1⟩

theorem server_1_none (g : RAND) {sb ss : List UInt8} (h : sb.length < 1824 ∨ ss.length < 1792) : server_1 g sb ss = none := by
  rw [server_1]
  refine bind_none fun ⟨g1, seed⟩ _ => bind_none fun a _ => bind_none fun ⟨g2, er⟩ _ => bind_none fun ⟨g3, s⟩ _ => ?_
  refine bind_none fun s1 _ => bind_none fun er1 _ => bind_none fun b1 _ => bind_none fun b2 _ => bind_none fun b3 _ => bind_none fun b4 _ => ?_
  refine bind_none fun ar _ => bind_none fun sb1 h1 => bind_none fun sb2 h2 => bind_none fun s2 _ => bind_none fun ar2 _ => bind_none fun ss1 h3 => ?_
  have f1 := copy_fits h1 (by norm_num)
  have f2 := copy_fits h2 (by norm_num)
  have f3 := copy_fits h3 (by norm_num)
  exfalso
  omega

/-! ## The second message -/

theorem encode_cast (v : List UInt8) (i : Nat) : ((Spec.NewHope.encode v i : Int) : Zq) = keyBit v (i % 256) * 6144 := by
  rw [Spec.NewHope.encode]; push_cast; rfl

theorem keyBit_le (v : List UInt8) (i : Nat) : keyBit v i ≤ 1 := by rw [keyBit]; omega

theorem encode_list (key : List UInt8) (hk : 32 ≤ key.length) (p : Poly) :
    Wp (encode key p) fun k => ∀ l, l < 1024 → cf k l = Spec.NewHope.encode key l ∧ Bd 6144 (cf k l) :=
  (encode_wp key hk p).mono fun k h l hl => by
    have e : cf k l = Spec.NewHope.encode key l := by rw [h l hl, kbit_eq, Spec.NewHope.encode]
    refine ⟨e, ?_⟩
    rw [e, Spec.NewHope.encode]
    have := keyBit_le key (l % 256)
    exact ⟨by omega, by omega⟩

/-- `nres_it`, `poly_mul`, `intt`: the product of a polynomial given by its values and one in Montgomery form. -/
theorem product_wp {v w : Nat → Zq} {b : Int} (x y : Poly) (hx : ∀ l, l < 1024 → (0 ≤ cf x l ∧ cf x l < 2 ^ 19) ∧ (cf x l : Zq) = v l)
    (hy : ∀ l, l < 1024 → Bd b (cf y l) ∧ (cf y l : Zq) = 2 ^ 32 * w l) (hb : b ≤ 258069) :
    Wp (do let x ← nres_it x; let x ← poly_mul x y; intt x) fun c =>
      (∀ l, l < 1024 → 0 ≤ cf c l ∧ cf c l < 12289) ∧ ∀ f, f < 1024 → eval (fun l => cf c l) (point f) = v f * w f := by
  refine .bind (nres_it_wp x fun l hl => (hx l hl).1) fun x1 h1 => ?_
  refine .bind (poly_mul_wp x1 y (fun l hl => (h1 l hl).1) (fun l hl => (hy l hl).1) (by norm_num) (by omega) (by omega)) fun x2 h2 => ?_
  refine (intt_wp x2 fun l hl => ⟨(h2 l hl).1.1, (h2 l hl).1.2.trans (by norm_num)⟩).mono fun c ⟨h3, h4⟩ => ⟨h3, fun f hf => ?_⟩
  refine cancel32 ?_
  rw [mul_comm, h4 f hf]
  refine cancel32 ?_
  rw [(h2 f hf).2, (h1 f hf).2, (hx f hf).2, (hy f hf).2]
  ring

theorem client_wp {e : List UInt8} {p : Nat} {g : RAND} (hg : RAND.Gen (sha256 e) p g) {sb uc okey : List UInt8} (hb : 1824 ≤ sb.length)
    (hu : 2176 ≤ uc.length) (hk : 32 ≤ okey.length) {b : Nat → Zq} (hv : ∀ f, f < 1024 → eval b (point f) = unpack14 (sb.drop 32) f) :
    Wp (client g sb uc okey) fun r => RAND.Gen (sha256 e) (p + 12320) r.1 ∧
      r.2.1 = pack14 (fun i => (pubKey (sb.take 32) (noise (Spec.Rng.byte e) p) (noise (Spec.Rng.byte e) (p + 4096)) i).val) ++
        pack3 (fun i => Spec.NewHope.compress (Spec.NewHope.mul b (fun l => noise (Spec.Rng.byte e) p l) i + noise (Spec.Rng.byte e) (p + 8224) i +
          Spec.NewHope.encode (Spec.NewHope.hash (draw e (p + 8192) 32)) i)) ++ uc.drop 2176 ∧
      r.2.2 = Spec.NewHope.hash (Spec.NewHope.hash (draw e (p + 8192) 32)) ++ okey.drop 32 := by
  rw [client]
  refine .bind (error_wp hg zero) fun ⟨g1, s⟩ ⟨hg1, hs⟩ => ?_
  dsimp only at hg1 hs ⊢
  refine .bind (error_wp hg1 zero) fun ⟨g2, ed⟩ ⟨hg2, hed⟩ => ?_
  dsimp only at hg2 hed ⊢
  rw [show p + 4096 + 4096 = p + 8192 by omega] at hg2
  refine .bind (ntt_noise s hs) fun s1 hs1 => ?_
  refine .bind (ntt_noise ed hed) fun ed1 hed1 => ?_
  refine .bind (.of_eq (copy_part 0 32 sb _ (by omega) List.length_replicate) rfl) fun seed hseed => ?_
  rw [List.drop_zero] at hseed
  refine .bind (.of_eq (copy_part 32 1792 sb _ (by omega) List.length_replicate) rfl) fun ar har => ?_
  refine .bind (parse_wp seed (by rw [← hseed, List.length_take]; omega) zero) fun u hu0 => ?_
  refine chain3 (public_wp u s1 ed1 hu0 hs1 hed1) fun u1 hu1 => ?_
  refine .bind (fetch_list hg2 32 _ List.length_replicate) fun ⟨g3, key⟩ ⟨hg3, hkey⟩ => ?_
  dsimp only at hg3 hkey ⊢
  rw [show p + 8192 + 32 = p + 8224 by omega] at hg3
  refine .bind (.of_eq (hashKey_eq key (by rw [hkey, draw_length])) rfl) fun key1 hkey1 => ?_
  have lk1 : key1.length = 32 := by rw [← hkey1, hash_length]
  refine .bind (encode_list key1 (by omega) zero) fun k hk0 => ?_
  have lar : ar.length = 1792 := by rw [← har, List.length_take, List.length_drop]; omega
  refine .bind (unpack_list ar (by omega) zero) fun c0 hc0 => ?_
  refine chain3 (product_wp (v := fun i => (unpack14 (sb.drop 32) i : Zq)) (w := fun f => eval (fun l => noise (Spec.Rng.byte e) p l) (point f))
    c0 s1 (fun l hl => ?_) (fun l hl => hs1 l hl) (by norm_num)) fun c1 hc1 => ?_
  · have h1 := (hc0 l hl).1
    have h2 := unpack14_lt ar l
    refine ⟨⟨by omega, by omega⟩, ?_⟩
    rw [h1, ← har, unpack14_take, Int.cast_natCast]
  obtain ⟨hc1, hc2⟩ := hc1
  refine .bind (error_wp hg3 ed1) fun ⟨g4, ed2⟩ ⟨hg4, hed2⟩ => ?_
  dsimp only at hg4 hed2 ⊢
  rw [show p + 8224 + 4096 = p + 12320 by omega] at hg4
  refine .bind (poly_add_wp c1 ed2 (a := 12289) (b := 12305) (fun l hl => ⟨(hc1 l hl).1, (hc1 l hl).2.le⟩) (fun l hl => by
    rw [hed2 l hl]; exact noise_bd _ _ _) (by norm_num)) fun c2 h2 => ?_
  have b2 : ∀ l, l < 1024 → Bd 24594 (cf c2 l) := fun l hl => by
    have h3 := hc1 l hl
    have h4 := noise_bd (Spec.Rng.byte e) (p + 8224) l
    rw [← hed2 l hl] at h4
    rw [h2 l hl]
    exact ⟨by have := h4.1; omega, by have := h4.2; omega⟩
  refine .bind (poly_add_wp c2 k (b := 6144) b2 (fun l hl => (hk0 l hl).2) (by norm_num)) fun c3 h3 => ?_
  refine .bind (.of_eq (compress_list c3 (fun l hl => ?_) _ List.length_replicate) rfl) fun cc hcc => ?_
  · rw [h3 l hl]
    have h4 := b2 l hl
    have h5 := (hk0 l hl).2
    exact ⟨by have := h4.1; have := h5.1; omega, by have := h4.2; have := h5.2; omega⟩
  refine .bind (.of_eq (hashKey_eq key1 lk1) rfl) fun key2 hkey2 => ?_
  refine .bind (.of_eq (copy_one 32 key2 okey (by rw [← hkey2, hash_length]) hk) rfl) fun ok hok => ?_
  refine chain2 (pack_redc u1 hu1 ar lar) fun ar2 har2 => ?_
  refine chain2 (.of_eq (copy_two 1792 384 ar2 cc uc (by rw [har2, pack14_length]) (by rw [← hcc, pack3_length]) hu) rfl) fun uc1 huc1 => ?_
  have hmul : ∀ l, l < 1024 → (cf c1 l : Zq) = Spec.NewHope.mul b (fun l => noise (Spec.Rng.byte e) p l) l := eval_inj fun f hf => by
    rw [eval_mul _ _ (point_top f), hv f hf]
    exact hc2 f hf
  refine .ret ⟨hg4, ?_, ?_⟩
  · rw [← huc1, har2, ← hcc, ← hseed, pack3_congr fun i hi => ?_]
    rw [h3 i hi, h2 i hi, hed2 i hi]
    push_cast
    rw [hmul i hi, q_zero, zero_add, (hk0 i hi).1, ← hkey1, hkey]
  · rw [← hok, ← hkey2, ← hkey1, hkey]

/-! ## The third step -/

theorem decode_list (x : Poly) (hx : ∀ l, l < 1024 → 0 ≤ cf x l ∧ cf x l < 12289) (key : List UInt8) (hk : key.length = 32) :
    Wp (decode x key) fun k => k.length = 32 ∧ ∀ i, i < 256 → keyBit k i = decodeBit (fun l => (cf x l : Zq)) i :=
  (decode_wp x (fun l hl => ⟨(hx l hl).1, lt_of_lt_of_le (hx l hl).2 (by norm_num)⟩) key (by omega)).mono fun k ⟨h1, h2, _⟩ =>
    ⟨h1.trans hk, fun i hi => by rw [← kbit_eq, h2 i hi, vote_eq hx hi]⟩

theorem decompress_lt {b : Nat} (h : b < 8) : Spec.NewHope.decompress b < 12289 := by rw [Spec.NewHope.decompress]; omega

theorem decodeBit_congr {x y : Nat → Zq} (h : ∀ l, l < 1024 → x l = y l) {i : Nat} (hi : i < 256) : decodeBit x i = decodeBit y i := by
  rw [decodeBit, decodeBit, Finset.sum_congr rfl fun k hk => by rw [h _ (by have := Finset.mem_range.1 hk; omega)]]

theorem server_2_wp {ss uc okey : List UInt8} (hs : 1792 ≤ ss.length) (hu : 2176 ≤ uc.length) (hk : 32 ≤ okey.length) {s u : Nat → Zq}
    (hv : ∀ f, f < 1024 → 2 ^ 32 * eval s (point f) = unpack14 ss f) (hw : ∀ f, f < 1024 → eval u (point f) = unpack14 uc f) :
    Wp (server_2 ss uc okey) fun r => ∃ k : List UInt8, k.length = 32 ∧
      (∀ i, i < 256 → keyBit k i = decodeBit (fun l => (Spec.NewHope.decompress (unpack3 (uc.drop 1792) l) : Zq) - Spec.NewHope.mul u s l) i) ∧
      r = Spec.NewHope.hash k ++ okey.drop 32 := by
  rw [server_2]
  refine .bind (.of_eq (copy_part 0 1792 uc _ (by omega) List.length_replicate) rfl) fun ar har => ?_
  rw [List.drop_zero] at har
  have lar : ar.length = 1792 := by rw [← har, List.length_take]; omega
  refine .bind (unpack_list ar (by omega) zero) fun k0 hk0 => ?_
  refine .bind (nres_it_wp k0 fun l hl => ⟨by have := (hk0 l hl).1; omega, lt_of_lt_of_le (hk0 l hl).2 (by norm_num)⟩) fun k1 hk1 => ?_
  refine .bind (.of_eq (copy_part 1792 384 uc _ (by omega) List.length_replicate) rfl) fun cc hcc => ?_
  refine .bind (decompress_list cc (by rw [← hcc, List.length_take, List.length_drop]; omega) zero) fun c hc => ?_
  refine .bind (.of_eq (copy_part 0 1792 ss _ (by omega) lar) rfl) fun ar2 har2 => ?_
  rw [List.drop_zero] at har2
  refine .bind (unpack_list ar2 (by rw [← har2, List.length_take]; omega) zero) fun s0 hs0 => ?_
  refine .bind (poly_mul_wp k1 s0 (b := 2 ^ 14) (fun l hl => (hk1 l hl).1) (fun l hl => ⟨by have := (hs0 l hl).1; omega, (hs0 l hl).2.le⟩)
    (by norm_num) (by norm_num) (by norm_num)) fun k2 hk2 => ?_
  refine .bind (intt_wp k2 fun l hl => ⟨(hk2 l hl).1.1, (hk2 l hl).1.2.trans (by norm_num)⟩) fun k3 ⟨h3, h4⟩ => ?_
  have hc' : ∀ l, l < 1024 → 0 ≤ cf c l ∧ cf c l < 12289 := fun l hl => by
    rw [hc l hl]
    have := decompress_lt (unpack3_lt cc l)
    exact ⟨by omega, by omega⟩
  refine .bind (poly_rsub_wp k3 c h3 hc') fun k4 hk4 => ?_
  refine .bind (poly_soft_reduce_wp k4 fun l hl => ?_) fun k5 hk5 => ?_
  · have h5 := h3 l hl
    have h6 := hc' l hl
    rw [hk4 l hl]
    exact ⟨by omega, by omega⟩
  refine .bind (decode_list k5 (fun l hl => (hk5 l hl).1) _ List.length_replicate) fun key ⟨lkey, hkey⟩ => ?_
  refine .bind (.of_eq (hashKey_eq key lkey) rfl) fun key1 hkey1 => ?_
  have hmul : ∀ l, l < 1024 → (cf k3 l : Zq) = Spec.NewHope.mul u s l := eval_inj fun f hf => by
    rw [eval_mul _ _ (point_top f)]
    refine cancel32 (cancel32 ?_)
    have e1 := (hk2 f hf).2
    have e2 := (hk1 f hf).2
    rw [mul_comm (eval _ _), h4 f hf, e1, e2, (hk0 f hf).1, (hs0 f hf).1, ← har, ← har2, unpack14_take, unpack14_take, Int.cast_natCast, Int.cast_natCast,
      ← hv f hf, ← hw f hf]
    ring
  refine .of_eq (copy_one 32 key1 okey (by rw [← hkey1, hash_length]) hk) ⟨key, lkey, fun i hi => ?_, by rw [← hkey1]⟩
  rw [hkey i hi]
  refine decodeBit_congr (fun l hl => ?_) hi
  rw [(hk5 l hl).2, hk4 l hl, hc l hl, ← hcc, unpack3_take _ hl]
  push_cast
  rw [hmul l hl, q_zero, add_zero]

theorem client_none (g : RAND) {sb uc okey : List UInt8} (h : sb.length < 1824 ∨ uc.length < 2176 ∨ okey.length < 32) :
    client g sb uc okey = none := by
  rw [client]
  refine bind_none fun ⟨g1, s⟩ _ => bind_none fun ⟨g2, ed⟩ _ => bind_none fun s1 _ => bind_none fun ed1 _ => ?_
  refine bind_none fun seed h1 => bind_none fun ar h2 => bind_none fun u _ => bind_none fun u1 _ => bind_none fun u2 _ => bind_none fun u3 _ => ?_
  refine bind_none fun ⟨g3, key⟩ _ => bind_none fun key1 _ => bind_none fun k _ => bind_none fun c0 _ => bind_none fun c1 _ => bind_none fun c2 _ => ?_
  refine bind_none fun c3 _ => bind_none fun ⟨g4, ed2⟩ _ => bind_none fun c4 _ => bind_none fun c5 _ => bind_none fun cc _ => ?_
  refine bind_none fun key2 _ => bind_none fun ok h3 => bind_none fun u4 _ => bind_none fun ar2 _ => bind_none fun uc1 h4 => bind_none fun uc2 h5 => ?_
  have f1 := copy_fits h1 (by norm_num)
  have f2 := copy_fits h2 (by norm_num)
  have f3 := copy_fits h3 (by norm_num)
  have f4 := copy_fits h4 (by norm_num)
  have f5 := copy_fits h5 (by norm_num)
  exfalso
  omega

theorem server_2_none {ss uc okey : List UInt8} (h : ss.length < 1792 ∨ uc.length < 2176 ∨ okey.length < 32) : server_2 ss uc okey = none := by
  rw [server_2]
  refine bind_none fun ar h1 => bind_none fun k _ => bind_none fun k1 _ => bind_none fun cc h2 => bind_none fun c _ => bind_none fun ar2 h3 => ?_
  refine bind_none fun s _ => bind_none fun k2 _ => bind_none fun k3 _ => bind_none fun k4 _ => bind_none fun k5 _ => bind_none fun key _ => ?_
  refine bind_none fun key1 _ => ?_
  have f1 := copy_fits h1 (by norm_num)
  have f2 := copy_fits h2 (by norm_num)
  have f3 := copy_fits h3 (by norm_num)
  by_cases c : okey.length < 32
  · exact copy_none 0 0 key1 32 0 okey (by omega) (by norm_num)
  · exfalso
    omega

/-! ## Agreement -/

theorem mul_cast (a b : Nat → Int) (l : Nat) : ((Spec.NewHope.mul a b l : Int) : Zq) = Spec.NewHope.mul (fun i => (a i : Zq)) (fun i => (b i : Zq)) l := by
  rw [Spec.NewHope.mul, Spec.NewHope.mul, Int.cast_sum]
  refine Finset.sum_congr rfl fun j _ => ?_
  split <;> push_cast <;> rfl

theorem near_one {X d z : Int} (h0 : 0 ≤ X) (h1 : X < 12289) (h : X = 6144 + d + 12289 * z) : |X - 6144| ≤ |d| := by
  rw [abs_le]
  rcases abs_cases d with ⟨e, _⟩ | ⟨e, _⟩ <;> rw [e] <;> omega

theorem near_zero {X d z : Int} (h0 : 0 ≤ X) (h1 : X < 12289) (h : X = d + 12289 * z) : 6144 - |d| ≤ |X - 6144| := by
  rcases abs_cases d with ⟨e, _⟩ | ⟨e, _⟩ <;> rcases abs_cases (X - 6144) with ⟨e', _⟩ | ⟨e', _⟩ <;> rw [e, e'] <;> omega

/-- `decode` tolerates errors whose sum over the four places of a bit is below `q - 1`. -/
theorem decode_bit {x : Nat → Zq} {d : Nat → Int} {κ : Nat} (hκ : κ ≤ 1) {i : Nat} (hx : ∀ h, h < 4 → x (i + 256 * h) = ((κ * 6144 + d (i + 256 * h) : Int) : Zq))
    (hd : ∑ h ∈ Finset.range 4, |d (i + 256 * h)| ≤ 12287) : decodeBit x i = κ := by
  have hv : ∀ h, h < 4 → ∃ z : Int, ((x (i + 256 * h)).val : Int) = κ * 6144 + d (i + 256 * h) + 12289 * z ∧ ((x (i + 256 * h)).val : Int) < 12289 := fun h hh => by
    refine ⟨-((κ * 6144 + d (i + 256 * h)) / 12289), ?_, by have := ZMod.val_lt (x (i + 256 * h)); omega⟩
    rw [hx h hh, ZMod.val_intCast]
    have := Int.emod_def (κ * 6144 + d (i + 256 * h)) 12289
    push_cast at this ⊢
    rw [this]; ring
  obtain ⟨z0, e0, l0⟩ := hv 0 (by norm_num)
  obtain ⟨z1, e1, l1⟩ := hv 1 (by norm_num)
  obtain ⟨z2, e2, l2⟩ := hv 2 (by norm_num)
  obtain ⟨z3, e3, l3⟩ := hv 3 (by norm_num)
  rw [decodeBit]
  simp only [Finset.sum_range_succ, Finset.sum_range_zero, zero_add] at hd ⊢
  obtain rfl | rfl : κ = 0 ∨ κ = 1 := by omega
  · have n0 := near_zero (d := d (i + 256 * 0)) (z := z0) (by omega) l0 (by omega)
    have n1 := near_zero (d := d (i + 256 * 1)) (z := z1) (by omega) l1 (by omega)
    have n2 := near_zero (d := d (i + 256 * 2)) (z := z2) (by omega) l2 (by omega)
    have n3 := near_zero (d := d (i + 256 * 3)) (z := z3) (by omega) l3 (by omega)
    rw [if_neg (by omega)]
  · have n0 := near_one (d := d (i + 256 * 0)) (z := z0) (by omega) l0 (by omega)
    have n1 := near_one (d := d (i + 256 * 1)) (z := z1) (by omega) l1 (by omega)
    have n2 := near_one (d := d (i + 256 * 2)) (z := z2) (by omega) l2 (by omega)
    have n3 := near_one (d := d (i + 256 * 3)) (z := z3) (by omega) l3 (by omega)
    rw [if_pos (by omega)]

/-- What compression loses. -/
theorem compress_close (y : Zq) : ∃ ε : Int, |ε| ≤ 768 ∧ (Spec.NewHope.decompress (Spec.NewHope.compress y) : Zq) = y - ε := by
  obtain ⟨j, hj⟩ := oct_close (y.val : Int)
  refine ⟨_, hj, ?_⟩
  have : unoct (oct (y.val : Int)) = Spec.NewHope.decompress (Spec.NewHope.compress y) := by
    rw [oct_zmod, Int.cast_natCast, ZMod.natCast_zmod_val, unoct_nat]
  rw [this]
  push_cast
  rw [ZMod.natCast_zmod_val, q_zero]
  ring

theorem agreement {e e' : List UInt8} {p p' : Nat} {g g' : RAND} (hg : RAND.Gen (sha256 e) p g) (hg' : RAND.Gen (sha256 e') p' g')
    {sb ss uc okey okey' : List UInt8} (hb : 1824 ≤ sb.length) (hs : 1792 ≤ ss.length) (hu : 2176 ≤ uc.length) (hk : 32 ≤ okey.length)
    (hk' : 32 ≤ okey'.length) :
    ∃ g1 sb1 ss1 g2 uc1 k1 k2, server_1 g sb ss = some (g1, sb1, ss1) ∧ client g' sb1 uc okey = some (g2, uc1, k1) ∧
      server_2 ss1 uc1 okey' = some k2 ∧
      k1.take 32 = Spec.NewHope.hash (Spec.NewHope.hash (draw e' (p' + 8192) 32)) ∧
      ((∀ i, i < 256 → ∑ h ∈ Finset.range 4, |residue (noise (Spec.Rng.byte e) (p + 4128)) (noise (Spec.Rng.byte e) (p + 32))
        (noise (Spec.Rng.byte e') p') (noise (Spec.Rng.byte e') (p' + 4096)) (noise (Spec.Rng.byte e') (p' + 8224)) (i + 256 * h)| ≤ 9215) →
        k2.take 32 = k1.take 32) := by
  obtain ⟨⟨g1, sb1, ss1⟩, r1, hg1, hsb1, hss1⟩ := server_1_wp hg hb hs
  dsimp only at hg1 hsb1 hss1
  generalize hsd : noise (Spec.Rng.byte e) (p + 4128) = s at *
  generalize her : noise (Spec.Rng.byte e) (p + 32) = er at *
  have lsb1 : 1824 ≤ sb1.length := by
    rw [hsb1, List.length_append, List.length_append, draw_length, pack14_length]; omega
  have dsb1 : ∀ f, f < 1024 → unpack14 (sb1.drop 32) f = (pubKey (draw e p 32) s er f).val := fun f hf => by
    rw [hsb1, List.append_assoc, List.drop_append, List.drop_eq_nil_of_le (by rw [draw_length]), draw_length, Nat.sub_self, List.drop_zero, List.nil_append,
      unpack_pack (fun i hi => lt_of_lt_of_le (ZMod.val_lt _) (by norm_num)) _ hf]
  have tsb1 : sb1.take 32 = draw e p 32 := by
    rw [hsb1, List.append_assoc, List.take_append_of_le_length (by rw [draw_length]), List.take_of_length_le (by rw [draw_length])]
  obtain ⟨a, ha⟩ := interpolate (uniform (draw e p 32))
  have hv : ∀ f, f < 1024 → eval (fun i => Spec.NewHope.mul a (fun l => (s l : Zq)) i + er i) (point f) = unpack14 (sb1.drop 32) f := fun f hf => by
    rw [eval_add, eval_mul _ _ (point_top f), ha f hf, dsb1 f hf, ZMod.natCast_zmod_val, pubKey]
  obtain ⟨⟨g2, uc1, k1⟩, r2, hg2, huc1, hk1⟩ := client_wp hg' lsb1 hu hk hv
  dsimp only at hg2 huc1 hk1
  rw [tsb1] at huc1
  generalize hsd' : noise (Spec.Rng.byte e') p' = s' at *
  generalize her' : noise (Spec.Rng.byte e') (p' + 4096) = er' at *
  generalize her2 : noise (Spec.Rng.byte e') (p' + 8224) = er'' at *
  generalize hkey : Spec.NewHope.hash (draw e' (p' + 8192) 32) = key at *
  have lkey : key.length = 32 := by rw [← hkey, hash_length]
  have luc1 : 2176 ≤ uc1.length := by
    rw [huc1, List.length_append, List.length_append, pack14_length, pack3_length]; omega
  have lss1 : 1792 ≤ ss1.length := by
    rw [hss1, List.length_append, pack14_length]; omega
  obtain ⟨k2, r3, key2, lkey2, hkey2, hk2⟩ := server_2_wp (okey := okey') (s := fun l => (s l : Zq))
    (u := fun i => Spec.NewHope.mul a (fun l => (s' l : Zq)) i + er' i) lss1 luc1 hk' (fun f hf => by
      rw [hss1, unpack_pack (fun i hi => lt_of_lt_of_le (ZMod.val_lt _) (by norm_num)) _ hf, ZMod.natCast_zmod_val]) (fun f hf => by
      rw [eval_add, eval_mul _ _ (point_top f), ha f hf, huc1, List.append_assoc,
        unpack_pack (fun i hi => lt_of_lt_of_le (ZMod.val_lt _) (by norm_num)) _ hf, ZMod.natCast_zmod_val, pubKey])
  have t1 : k1.take 32 = Spec.NewHope.hash key := by
    rw [hk1, List.take_append_of_le_length (by rw [hash_length]), List.take_of_length_le (by rw [hash_length])]
  refine ⟨g1, sb1, ss1, g2, uc1, k1, k2, r1, r2, r3, t1, fun hn => ?_⟩
  have t2 : k2.take 32 = Spec.NewHope.hash key2 := by
    rw [hk2, List.take_append_of_le_length (by rw [hash_length]), List.take_of_length_le (by rw [hash_length])]
  rw [t1, t2]
  congr 1
  refine kbit_inj lkey2 lkey fun i hi => ?_
  rw [kbit_eq, kbit_eq, hkey2 i hi]
  have hdiff : ∀ l, l < 1024 → Spec.NewHope.mul (fun i => Spec.NewHope.mul a (fun l => (s l : Zq)) i + er i) (fun l => (s' l : Zq)) l -
      Spec.NewHope.mul (fun i => Spec.NewHope.mul a (fun l => (s' l : Zq)) i + er' i) (fun l => (s l : Zq)) l =
      Spec.NewHope.mul (fun l => (er l : Zq)) (fun l => (s' l : Zq)) l - Spec.NewHope.mul (fun l => (er' l : Zq)) (fun l => (s l : Zq)) l :=
    eval_inj fun f hf => by
      have ht := point_top f
      rw [eval_sub, eval_sub, eval_mul _ _ ht, eval_mul _ _ ht, eval_mul _ _ ht, eval_mul _ _ ht, eval_add, eval_add, eval_mul _ _ ht, eval_mul _ _ ht]
      ring
  have dcc : ∀ l, l < 1024 → unpack3 (uc1.drop 1792) l = Spec.NewHope.compress
      (Spec.NewHope.mul (fun i => Spec.NewHope.mul a (fun l => (s l : Zq)) i + er i) (fun l => (s' l : Zq)) l + er'' l + Spec.NewHope.encode key l) := fun l hl => by
    rw [huc1, List.append_assoc, List.drop_append, List.drop_eq_nil_of_le (by rw [pack14_length]), pack14_length, Nat.sub_self, List.drop_zero,
      List.nil_append, unpack3_pack3 (fun i => compress_lt _) _ hl]
  choose ε hε1 hε2 using fun l => compress_close
    (Spec.NewHope.mul (fun i => Spec.NewHope.mul a (fun l => (s l : Zq)) i + er i) (fun l => (s' l : Zq)) l + er'' l + Spec.NewHope.encode key l)
  refine decode_bit (d := fun l => residue s er s' er' er'' l - ε l) (keyBit_le key i) (fun h hh => ?_) ?_
  · have hl : i + 256 * h < 1024 := by omega
    rw [dcc _ hl, hε2]
    have := hdiff _ hl
    have em : (i + 256 * h) % 256 = i := by omega
    rw [residue, Spec.NewHope.encode, em]
    push_cast
    rw [mul_cast, mul_cast]
    linear_combination this
  · refine (Finset.sum_le_sum fun h _ => abs_sub _ _).trans ?_
    rw [Finset.sum_add_distrib]
    have h2 : ∑ h ∈ Finset.range 4, |ε (i + 256 * h)| ≤ ∑ h ∈ Finset.range 4, (768 : Int) := Finset.sum_le_sum fun h _ => hε1 _
    rw [Finset.sum_const, Finset.card_range] at h2
    have := hn i hi
    simp only [nsmul_eq_mul] at h2
    norm_num at h2
    linarith

end NHS

end Amcl
