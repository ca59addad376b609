import Verif.Proof.B383.Psi
/-!
# Reciprocity of lines, and additivity of the pairing in the second argument
-/

set_option exponentiation.threshold 6000

namespace Spec.B383

/-- The line `y = l x + k` meets `y² = x³ + b` in the points with first coordinates `x₁`, `x₂`, `x₃`. -/
structure Chord {K : Type} [Field K] (b l k x₁ x₂ x₃ : K) : Prop where
  e1 : x₁ + x₂ + x₃ = l ^ 2
  e2 : x₁ * x₂ + x₁ * x₃ + x₂ * x₃ = -2 * l * k
  e3 : x₁ * x₂ * x₃ = k ^ 2 - b

section field

variable {K : Type} [Field K]

theorem Chord.prod {b l k x₁ x₂ x₃ : K} (h : Chord b l k x₁ x₂ x₃) (x : K) :
    x ^ 3 + b - (l * x + k) ^ 2 = (x - x₁) * (x - x₂) * (x - x₃) := by
  linear_combination x ^ 2 * h.e1 - x * h.e2 + h.e3

/-- Reciprocity: the values of each of two lines at the points of the other have the same product,
up to sign. -/
theorem Chord.reciprocity {b l k a₁ a₂ a₃ m n x₁ x₂ x₃ : K} (h : Chord b l k a₁ a₂ a₃) (h' : Chord b m n x₁ x₂ x₃) :
    ((m * x₁ + n) - l * x₁ - k) * ((m * x₂ + n) - l * x₂ - k) * ((m * x₃ + n) - l * x₃ - k) =
      -(((l * a₁ + k) - m * a₁ - n) * ((l * a₂ + k) - m * a₂ - n) * ((l * a₃ + k) - m * a₃ - n)) := by
  have e : ∀ s t y₁ y₂ y₃ : K, (s * y₁ + t) * (s * y₂ + t) * (s * y₃ + t) =
      s ^ 3 * (y₁ * y₂ * y₃) + s ^ 2 * t * (y₁ * y₂ + y₁ * y₃ + y₂ * y₃) + s * t ^ 2 * (y₁ + y₂ + y₃) + t ^ 3 := by
    intros; ring
  have e1 := e (m - l) (n - k) x₁ x₂ x₃
  have e2 := e (m - l) (n - k) a₁ a₂ a₃
  rw [h'.e1, h'.e2, h'.e3] at e1
  rw [h.e1, h.e2, h.e3] at e2
  linear_combination e1 - e2

variable [DecidableEq K]

/-- The chord or tangent of two points. -/
theorem chord_exists {b0 : K} [g : GoodB b0] {a b c d : K} (h : b ^ 2 = a ^ 3 + b0) (h' : d ^ 2 = c ^ 3 + b0)
    (hc : ¬ (a = c ∧ b = -d)) : ∃ l k a₃ b₃ h₃, Pt.mk a b h + Pt.mk c d h' = Pt.mk a₃ b₃ h₃ ∧
      Chord b0 l k a c a₃ ∧ b = l * a + k ∧ d = l * c + k ∧ -b₃ = l * a₃ + k ∧
      l = if a = c then 3 * a ^ 2 / (2 * b) else (b - d) / (a - c) := by
  by_cases hac : a = c
  · subst hac
    have hbd : b = d := by
      have : (b - d) * (b + d) = 0 := by linear_combination h - h'
      rcases mul_eq_zero.1 this with e | e
      · exact sub_eq_zero.1 e
      · exact absurd ⟨rfl, eq_neg_of_add_eq_zero_left e⟩ hc
    subst hbd
    have hb : b ≠ 0 := Pt.y_ne h
    have h2 := g.two
    have hl : 3 * a ^ 2 / (2 * b) * (2 * b) = 3 * a ^ 2 := by field_simp
    rw [if_pos rfl]
    generalize 3 * a ^ 2 / (2 * b) = l at *
    obtain ⟨h3, e3⟩ := Pt.add_self h (l := l) hl rfl rfl
    refine ⟨l, b - l * a, _, _, h3, e3, ⟨by ring, by linear_combination hl, ?_⟩, by ring, by ring, by ring, rfl⟩
    linear_combination -h + a * hl
  · have hd : a - c ≠ 0 := sub_ne_zero.2 hac
    have hl : (b - d) / (a - c) * (a - c) = b - d := by field_simp
    rw [if_neg hac]
    generalize (b - d) / (a - c) = l at *
    obtain ⟨h3, e3⟩ := Pt.add_ne h h' hac (l := l) hl rfl rfl
    have e2 : l * (b + d) = a ^ 2 + a * c + c ^ 2 := by
      apply mul_left_cancel₀ hd
      linear_combination (b + d) * hl + h - h'
    refine ⟨l, b - l * a, _, _, h3, e3, ⟨by ring, ?_, ?_⟩, by ring, by linear_combination hl, by ring, rfl⟩
    · linear_combination e2 - l * hl
    · linear_combination -h + a * e2 + (-a * l) * hl

end field

/-- The line through two points of the twist, untwisted. -/
theorem chord2 {A B : G2} (hA : A ≠ 0) (hB : B ≠ 0) (hAB : A + B ≠ 0) :
    ∃ (L K : Fp12) (a b c d a₃ b₃ : Fp2) (h : b ^ 2 = a ^ 3 + b2) (h' : d ^ 2 = c ^ 3 + b2) (h₃ : b₃ ^ 2 = a₃ ^ 3 + b2),
      A = Pt.mk a b h ∧ B = Pt.mk c d h' ∧ A + B = Pt.mk a₃ b₃ h₃ ∧ Chord 15 L K (ux a) (ux c) (ux a₃) ∧
      uy b = L * ux a + K ∧ uy d = L * ux c + K ∧ -uy b₃ = L * ux a₃ + K ∧
      ∀ x y, lineAt x y A B = ι1 y - L * ι1 x - K := by
  rcases Pt.cases A with rfl | ⟨a, b, h, rfl⟩
  · exact absurd rfl hA
  rcases Pt.cases B with rfl | ⟨c, d, h', rfl⟩
  · exact absurd rfl hB
  have hc : ¬ (a = c ∧ b = -d) := by
    rintro ⟨rfl, hb⟩
    have : d = -b := by rw [hb, neg_neg]
    subst this
    exact hAB (Pt.add_opp h h')
  obtain ⟨l, k, a₃, b₃, h₃, e, hch, e1, e2, e3, el⟩ := chord_exists h h' hc
  have hW := W_ne
  refine ⟨ι2 l / W, ι2 k / W ^ 3, a, b, c, d, a₃, b₃, h, h', h₃, rfl, rfl, e, ?_, ?_, ?_, ?_, ?_⟩
  · have f1 := congrArg ι2 hch.e1
    have f2 := congrArg ι2 hch.e2
    have f3 := congrArg ι2 hch.e3
    simp only [map_add, map_mul, map_sub, map_pow, map_neg, map_ofNat, ι2_b2] at f1 f2 f3
    rw [ux, ux, ux]
    constructor
    · field_simp
      linear_combination f1
    · field_simp
      linear_combination f2
    · field_simp
      linear_combination f3
  · rw [uy, ux, e1, map_add, map_mul]
    field_simp
  · rw [uy, ux, e2, map_add, map_mul]
    field_simp
  · have := congrArg ι2 e3
    rw [map_add, map_mul, map_neg] at this
    rw [uy, ux]
    field_simp
    linear_combination this
  · intro x y
    rw [lineAt_mk h h' hc, ← el, lineAt_chord, e1]
    congr 2
    ring_nf

theorem neg_on {F : Type} [Field F] {b0 x y : F} (h : y ^ 2 = x ^ 3 + b0) : (-y) ^ 2 = x ^ 3 + b0 := by
  rw [neg_sq]; exact h

theorem ι1_on {x y : Fp} (h : y ^ 2 = x ^ 3 + b1) : ι1 y ^ 2 = ι1 x ^ 3 + 15 := by
  have := congrArg ι1 h
  rwa [map_pow, map_add, map_pow, b1, map_ofNat] at this

theorem kill_neg_one : (-1 : Fp12) ^ finalExp = 1 :=
  kill (neg_ne_zero.2 one_ne_zero) (Or.inl (by rw [map_neg, map_one]))

theorem kill_ux {x : Fp} {a : Fp2} (h : a ≠ 0) : (ux a - ι1 x) ^ finalExp = 1 := by
  have := kill_vert (vert_ne (x := x) h)
  rw [← neg_sub, ← neg_one_mul, mul_pow, kill_neg_one, this, one_mul]

theorem U_trivial {x y : Fp} (hP : y ^ 2 = x ^ 3 + b1) {A B : G2} (h : A = 0 ∨ B = 0 ∨ A + B = 0) : U hP A B = 1 := by
  have hc := U_cocycle hP
  rcases h with rfl | rfl | h
  · exact hc.zero B
  · rw [hc.comm]; exact hc.zero A
  · rw [eq_neg_of_add_eq_zero_right h]; exact hc.neg A

/-- The values at opposite points are inverse to each other. -/
theorem U_neg {x y : Fp} (hP : y ^ 2 = x ^ 3 + b1) (A B : G2) : U (neg_on hP) A B = (U hP A B)⁻¹ := by
  by_cases hd : A = 0 ∨ B = 0 ∨ A + B = 0
  · rw [U_trivial _ hd, U_trivial _ hd, inv_one]
  push Not at hd
  obtain ⟨L, K, a, b, c, d, a₃, b₃, h, h', h₃, rfl, rfl, e, hch, -, -, -, hl⟩ := chord2 hd.1 hd.2.1 hd.2.2
  apply eq_inv_of_mul_eq_one_left
  apply Units.ext
  change lineAt x (-y) _ _ ^ finalExp * lineAt x y _ _ ^ finalExp = 1
  have e1 : lineAt x (-y) (Pt.mk a b h) (Pt.mk c d h') * lineAt x y (Pt.mk a b h) (Pt.mk c d h') =
      -1 * ((ι1 x - ux a) * (ι1 x - ux c) * (ι1 x - ux a₃)) := by
    rw [hl, hl, map_neg, ← hch.prod]
    linear_combination -ι1_on hP
  rw [← mul_pow, e1, mul_pow, mul_pow, mul_pow, kill_neg_one, kill_vert (vert_ne (a_ne h)), kill_vert (vert_ne (a_ne h')),
    kill_vert (vert_ne (a_ne h₃))]
  simp

section dual

/-- The value at the untwisted point `A` of the line `y = m x + n`. -/
noncomputable def dual (m n : Fp) : G2 → Fp12
  | .zero => 1
  | .some a b _ => uy b - ι1 m * ux a - ι1 n

variable (m n : Fp)

theorem dual_zero : dual m n 0 = 1 := rfl

theorem dual_mk {a b : Fp2} (h : b ^ 2 = a ^ 3 + b2) : dual m n (Pt.mk a b h) = uy b - ι1 m * ux a - ι1 n := rfl

theorem dual_ne (A : G2) : dual m n A ≠ 0 := by
  rcases Pt.cases A with rfl | ⟨a, b, h, rfl⟩
  · exact one_ne_zero
  · intro e
    have hW := W_ne
    rw [dual_mk, ux, uy, ι1_eq, ι1_eq] at e
    field_simp at e
    have e2 : ι4 ⟨b, -algebraMap Fp Fp2 n⟩ + ι4 ⟨-algebraMap Fp Fp2 m * a, 0⟩ * W + ι4 0 * W ^ 2 =
        ι4 0 + ι4 0 * W + ι4 0 * W ^ 2 := by
      rw [map_zero, ι4_mk, ι4_mk, map_zero, map_neg, map_mul, map_neg]
      linear_combination e
    exact Pt.y_ne h (congrArg QuadraticAlgebra.re (Fp12_ext_iff.1 e2).1)

/-- The value of the dual line after the final exponentiation. -/
noncomputable def D (A : G2) : Fp12ˣ := Units.mk0 (dual m n A ^ finalExp) (pow_ne_zero _ (dual_ne m n A))

theorem D_zero : D m n 0 = 1 := Units.ext (one_pow _)

theorem D_neg {x₁ x₂ x₃ : Fp} (hch : Chord b1 m n x₁ x₂ x₃) (A : G2) : D m n (-A) = (D m n A)⁻¹ := by
  apply eq_inv_of_mul_eq_one_left
  apply Units.ext
  change dual m n (-A) ^ finalExp * dual m n A ^ finalExp = 1
  rcases Pt.cases A with rfl | ⟨a, b, h, rfl⟩
  · rw [neg_zero, dual_zero, one_pow, one_mul]
  · have hch' : Chord 15 (ι1 m) (ι1 n) (ι1 x₁) (ι1 x₂) (ι1 x₃) := by
      have f1 := congrArg ι1 hch.e1
      have f2 := congrArg ι1 hch.e2
      have f3 := congrArg ι1 hch.e3
      simp only [map_add, map_mul, map_sub, map_pow, map_neg, map_ofNat, b1] at f1 f2 f3
      exact ⟨f1, f2, f3⟩
    have e1 : dual m n (-Pt.mk a b h) * dual m n (Pt.mk a b h) =
        -1 * ((ux a - ι1 x₁) * (ux a - ι1 x₂) * (ux a - ι1 x₃)) := by
      rw [← hch'.prod, Pt.neg_mk, dual_mk, dual_mk, show uy (-b) = -uy b by rw [uy, uy, map_neg, neg_div]]
      linear_combination -uxy h
    rw [← mul_pow, e1, mul_pow, mul_pow, mul_pow, kill_neg_one, kill_ux (a_ne h), kill_ux (a_ne h), kill_ux (a_ne h)]
    simp

theorem D_psi (A : G2) : D m n (psi A) = D m n A ^ p := by
  apply Units.ext
  change dual m n (psi A) ^ finalExp = (dual m n A ^ finalExp) ^ p
  have e : φ (dual m n A) = dual m n (psi A) := by
    rcases Pt.cases A with rfl | ⟨a, b, h, rfl⟩
    · exact map_one φ
    · rw [psi_mk, dual_mk, dual_mk, map_sub, map_sub, map_mul, φ_ι1, φ_ι1, φ_ux, φ_uy]
  rw [← e, φ_eq]
  exact pow_right_comm _ _ _

theorem pow_finalExp_r {z : Fp12} (h : z ≠ 0) {k : Nat} (hk : r ∣ k) : (z ^ finalExp) ^ k = 1 := by
  obtain ⟨m, rfl⟩ := hk
  have h1 : z ^ (p ^ 12 - 1) = 1 := by
    have : Fintype Fp12 := Fintype.ofFinite _
    have := FiniteField.pow_card_sub_one_eq_one _ h
    rwa [← Nat.card_eq_fintype_card, card_Fp12] at this
  rw [← pow_mul, ← mul_assoc, finalExp_mul_r, mul_comm 3, mul_assoc, pow_mul, h1, one_pow]

theorem D_pow (A : G2) {k : Nat} (hk : r ∣ k) : D m n A ^ k = 1 :=
  Units.ext (pow_finalExp_r (dual_ne m n A) hk)

end dual

/-- Reciprocity of the lines through `A`, `B` and through `P₁`, `P₂`. -/
theorem U_reciprocity {m n x₁ y₁ x₂ y₂ x₃ y₃ : Fp} (h₁ : y₁ ^ 2 = x₁ ^ 3 + b1) (h₂ : y₂ ^ 2 = x₂ ^ 3 + b1)
    (h₃ : y₃ ^ 2 = x₃ ^ 3 + b1) (hch : Chord b1 m n x₁ x₂ x₃) (e₁ : y₁ = m * x₁ + n) (e₂ : y₂ = m * x₂ + n)
    (e₃ : y₃ = m * x₃ + n) (A B : G2) :
    U h₁ A B * U h₂ A B * U h₃ A B = D m n A * D m n B * (D m n (A + B))⁻¹ := by
  by_cases hd : A = 0 ∨ B = 0 ∨ A + B = 0
  · rw [U_trivial _ hd, U_trivial _ hd, U_trivial _ hd]
    rcases hd with rfl | rfl | h
    · simp [D_zero]
    · simp [D_zero]
    · rw [h, eq_neg_of_add_eq_zero_right h, D_neg m n hch, D_zero]; simp
  push Not at hd
  rw [← D_neg m n hch]
  obtain ⟨L, K, a, b, c, d, a₃, b₃, h, h', h₃', rfl, rfl, e, hch2, f1, f2, f3, hl⟩ := chord2 hd.1 hd.2.1 hd.2.2
  have hch' : Chord 15 (ι1 m) (ι1 n) (ι1 x₁) (ι1 x₂) (ι1 x₃) := by
    have f1 := congrArg ι1 hch.e1
    have f2 := congrArg ι1 hch.e2
    have f3 := congrArg ι1 hch.e3
    simp only [map_add, map_mul, map_sub, map_pow, map_neg, map_ofNat, b1] at f1 f2 f3
    exact ⟨f1, f2, f3⟩
  apply Units.ext
  rw [e, Pt.neg_mk]
  change lineAt x₁ y₁ _ _ ^ finalExp * lineAt x₂ y₂ _ _ ^ finalExp * lineAt x₃ y₃ _ _ ^ finalExp =
    dual m n _ ^ finalExp * dual m n _ ^ finalExp * dual m n _ ^ finalExp
  have hrec := hch2.reciprocity hch'
  rw [← mul_pow, ← mul_pow, ← mul_pow, ← mul_pow, hl, hl, hl, dual_mk, dual_mk, dual_mk,
    show uy (-b₃) = -uy b₃ by rw [uy, uy, map_neg, neg_div], f1, f2, f3, e₁, e₂, e₃]
  simp only [map_add, map_mul]
  rw [hrec, ← neg_one_mul, mul_pow, kill_neg_one, one_mul]

theorem mill_neg {x y : Fp} (hP : y ^ 2 = x ^ 3 + b1) (Q : G2) (k : Nat) :
    mill (U (neg_on hP)) Q k = (mill (U hP) Q k)⁻¹ := by
  induction k with
  | zero => simp [mill]
  | succ k ih => rw [mill, mill, ih, U_neg hP, mul_inv]

/-- Additivity in the second argument, for points on a line. -/
theorem mill_chord {m n x₁ y₁ x₂ y₂ x₃ y₃ : Fp} (h₁ : y₁ ^ 2 = x₁ ^ 3 + b1) (h₂ : y₂ ^ 2 = x₂ ^ 3 + b1)
    (h₃ : y₃ ^ 2 = x₃ ^ 3 + b1) (hch : Chord b1 m n x₁ x₂ x₃) (e₁ : y₁ = m * x₁ + n) (e₂ : y₂ = m * x₂ + n)
    (e₃ : y₃ = m * x₃ + n) {Q : G2} (hQ : r • Q = 0) :
    mill (U h₁) Q xPar * mill (U h₂) Q xPar * mill (U h₃) Q xPar = 1 := by
  have tele : ∀ k, mill (U h₁) Q k * mill (U h₂) Q k * mill (U h₃) Q k = D m n Q ^ k * (D m n (k • Q))⁻¹ := by
    intro k
    induction k with
    | zero => simp [mill, D_zero]
    | succ k ih =>
      have := U_reciprocity h₁ h₂ h₃ hch e₁ e₂ e₃ (k • Q) Q
      rw [mill, mill, mill, pow_succ, succ_nsmul]
      calc mill (U h₁) Q k * U h₁ (k • Q) Q * (mill (U h₂) Q k * U h₂ (k • Q) Q) * (mill (U h₃) Q k * U h₃ (k • Q) Q)
          = (mill (U h₁) Q k * mill (U h₂) Q k * mill (U h₃) Q k) *
            (U h₁ (k • Q) Q * U h₂ (k • Q) Q * U h₃ (k • Q) Q) := by
            simp only [mul_assoc, mul_left_comm, mul_comm]
        _ = D m n Q ^ k * (D m n (k • Q))⁻¹ * (D m n (k • Q) * D m n Q * (D m n (k • Q + Q))⁻¹) := by rw [ih, this]
        _ = _ := by group
  rw [tele, psi_torsion hQ, D_psi, pow_p (D_pow m n Q r_dvd), mul_inv_cancel]

/-- The pairing as a unit. -/
noncomputable def M (Q : G2) : G1 → Fp12ˣ
  | .zero => 1
  | .some _ _ h => mill (U (Pt.nonsingular_iff.1 h)) Q xPar

theorem M_zero (Q : G2) : M Q 0 = 1 := rfl

theorem M_mk (Q : G2) {x y : Fp} (h : y ^ 2 = x ^ 3 + b1) : M Q (Pt.mk x y h) = mill (U h) Q xPar := rfl

theorem M_neg (Q : G2) (P : G1) : M Q (-P) = (M Q P)⁻¹ := by
  rcases Pt.cases P with rfl | ⟨x, y, h, rfl⟩
  · rw [neg_zero, M_zero, inv_one]
  · rw [Pt.neg_mk, M_mk, M_mk, ← mill_neg]

theorem M_add_left {A B : G2} (hA : r • A = 0) (hB : r • B = 0) (P : G1) : M (A + B) P = M A P * M B P := by
  rcases Pt.cases P with rfl | ⟨x, y, h, rfl⟩
  · rw [M_zero, M_zero, M_zero, one_mul]
  · exact mill_add_left h hA hB

theorem M_add_right {Q : G2} (hQ : r • Q = 0) (P₁ P₂ : G1) : M Q (P₁ + P₂) = M Q P₁ * M Q P₂ := by
  rcases Pt.cases P₁ with rfl | ⟨x, y, h, rfl⟩
  · rw [zero_add, M_zero, one_mul]
  rcases Pt.cases P₂ with rfl | ⟨x', y', h', rfl⟩
  · rw [add_zero, M_zero, mul_one]
  by_cases hc : x = x' ∧ y = -y'
  · obtain ⟨rfl, rfl⟩ := hc
    have : Pt.mk x (-y') h = -Pt.mk x y' h' := by rw [Pt.neg_mk]
    rw [this, neg_add_cancel, M_neg, M_zero, inv_mul_cancel]
  · obtain ⟨l, k, x₃, y₃, h₃, e, hch, e1, e2, e3, -⟩ := chord_exists h h' hc
    have := mill_chord h h' (neg_on h₃) hch e1 e2 e3 hQ
    rw [mill_neg h₃, mul_inv_eq_one] at this
    rw [e, M_mk, M_mk, M_mk, this]

/-- The pairing of the specification. -/
theorem pairing_eq (Q : G2) (P : G1) : pairing Q P = (M Q P : Fp12ˣ) := by
  rcases Pt.cases P with rfl | ⟨x, y, h, rfl⟩
  · rw [M_zero]; rfl
  · rw [M_mk, mill_eq]; rfl

end Spec.B383
