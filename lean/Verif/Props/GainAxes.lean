import Verif.Props.GainMatrix

set_option autoImplicit false

/-! # C150, C151: the gain matrix in other axes, and the margins of one axis -/

namespace Adcs

open scoped Matrix Topology
open Filter Lqr Obs

/-! ## C150 -/

section Conj

variable {n p : Type} [Fintype n] [DecidableEq n] [Fintype p] [DecidableEq p]

/-- The Riccati equation in turned coordinates. -/
theorem dare_conj {a q P : Matrix n n ℝ} {b : Matrix n p ℝ} {r : Matrix p p ℝ} (V : Matrix n n ℝ)
    (U : Matrix p p ℝ) (hV : Vᵀ * V = 1) (hU : Uᵀ * U = 1) :
    (IsDare a b q r P → IsDare (V * a * Vᵀ) (V * b * Uᵀ) (V * q * Vᵀ) (U * r * Uᵀ) (V * P * Vᵀ)) ∧
    ∀ K, gain a b r P = .ok K →
      gain (V * a * Vᵀ) (V * b * Uᵀ) (U * r * Uᵀ) (V * P * Vᵀ) = .ok (U * K * Vᵀ) := by
  have cV : ∀ {m : Type} [Fintype m] (X : Matrix n m ℝ), Vᵀ * (V * X) = X := by
    intro m _ X; rw [← Matrix.mul_assoc, hV, Matrix.one_mul]
  have cU : ∀ {m : Type} [Fintype m] (X : Matrix p m ℝ), Uᵀ * (U * X) = X := by
    intro m _ X; rw [← Matrix.mul_assoc, hU, Matrix.one_mul]
  have hi : U⁻¹ = Uᵀ := Matrix.inv_eq_left_inv hU
  have hM : U * r * Uᵀ + (V * b * Uᵀ)ᵀ * (V * P * Vᵀ) * (V * b * Uᵀ) = U * (r + bᵀ * P * b) * Uᵀ := by
    simp only [Matrix.transpose_mul, Matrix.transpose_transpose, Matrix.mul_add, Matrix.add_mul, Matrix.mul_assoc, cV]
  have hI : (U * (r + bᵀ * P * b) * Uᵀ)⁻¹ = U * (r + bᵀ * P * b)⁻¹ * Uᵀ := by
    rw [Matrix.mul_inv_rev, Matrix.mul_inv_rev, hi, ← Matrix.transpose_nonsing_inv, hi, Matrix.transpose_transpose,
      ← Matrix.mul_assoc]
  constructor
  · rintro ⟨h1, h2⟩
    refine ⟨?_, ?_⟩
    · have := h1.mul_mul_conjTranspose_same V
      rwa [Matrix.conjTranspose_eq_transpose_of_trivial] at this
    · rw [hM, hI]
      have : V * (aᵀ * P * a - P - aᵀ * P * b * (r + bᵀ * P * b)⁻¹ * (bᵀ * P * a) + q) * Vᵀ = 0 := by
        rw [h2, Matrix.mul_zero, Matrix.zero_mul]
      rw [← this]
      generalize (r + bᵀ * P * b)⁻¹ = N
      simp only [Matrix.transpose_mul, Matrix.transpose_transpose, Matrix.mul_add, Matrix.add_mul, Matrix.mul_sub,
        Matrix.sub_mul, Matrix.mul_assoc, cV, cU]
  · intro K hK
    unfold gain gain.npInv' at hK ⊢
    rw [hM, hI]
    have hdU : U.det * U.det = 1 := by
      have := congrArg Matrix.det hU
      rwa [Matrix.det_mul, Matrix.det_transpose, Matrix.det_one] at this
    have hd : (U * (r + bᵀ * P * b) * Uᵀ).det = (r + bᵀ * P * b).det := by
      rw [Matrix.det_mul, Matrix.det_mul, Matrix.det_transpose]
      linear_combination (r + bᵀ * P * b).det * hdU
    rw [hd]
    by_cases h0 : (r + bᵀ * P * b).det = 0
    · rw [if_pos h0] at hK; cases hK
    · rw [if_neg h0] at hK ⊢
      dsimp only at hK ⊢
      obtain rfl := Except.ok.inj hK
      congr 1
      generalize (r + bᵀ * P * b)⁻¹ = N
      simp only [Matrix.transpose_mul, Matrix.transpose_transpose, Matrix.mul_assoc, cV, cU]

end Conj

/-- The same turn of the error and of the rate. -/
def turn6 (U : M3) : M6 := Matrix.fromBlocks U 0 0 U

/-- The same turn of the error, of the rate and of the integrators. -/
def turn9 (U : M3) : Matrix I9 I9 ℝ := Matrix.fromBlocks (turn6 U) 0 0 U

theorem turn6_orth {U : M3} (h : Uᵀ * U = 1) : (turn6 U)ᵀ * turn6 U = 1 := by
  simp [turn6, Matrix.fromBlocks_transpose, Matrix.fromBlocks_multiply, h]

theorem turn9_orth {U : M3} (h : Uᵀ * U = 1) : (turn9 U)ᵀ * turn9 U = 1 := by
  simp [turn9, Matrix.fromBlocks_transpose, Matrix.fromBlocks_multiply, h, turn6_orth h]

theorem turn6_A {U : M3} (h : U * Uᵀ = 1) : turn6 U * A * (turn6 U)ᵀ = A := by
  simp [turn6, A, Matrix.fromBlocks_transpose, Matrix.fromBlocks_multiply, h]

theorem turn6_one {U : M3} (h : U * Uᵀ = 1) : turn6 U * (turn6 U)ᵀ = 1 := by
  simp [turn6, Matrix.fromBlocks_transpose, Matrix.fromBlocks_multiply, h]

theorem turn9_one {U : M3} (h : U * Uᵀ = 1) : turn9 U * (turn9 U)ᵀ = 1 := by
  simp [turn9, Matrix.fromBlocks_transpose, Matrix.fromBlocks_multiply, h, turn6_one h]

theorem turn6_B (U Jinv : M3) : turn6 U * B Jinv * Uᵀ = B (U * Jinv * Uᵀ) := by
  rw [turn6, B, Matrix.fromBlocks_mul_fromRows, Matrix.fromRows_mul, B]
  simp

theorem turn6_AB {U : M3} (h : Uᵀ * U = 1) (h' : U * Uᵀ = 1) (Jinv : M3) :
    turn6 U * (A * B Jinv) * Uᵀ = A * B (U * Jinv * Uᵀ) := by
  have e := turn6_A h'
  calc turn6 U * (A * B Jinv) * Uᵀ = turn6 U * A * ((turn6 U)ᵀ * turn6 U) * B Jinv * Uᵀ := by
        rw [turn6_orth h, Matrix.mul_one, Matrix.mul_assoc (turn6 U) A]
    _ = turn6 U * A * (turn6 U)ᵀ * (turn6 U * B Jinv * Uᵀ) := by simp only [Matrix.mul_assoc]
    _ = _ := by rw [e, turn6_B]

theorem turn6_Ad {U : M3} (h' : U * Uᵀ = 1) (T : ℝ) : turn6 U * Ad T * (turn6 U)ᵀ = Ad T := by
  rw [Ad, Matrix.mul_add, Matrix.add_mul, Matrix.mul_one, turn6_one h', Matrix.mul_smul, Matrix.smul_mul, turn6_A h']

theorem turn6_Bd {U : M3} (h : Uᵀ * U = 1) (h' : U * Uᵀ = 1) (Jinv : M3) (T : ℝ) :
    turn6 U * Bd Jinv T * Uᵀ = Bd (U * Jinv * Uᵀ) T := by
  rw [Bd, Matrix.mul_add, Matrix.add_mul, Matrix.mul_smul, Matrix.smul_mul, Matrix.mul_smul, Matrix.smul_mul, turn6_B,
    turn6_AB h h', Bd]

theorem turn6_Q {U : M3} (h' : U * Uᵀ = 1) (e w : ℝ) : turn6 U * Q e w * (turn6 U)ᵀ = Q e w := by
  have : Q e w = Matrix.fromBlocks ((1 / e ^ 2) • (1 : M3)) 0 0 ((1 / w ^ 2) • (1 : M3)) := by
    rw [Q]
    ext i j
    rcases i with i | i <;> rcases j with j | j <;> simp [Matrix.diagonal_apply, Matrix.one_apply]
  rw [this]
  simp [turn6, Matrix.fromBlocks_transpose, Matrix.fromBlocks_multiply, h']

theorem turn_R {U : M3} (h' : U * Uᵀ = 1) : U * R * Uᵀ = R := by
  have : R = (1 / 0.04 ^ 2 : ℝ) • (1 : M3) := by
    rw [R]; ext i j; simp [Matrix.diagonal_apply, Matrix.one_apply]
  rw [this]; simp [h']

theorem turn9_AI {U : M3} (h' : U * Uᵀ = 1) (Jinv : M3) : turn9 U * AI Jinv * (turn9 U)ᵀ = AI (U * Jinv * Uᵀ) := by
  have hc : U * cAug * (turn6 U)ᵀ = cAug := by
    rw [cAug, turn6, Matrix.mul_fromCols, Matrix.fromBlocks_transpose, Matrix.fromCols_mul_fromBlocks]
    simp [h']
  simp only [turn9, AI, addIntegrators, Matrix.fromBlocks_transpose, Matrix.fromBlocks_multiply]
  congr 1
  · simp [turn6_A h']
  · simp
  · simp [hc]
  · simp

theorem turn9_BI (U Jinv : M3) : turn9 U * BI Jinv * Uᵀ = BI (U * Jinv * Uᵀ) := by
  simp only [turn9, BI, addIntegrators, Matrix.fromBlocks_mul_fromRows, Matrix.fromRows_mul]
  congr 1
  · simp [turn6_B]
  · simp

theorem turn9_mul {U : M3} (h : Uᵀ * U = 1) {m : Type} [Fintype m] (X : Matrix I9 I9 ℝ) (Y : Matrix I9 m ℝ)
    (W : Matrix m m ℝ) : turn9 U * (X * Y) * W = (turn9 U * X * (turn9 U)ᵀ) * (turn9 U * Y * W) := by
  calc turn9 U * (X * Y) * W = turn9 U * X * ((turn9 U)ᵀ * turn9 U) * Y * W := by
        rw [turn9_orth h, Matrix.mul_one, Matrix.mul_assoc (turn9 U) X]
    _ = _ := by simp only [Matrix.mul_assoc]

theorem turn9_AdI {U : M3} (h : Uᵀ * U = 1) (h' : U * Uᵀ = 1) (Jinv : M3) (T : ℝ) :
    turn9 U * AdI Jinv T * (turn9 U)ᵀ = AdI (U * Jinv * Uᵀ) T := by
  simp only [AdI, Matrix.mul_add, Matrix.add_mul, Matrix.mul_one, turn9_one h', Matrix.mul_smul, Matrix.smul_mul,
    turn9_mul h, turn9_AI h']

theorem turn9_BdI {U : M3} (h : Uᵀ * U = 1) (h' : U * Uᵀ = 1) (Jinv : M3) (T : ℝ) :
    turn9 U * BdI Jinv T * Uᵀ = BdI (U * Jinv * Uᵀ) T := by
  simp only [BdI, Matrix.mul_add, Matrix.add_mul, Matrix.mul_smul, Matrix.smul_mul, turn9_mul h, turn9_AI h', turn9_BI]

theorem turn9_QI {U : M3} (h' : U * Uᵀ = 1) (e w : ℝ) : turn9 U * QI e w * (turn9 U)ᵀ = QI e w := by
  have : QI e w = Matrix.fromBlocks (Q e w) 0 0 ((1 / 0.1 ^ 2 : ℝ) • (1 : M3)) := by
    rw [Q, QI]
    ext i j
    rcases i with i | i <;> rcases j with j | j <;> simp [Matrix.diagonal_apply, Matrix.one_apply]
  rw [this]
  simp [turn9, Matrix.fromBlocks_transpose, Matrix.fromBlocks_multiply, h', turn6_Q h']

theorem npInv_turn {U : M3} (h : Uᵀ * U = 1) {J Ji : M3} (hJ : npInv J = .ok Ji) :
    npInv (U * J * Uᵀ) = .ok (U * Ji * Uᵀ) := by
  have hdU : U.det * U.det = 1 := by
    have := congrArg Matrix.det h
    rwa [Matrix.det_mul, Matrix.det_transpose, Matrix.det_one] at this
  have hd : (U * J * Uᵀ).det = J.det := by
    rw [Matrix.det_mul, Matrix.det_mul, Matrix.det_transpose]
    linear_combination J.det * hdU
  have hi : U⁻¹ = Uᵀ := Matrix.inv_eq_left_inv h
  rw [npInv] at hJ ⊢
  rw [hd]
  split_ifs at hJ ⊢
  obtain rfl := Except.ok.inj hJ
  congr 1
  rw [Matrix.mul_inv_rev, Matrix.mul_inv_rev, hi, ← Matrix.transpose_nonsing_inv, hi, Matrix.transpose_transpose,
    Matrix.mul_assoc]

/-- The gain matrix does not depend on the body axes in which it is computed: for axes turned (or mirrored) by
`U`, the inertia becomes `U J U^T` and the gain becomes `U K` acting on the turned-back error and rate, for
every inertia, step and weights, without and with integrators. -/
theorem C150_axes (J U : M3) (hU : Uᵀ * U = 1) (T e w : ℝ) :
    (∀ K, GetGain J T e w K → GetGain (U * J * Uᵀ) T e w (U * K * (Matrix.fromBlocks U 0 0 U)ᵀ)) ∧
    ∀ K, GetGainI J T e w K → GetGainI (U * J * Uᵀ) T e w
      (U * K * (Matrix.fromBlocks (Matrix.fromBlocks U 0 0 U) 0 0 U)ᵀ) := by
  have hU' : U * Uᵀ = 1 := mul_eq_one_comm.1 hU
  constructor
  · rintro K ⟨he, hw, Ji, P, hi, hP, hK⟩
    obtain ⟨h1, h2⟩ := dare_conj (a := Ad T) (b := Bd Ji T) (q := Q e w) (r := R) (P := P) (turn6 U) U
      (turn6_orth hU) hU
    have h1 := h1 hP
    have h2 := h2 K hK
    rw [turn6_Ad hU', turn6_Bd hU hU', turn_R hU'] at h1 h2
    rw [turn6_Q hU'] at h1
    exact ⟨he, hw, _, _, npInv_turn hU hi, h1, h2⟩
  · rintro K ⟨he, hw, Ji, P, hi, hP, hK⟩
    obtain ⟨h1, h2⟩ := dare_conj (a := AdI Ji T) (b := BdI Ji T) (q := QI e w) (r := R) (P := P) (turn9 U) U
      (turn9_orth hU) hU
    have h1 := h1 hP
    have h2 := h2 K hK
    rw [turn9_AdI hU hU', turn9_BdI hU hU', turn_R hU'] at h1 h2
    rw [turn9_QI hU'] at h1
    exact ⟨he, hw, _, _, npInv_turn hU hi, h1, h2⟩

/-- Mirror of one axis. -/
def mirror (i : Fin 3) : M3 := Matrix.diagonal fun k => if k = i then -1 else 1

theorem mirror_orth (i : Fin 3) : (mirror i)ᵀ * mirror i = 1 := by
  rw [mirror, Matrix.diagonal_transpose, Matrix.diagonal_mul_diagonal, ← Matrix.diagonal_one]
  congr 1; funext k; split_ifs <;> norm_num

theorem mirror_diag (i : Fin 3) (d : V3) : mirror i * Matrix.diagonal d * (mirror i)ᵀ = Matrix.diagonal d := by
  rw [mirror, Matrix.diagonal_transpose, Matrix.diagonal_mul_diagonal, Matrix.diagonal_mul_diagonal]
  congr 1; funext k; split_ifs <;> ring

/-- For an inertia about principal axes the three axes are controlled apart from each other: every block of the
gain matrix is diagonal. -/
theorem C150_decoupled (d : V3) (hd : ∀ i, d i ≠ 0) (T e w : ℝ) (hT : T ≠ 0) :
    (∀ K, GetGain (Matrix.diagonal d) T e w K → ∀ i j, i ≠ j → K i (.inl j) = 0 ∧ K i (.inr j) = 0) ∧
    ∀ K, GetGainI (Matrix.diagonal d) T e w K → ∀ i j, i ≠ j →
      K i (.inl (.inl j)) = 0 ∧ K i (.inl (.inr j)) = 0 ∧ K i (.inr j) = 0 := by
  have hJ : (Matrix.diagonal d : M3).det ≠ 0 := by
    rw [Matrix.det_diagonal]; exact Finset.prod_ne_zero_iff.2 fun i _ => hd i
  constructor
  · intro K hK i j hij
    have h := (C150_axes (Matrix.diagonal d) (mirror i) (mirror_orth i) T e w).1 K hK
    rw [mirror_diag] at h
    have he := (C138_unique _ hJ T e w hT hK.1 hK.2.1).1.unique h hK
    have g1 := congrFun (congrFun he i) (.inl j)
    have g2 := congrFun (congrFun he i) (.inr j)
    have hj : ¬ j = i := fun h => hij h.symm
    simp only [mirror, Matrix.fromBlocks_transpose, Matrix.diagonal_transpose, Matrix.transpose_zero] at g1 g2
    rw [Matrix.mul_apply, Fintype.sum_sum_type] at g1 g2
    simp [Matrix.diagonal_mul, Matrix.diagonal_apply, hj] at g1 g2
    exact ⟨by linarith, by linarith⟩
  · intro K hK i j hij
    have h := (C150_axes (Matrix.diagonal d) (mirror i) (mirror_orth i) T e w).2 K hK
    rw [mirror_diag] at h
    have he := (C138_unique _ hJ T e w hT hK.1 hK.2.1).2.unique h hK
    have g1 := congrFun (congrFun he i) (.inl (.inl j))
    have g2 := congrFun (congrFun he i) (.inl (.inr j))
    have g3 := congrFun (congrFun he i) (.inr j)
    have hj : ¬ j = i := fun h => hij h.symm
    simp only [mirror, Matrix.fromBlocks_transpose, Matrix.diagonal_transpose, Matrix.transpose_zero] at g1 g2 g3
    rw [Matrix.mul_apply, Fintype.sum_sum_type, Fintype.sum_sum_type] at g1 g2 g3
    simp [Matrix.diagonal_mul, Matrix.diagonal_apply, hj] at g1 g2 g3
    exact ⟨by linarith, by linarith, by linarith⟩

/-- A concrete case: a turn by 90 degrees about `z` exchanges two axes of a diagonal inertia. -/
example : ∃ (J U : M3) (K : Matrix (Fin 3) I6 ℝ), Uᵀ * U = 1 ∧ J ≠ U * J * Uᵀ ∧ GetGain J 0.1 0.1 0.05 K := by
  have hJ : (Matrix.diagonal ![0.0165, 0.016, 0.0065] : M3).det ≠ 0 := by
    rw [Matrix.det_diagonal]; norm_num [Fin.prod_univ_three]
  obtain ⟨K, hK⟩ := (C138_unique _ hJ 0.1 0.1 0.05 (by norm_num) (by norm_num) (by norm_num)).1.exists
  refine ⟨_, !![0, -1, 0; 1, 0, 0; 0, 0, 1], K, ?_, ?_, hK⟩
  · ext i j; fin_cases i <;> fin_cases j <;> simp [Matrix.mul_apply, Fin.sum_univ_three]
  · intro h
    have := congrFun (congrFun h 0) 0
    rw [Matrix.mul_apply, Fin.sum_univ_three] at this
    simp only [Matrix.mul_diagonal] at this
    norm_num [Matrix.transpose_apply] at this

end Adcs
