import Verif.Proofs.Lqr
import Verif.Proofs.Basic
import Mathlib.Analysis.Calculus.Deriv.Prod
import Mathlib.Analysis.Calculus.Deriv.Pow
import Mathlib.Analysis.Calculus.Deriv.Mul
import Mathlib.Analysis.Calculus.Deriv.Add
import Mathlib.Algebra.Order.Star.Real
import Mathlib.Topology.Order.MonotoneConvergence
import Mathlib.Analysis.SpecialFunctions.Sqrt

set_option autoImplicit false

/-! # C119, C120, C122: the gain matrix of the simulation's controller -/

namespace Adcs

open scoped Matrix Topology
open Filter Lqr Obs

/-- The cost of a finite stretch: states from `x` on under the inputs `u`, with the terminal cost `P`. -/
noncomputable def Spec.lqrCost {n p : Type} [Fintype n] [Fintype p] (a : Matrix n n ℝ) (b : Matrix n p ℝ)
    (q P : Matrix n n ℝ) (r : Matrix p p ℝ) : List (p → ℝ) → (n → ℝ) → ℝ
  | [], x => x ⬝ᵥ P *ᵥ x
  | u :: us, x => x ⬝ᵥ q *ᵥ x + u ⬝ᵥ r *ᵥ u + Spec.lqrCost a b q P r us (a *ᵥ x + b *ᵥ u)

/-- The first `N` inputs of the feedback `u = -K x`. -/
noncomputable def Spec.feedback {n p : Type} [Fintype n] [Fintype p] (a : Matrix n n ℝ) (b : Matrix n p ℝ)
    (K : Matrix p n ℝ) : ℕ → (n → ℝ) → List (p → ℝ)
  | 0, _ => []
  | N + 1, x => -(K *ᵥ x) :: Spec.feedback a b K N (a *ᵥ x + b *ᵥ (-(K *ᵥ x)))

/-- `R` is positive definite. -/
theorem lqrR_posDef : R.PosDef := by
  rw [R, Matrix.posDef_diagonal_iff]; intro i; norm_num

/-- C120: the feedback with the gain has the least cost over every horizon, whatever the inputs are compared
with it, and that cost is the quadratic form of `P`. -/
theorem C120_optimal {n p : Type} [Fintype n] [Fintype p] [DecidableEq n] [DecidableEq p]
    {a : Matrix n n ℝ} {b : Matrix n p ℝ} {q P : Matrix n n ℝ} {r : Matrix p p ℝ} (hr : r.PosDef)
    (hP : IsDare a b q r P) :
    ∃ K, gain a b r P = .ok K ∧ ∀ x,
      (∀ us, x ⬝ᵥ P *ᵥ x ≤ Spec.lqrCost a b q P r us x) ∧
      ∀ N, Spec.lqrCost a b q P r (Spec.feedback a b K N x) x = x ⬝ᵥ P *ᵥ x := by
  refine ⟨_, dare_gain hr hP, fun x => ⟨fun us => ?_, fun N => ?_⟩⟩
  · induction us generalizing x with
    | nil => exact le_rfl
    | cons u us ih =>
      have h1 := ih (a *ᵥ x + b *ᵥ u)
      have h2 := dare_square hr hP (dare_gain hr hP) x u
      have h3 := (dare_S hr hP).posSemidef.dotProduct_mulVec_nonneg
        (u + ((r + bᵀ * P * b)⁻¹ * bᵀ * P * a) *ᵥ x)
      rw [star_trivial] at h3
      rw [Spec.lqrCost]
      linarith
  · induction N generalizing x with
    | zero => rfl
    | succ N ih =>
      have h2 := dare_square hr hP (dare_gain hr hP) x
        (-(((r + bᵀ * P * b)⁻¹ * bᵀ * P * a) *ᵥ x))
      rw [neg_add_cancel, zero_dotProduct, add_zero] at h2
      rw [Spec.feedback, Spec.lqrCost, ih, h2]

/-- C119 for any system with a positive diagonal state cost. -/
theorem lqr_stable {n p : Type} [Fintype n] [Fintype p] [DecidableEq n] [DecidableEq p]
    {a : Matrix n n ℝ} {b : Matrix n p ℝ} {w : n → ℝ} (hw : ∀ i, 0 < w i) {P : Matrix n n ℝ}
    {r : Matrix p p ℝ} (hr : r.PosDef) (hP : IsDare a b (Matrix.diagonal w) r P) {K : Matrix p n ℝ}
    (hK : gain a b r P = .ok K) (x : n → ℝ) :
    Tendsto (fun k => ((a - b * K) ^ k) *ᵥ x) atTop (𝓝 0) := by
  set y : ℕ → n → ℝ := fun k => ((a - b * K) ^ k) *ᵥ x with hy
  have hstep : ∀ k, y (k + 1) = a *ᵥ y k + b *ᵥ (-(K *ᵥ y k)) := fun k => by
    rw [hy]
    simp only [pow_succ', ← Matrix.mulVec_mulVec, Matrix.sub_mulVec, Matrix.mulVec_neg]
    rw [sub_eq_add_neg]
  set V : ℕ → ℝ := fun k => y k ⬝ᵥ P *ᵥ y k with hV
  have hV0 : ∀ k, 0 ≤ V k := fun k => by
    have := hP.psd.dotProduct_mulVec_nonneg (y k)
    rwa [star_trivial] at this
  have hq : ∀ z : n → ℝ, z ⬝ᵥ Matrix.diagonal w *ᵥ z = ∑ i, w i * z i ^ 2 := fun z => by
    simp only [dotProduct, Matrix.mulVec_diagonal]
    exact Finset.sum_congr rfl fun i _ => by ring
  have hdec : ∀ k, ∑ i, w i * y k i ^ 2 ≤ V k - V (k + 1) := fun k => by
    have h := dare_square hr hP hK (y k) (-(K *ᵥ y k))
    rw [neg_add_cancel, zero_dotProduct, add_zero, ← hstep, hq] at h
    have h3 := hr.posSemidef.dotProduct_mulVec_nonneg (-(K *ᵥ y k))
    rw [star_trivial] at h3
    simp only [hV]
    linarith
  have hsq0 : ∀ k, 0 ≤ ∑ i, w i * y k i ^ 2 := fun k =>
    Finset.sum_nonneg fun i _ => mul_nonneg (hw i).le (sq_nonneg _)
  have hanti : Antitone V := antitone_nat_of_succ_le fun k => by linarith [hdec k, hsq0 k]
  have hlim := tendsto_atTop_ciInf hanti ⟨0, by rintro _ ⟨k, rfl⟩; exact hV0 k⟩
  have hdiff : Tendsto (fun k => V k - V (k + 1)) atTop (𝓝 0) := by
    have := hlim.sub (hlim.comp (tendsto_add_atTop_nat 1))
    rwa [sub_self] at this
  rw [tendsto_pi_nhds]
  intro i
  have hi : Tendsto (fun k => y k i ^ 2) atTop (𝓝 0) := by
    have hb : Tendsto (fun k => (V k - V (k + 1)) / w i) atTop (𝓝 0) := by
      have := hdiff.div_const (w i)
      rwa [zero_div] at this
    refine squeeze_zero (fun k => sq_nonneg _) (fun k => ?_) hb
    rw [le_div_iff₀ (hw i)]
    have := Finset.single_le_sum (f := fun i => w i * y k i ^ 2)
      (fun i _ => mul_nonneg (hw i).le (sq_nonneg _)) (Finset.mem_univ i)
    have h2 := hdec k
    linarith
  have habs := hi.sqrt
  simp only [Real.sqrt_sq_eq_abs, Real.sqrt_zero] at habs
  exact (tendsto_zero_iff_abs_tendsto_zero _).2 habs

/-- C119: with the gain, the sampled design model comes to rest at zero error from every state. -/
theorem C119_stable (Jinv : M3) (Ts : ℝ) {maxError maxRate : ℝ} (h1 : maxError ≠ 0) (h2 : maxRate ≠ 0)
    {P : M6} (hP : IsDare (Ad Ts) (Bd Jinv Ts) (Q maxError maxRate) R P) :
    ∃ K, gain (Ad Ts) (Bd Jinv Ts) R P = .ok K ∧
      ∀ x, Tendsto (fun k => ((Ad Ts - Bd Jinv Ts * K) ^ k) *ᵥ x) atTop (𝓝 0) := by
  refine ⟨_, dare_gain lqrR_posDef hP, fun x => ?_⟩
  refine lqr_stable (w := Sum.elim (fun _ => 1 / maxError ^ 2) fun _ => 1 / maxRate ^ 2) ?_ lqrR_posDef hP
    (dare_gain lqrR_posDef hP) x
  rintro (i | i) <;> simp <;> positivity

theorem lqrA_sq : A * A = 0 := by
  rw [A, Matrix.fromBlocks_multiply]; simp

/-- C119: the sampled model is exact: under a constant torque it is the solution of the continuous one. -/
theorem C119_sampling (Jinv : M3) (x : I6 → ℝ) (u : V3) (t : ℝ) :
    HasDerivAt (fun s => Ad s *ᵥ x + Bd Jinv s *ᵥ u)
      (A *ᵥ (Ad t *ᵥ x + Bd Jinv t *ᵥ u) + B Jinv *ᵥ u) t ∧
    Ad 0 *ᵥ x + Bd Jinv 0 *ᵥ u = x := by
  constructor
  · have hL : A *ᵥ (Ad t *ᵥ x + Bd Jinv t *ᵥ u) + B Jinv *ᵥ u =
        A *ᵥ x + (B Jinv *ᵥ u + t • (A * B Jinv) *ᵥ u) := by
      simp only [Ad, Bd, Matrix.mulVec_add, Matrix.add_mulVec, Matrix.one_mulVec, Matrix.smul_mulVec,
        Matrix.mulVec_smul, Matrix.mulVec_mulVec, ← Matrix.mul_assoc, lqrA_sq, Matrix.zero_mul,
        Matrix.zero_mulVec, smul_zero, add_zero]
      abel
    rw [hL, hasDerivAt_pi]
    intro i
    simp only [Ad, Bd, Matrix.add_mulVec, Matrix.one_mulVec, Matrix.smul_mulVec, Pi.add_apply,
      Pi.smul_apply, smul_eq_mul]
    have e1 : HasDerivAt (fun s : ℝ => s * (A *ᵥ x) i) ((A *ᵥ x) i) t := by
      simpa using (hasDerivAt_id t).mul_const ((A *ᵥ x) i)
    have e2 : HasDerivAt (fun s : ℝ => s * (B Jinv *ᵥ u) i) ((B Jinv *ᵥ u) i) t := by
      simpa using (hasDerivAt_id t).mul_const ((B Jinv *ᵥ u) i)
    have e3 : HasDerivAt (fun s : ℝ => s ^ 2 / 2 * ((A * B Jinv) *ᵥ u) i)
        (t * ((A * B Jinv) *ᵥ u) i) t := by
      have := ((hasDerivAt_pow 2 t).div_const 2).mul_const (((A * B Jinv) *ᵥ u) i)
      simpa using this
    exact (e1.const_add (x i)).fun_add (e2.fun_add e3)
  · simp [Ad, Bd]

/-! A solution of the Riccati equation, for unit inertia and a time step of two seconds. -/

/-- The solution. -/
noncomputable def exP : M6 :=
  Matrix.fromBlocks ((25 : ℝ) • 1) ((25 : ℝ) • 1) ((25 : ℝ) • 1) ((225 : ℝ) • 1)

theorem exP_psd : exP.PosSemidef := by
  have h : exP = (Matrix.fromBlocks ((5 : ℝ) • 1) ((5 : ℝ) • 1) 0 0 : M6)ᴴ *
      (Matrix.fromBlocks ((5 : ℝ) • 1) ((5 : ℝ) • 1) 0 0 : M6) +
      (Matrix.diagonal (Sum.elim (fun _ => 0) fun _ => 200) : M6) := by
    rw [Matrix.conjTranspose_eq_transpose_of_trivial, Matrix.fromBlocks_transpose,
      Matrix.fromBlocks_multiply, ← Matrix.fromBlocks_diagonal, Matrix.fromBlocks_add, exP]
    congr 1 <;> ext i j <;> fin_cases i <;> fin_cases j <;> simp <;> norm_num
  rw [h]
  refine (Matrix.posSemidef_conjTranspose_mul_self _).add ?_
  rw [Matrix.posSemidef_diagonal_iff]
  rintro (i | i) <;> simp

theorem exP_dare : IsDare (Ad 2) (Bd 1 2) (Q (Real.sqrt (22/75)) (Real.sqrt (3/325))) R exP := by
  have hA : Ad 2 = (Matrix.fromBlocks 1 1 0 1 : M6) := by
    rw [Ad, A, ← Matrix.fromBlocks_one, Matrix.fromBlocks_smul, Matrix.fromBlocks_add]
    congr 1 <;> simp [smul_smul]
    norm_num
  have hB : Bd 1 2 = Matrix.fromRows (1 : M3) ((2 : ℝ) • 1) := by
    have : A * B 1 = Matrix.fromRows ((0.5 : ℝ) • 1 : M3) 0 := by
      rw [A, B, Matrix.fromBlocks_mul_fromRows]; simp
    rw [Bd, this, B]
    ext (i | i) j
    · simp [Matrix.one_apply]; norm_num
    · simp
  have hR : R = (625 : ℝ) • 1 := by
    ext i j; simp [R, Matrix.diagonal_apply, Matrix.one_apply]; norm_num
  have hQ : Q (Real.sqrt (22/75)) (Real.sqrt (3/325)) =
      Matrix.fromBlocks ((75/22 : ℝ) • 1) 0 0 ((325/3 : ℝ) • 1) := by
    rw [Q, Real.sq_sqrt (by norm_num), Real.sq_sqrt (by norm_num), ← Matrix.fromBlocks_diagonal]
    congr 1 <;> ext i j <;> simp [Matrix.diagonal_apply, Matrix.one_apply]
  have hPA : exP * Ad 2 = Matrix.fromBlocks ((25 : ℝ) • 1) ((50 : ℝ) • 1) ((25 : ℝ) • 1) ((250 : ℝ) • 1) := by
    rw [exP, hA, Matrix.fromBlocks_multiply]
    simp only [mul_one, mul_zero, add_zero, ← add_smul]
    norm_num
  have hBt : (Bd 1 2)ᵀ = Matrix.fromCols (1 : M3) ((2 : ℝ) • 1) := by
    rw [hB, Matrix.transpose_fromRows]; simp
  have hBPA : (Bd 1 2)ᵀ * (exP * Ad 2) = Matrix.fromCols ((75 : ℝ) • 1 : M3) ((550 : ℝ) • 1) := by
    rw [hPA, hBt, Matrix.fromCols_mul_fromBlocks]
    simp only [one_mul, smul_mul_smul_comm, mul_one, ← add_smul]
    norm_num
  have hBP : (Bd 1 2)ᵀ * exP = Matrix.fromCols ((75 : ℝ) • 1 : M3) ((475 : ℝ) • 1) := by
    rw [exP, hBt, Matrix.fromCols_mul_fromBlocks]
    simp only [one_mul, smul_mul_smul_comm, mul_one, ← add_smul]
    norm_num
  have hS : R + (Bd 1 2)ᵀ * exP * Bd 1 2 = (1650 : ℝ) • 1 := by
    rw [hBP, hB, Matrix.fromCols_mul_fromRows, hR]
    simp only [one_mul, smul_mul_smul_comm, mul_one, ← add_smul]
    norm_num
  have hAPB : (Ad 2)ᵀ * exP * Bd 1 2 = Matrix.fromRows ((75 : ℝ) • 1 : M3) ((550 : ℝ) • 1) := by
    have hPt : exPᵀ = exP := by simp [exP, Matrix.fromBlocks_transpose]
    have := congrArg Matrix.transpose hBPA
    rw [Matrix.transpose_mul, Matrix.transpose_mul, hPt, Matrix.transpose_transpose,
      Matrix.transpose_fromCols] at this
    simpa using this
  have hAPA : (Ad 2)ᵀ * exP * Ad 2 =
      Matrix.fromBlocks ((25 : ℝ) • 1) ((50 : ℝ) • 1) ((50 : ℝ) • 1) ((300 : ℝ) • 1) := by
    rw [Matrix.mul_assoc, hPA, hA, Matrix.fromBlocks_transpose, Matrix.fromBlocks_multiply]
    simp only [Matrix.transpose_one, Matrix.transpose_zero, one_mul, zero_mul, add_zero, ← add_smul]
    norm_num
  have hinv : ((1650 : ℝ) • (1 : M3))⁻¹ = (1/1650 : ℝ) • 1 := by
    apply Matrix.inv_eq_right_inv
    rw [smul_mul_smul_comm, one_mul]; norm_num
  refine ⟨exP_psd, ?_⟩
  rw [hS, hinv, hAPB, Matrix.mul_assoc (Bd 1 2)ᵀ, hBPA, hAPA, hQ, Matrix.fromRows_mul,
    Matrix.fromRows_mul_fromCols, exP, sub_eq_add_neg, sub_eq_add_neg, Matrix.fromBlocks_neg,
    Matrix.fromBlocks_neg, Matrix.fromBlocks_add, Matrix.fromBlocks_add, Matrix.fromBlocks_add]
  simp only [smul_mul_smul_comm, mul_one, ← neg_smul, ← add_smul, add_zero]
  norm_num

/-- The hypotheses of C119 are met. -/
example : ∃ (e w : ℝ) (P : M6), e ≠ 0 ∧ w ≠ 0 ∧ IsDare (Ad 2) (Bd 1 2) (Q e w) R P :=
  ⟨_, _, exP, (Real.sqrt_pos.2 (by norm_num)).ne', (Real.sqrt_pos.2 (by norm_num)).ne', exP_dare⟩

/-- C122: `add_integrators` appends states whose rates are the negative outputs and leaves the others as
they were. -/
theorem C122_integrators {n m p : Type} [Fintype n] [Fintype m] [Fintype p] (A : Matrix n n ℝ)
    (B : Matrix n p ℝ) (C : Matrix m n ℝ) (x : n → ℝ) (ξ : m → ℝ) (u : p → ℝ) :
    (addIntegrators A B C).1 *ᵥ Sum.elim x ξ + (addIntegrators A B C).2 *ᵥ u =
      Sum.elim (A *ᵥ x + B *ᵥ u) (-(C *ᵥ x)) := by
  simp only [addIntegrators, Matrix.fromBlocks_mulVec, Matrix.fromRows_mulVec]
  funext i
  rcases i with i | i
  · simp [Function.comp_def]
  · simp [Function.comp_def, Matrix.neg_mulVec]

end Adcs
