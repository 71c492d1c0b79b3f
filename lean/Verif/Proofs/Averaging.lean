import Verif.Proofs.Kalman

set_option autoImplicit false
set_option linter.unusedSectionVars false

/-! # Repeated Kalman updates without propagation -/

namespace Adcs

open Spec
open scoped Matrix

variable {n m : Type} [Fintype n] [Fintype m] [DecidableEq n] [DecidableEq m]

theorem Spec.Covariance.smul {P : Matrix n n ℝ} (h : Covariance P) {c : ℝ} (hc : 0 ≤ c) :
    Covariance (c • P) := by
  refine ⟨by rw [Matrix.transpose_smul, h.1], fun x => ?_⟩
  rw [Matrix.smul_mulVec, dotProduct_smul, smul_eq_mul]
  exact mul_nonneg hc (h.2 x)

variable (P : Matrix n n ℝ) (R : Matrix m m ℝ) (H : Matrix m n ℝ)

/-- `R + N H P Hᵀ`. -/
def innovN (N : ℕ) : Matrix m m ℝ := R + (N : ℝ) • (H * (P * Hᵀ))

/-- Covariance after `N` updates. -/
noncomputable def kpostN (N : ℕ) : Matrix n n ℝ :=
  P - (N : ℝ) • (P * Hᵀ * (innovN P R H N)⁻¹ * (H * P))

variable {P R H}

theorem innovN_strict (hP : Covariance P) (hR : StrictCovariance R) (N : ℕ) :
    StrictCovariance (innovN P R H N) := by
  rw [innovN, add_comm]
  exact ((hP.conj H).smul (Nat.cast_nonneg N)).add_strict hR

theorem innovN_unit (hP : Covariance P) (hR : StrictCovariance R) (N : ℕ) :
    IsUnit (innovN P R H N).det :=
  isUnit_iff_ne_zero.mpr (innovN_strict hP hR N).det_ne

theorem kpostN_zero : kpostN P R H 0 = P := by simp [kpostN]

theorem innovN_inv (hP : Covariance P) (hR : StrictCovariance R) (N : ℕ) :
    (innovN P R H N)⁻¹ = (innovN P R H (N + 1))⁻¹
      + (innovN P R H (N + 1))⁻¹ * (H * (P * Hᵀ)) * (innovN P R H N)⁻¹ := by
  have hu := innovN_unit (H := H) hP hR N
  have hu' := innovN_unit (H := H) hP hR (N + 1)
  have eM' : innovN P R H (N + 1) = innovN P R H N + H * (P * Hᵀ) := by
    rw [innovN, innovN, Nat.cast_add, Nat.cast_one, add_smul, one_smul, add_assoc]
  calc (innovN P R H N)⁻¹ = (innovN P R H (N + 1))⁻¹ * (innovN P R H (N + 1) * (innovN P R H N)⁻¹) := by
        rw [← Matrix.mul_assoc, Matrix.nonsing_inv_mul _ hu', Matrix.one_mul]
    _ = (innovN P R H (N + 1))⁻¹ * (1 + H * (P * Hᵀ) * (innovN P R H N)⁻¹) := by
        conv_lhs => enter [2, 1]; rw [eM']
        rw [Matrix.add_mul, Matrix.mul_nonsing_inv _ hu]
    _ = _ := by rw [Matrix.mul_add, Matrix.mul_one, Matrix.mul_assoc _ (H * (P * Hᵀ))]

theorem kpostN_succ (hP : Covariance P) (hR : StrictCovariance R) (N : ℕ) (hN : Covariance (kpostN P R H N)) :
    kgain (kpostN P R H N) R H = P * Hᵀ * (innovN P R H (N + 1))⁻¹ ∧
    kpost (kpostN P R H N) R H = kpostN P R H (N + 1) := by
  have hu := innovN_unit (H := H) hP hR N
  have hu' := innovN_unit (H := H) hP hR (N + 1)
  set S := H * (P * Hᵀ) with hS
  set M := innovN P R H N with hM
  set M' := innovN P R H (N + 1) with hM'
  have eM : M = R + (N : ℝ) • S := rfl
  have eM' : M' = M + S := by
    rw [hM', eM, innovN, Nat.cast_add, Nat.cast_one, add_smul, one_smul, ← hS, add_assoc]
  have eP : kpostN P R H N = P - (N : ℝ) • (P * Hᵀ * M⁻¹ * (H * P)) := rfl
  have hMR : M⁻¹ * R = 1 - (N : ℝ) • (M⁻¹ * S) := by
    have : R = M - (N : ℝ) • S := by rw [eM]; abel
    rw [this, Matrix.mul_sub, Matrix.nonsing_inv_mul _ hu, Matrix.mul_smul]
  have hPH : kpostN P R H N * Hᵀ = P * Hᵀ * (M⁻¹ * R) := by
    rw [eP, hMR, hS]
    simp only [Matrix.sub_mul, Matrix.mul_sub, Matrix.smul_mul, Matrix.mul_smul, Matrix.mul_one,
      Matrix.mul_assoc]
  have hin : innov (kpostN P R H N) R H = M' * (M⁻¹ * R) := by
    rw [innov, hPH, ← Matrix.mul_assoc H, ← hS, eM', Matrix.add_mul, ← Matrix.mul_assoc M,
      Matrix.mul_nonsing_inv _ hu, Matrix.one_mul]
  have hK : kgain (kpostN P R H N) R H = P * Hᵀ * M'⁻¹ := by
    have h1 := kgain_innov (H := H) hN hR
    have hi := isUnit_iff_ne_zero.mpr (innov_strict (H := H) hN hR).det_ne
    have h2 : P * Hᵀ * M'⁻¹ * innov (kpostN P R H N) R H = kpostN P R H N * Hᵀ := by
      rw [hin, hPH, Matrix.mul_assoc (P * Hᵀ), ← Matrix.mul_assoc M'⁻¹, Matrix.nonsing_inv_mul _ hu',
        Matrix.one_mul]
    have h3 := congrArg (· * (innov (kpostN P R H N) R H)⁻¹) (h1.trans h2.symm)
    simpa only [Matrix.mul_assoc, Matrix.mul_nonsing_inv _ hi, Matrix.mul_one] using h3
  refine ⟨hK, ?_⟩
  have hinv : M⁻¹ = M'⁻¹ + M'⁻¹ * S * M⁻¹ := innovN_inv hP hR N
  have hcore : (N : ℝ) • M⁻¹ + M'⁻¹ - (N : ℝ) • (M'⁻¹ * S * M⁻¹) = ((N : ℝ) + 1) • M'⁻¹ := by
    have := congrArg ((N : ℝ) • ·) hinv
    simp only [smul_add] at this
    rw [this, add_smul, one_smul]
    abel
  rw [kpost, hK, eP, kpostN, ← hM', Nat.cast_add, Nat.cast_one]
  have e1 : (1 - P * Hᵀ * M'⁻¹ * H) * (P - (N : ℝ) • (P * Hᵀ * M⁻¹ * (H * P)))
      = P - P * Hᵀ * ((N : ℝ) • M⁻¹ + M'⁻¹ - (N : ℝ) • (M'⁻¹ * S * M⁻¹)) * (H * P) := by
    rw [hS]
    simp only [Matrix.sub_mul, Matrix.mul_sub, Matrix.add_mul, Matrix.mul_add, Matrix.smul_mul,
      Matrix.mul_smul, Matrix.one_mul, Matrix.mul_assoc, smul_sub]
    abel
  rw [e1, hcore, Matrix.mul_smul, Matrix.smul_mul]

theorem kpostN_cov (hP : Covariance P) (hR : StrictCovariance R) (N : ℕ) : Covariance (kpostN P R H N) := by
  induction N with
  | zero => rw [kpostN_zero]; exact hP
  | succ N ih => rw [← (kpostN_succ hP hR N ih).2]; exact kpost_cov ih hR

/-- `N` updates have the effect of one with `N` times smaller measurement noise. -/
theorem kpostN_eq (N : ℕ) (hN : 0 < N) : kpostN P R H N = kpost P ((N : ℝ)⁻¹ • R) H := by
  have hN' : (N : ℝ) ≠ 0 := by exact_mod_cast hN.ne'
  have hi : innovN P R H N = (N : ℝ) • innov P ((N : ℝ)⁻¹ • R) H := by
    rw [innov, innovN, smul_add, smul_smul, mul_inv_cancel₀ hN', one_smul]
  have hinv : (N : ℝ) • (innovN P R H N)⁻¹ = (innov P ((N : ℝ)⁻¹ • R) H)⁻¹ := by
    by_cases h : IsUnit (innov P ((N : ℝ)⁻¹ • R) H).det
    · have hu : Invertible (N : ℝ) := invertibleOfNonzero hN'
      rw [hi, Matrix.inv_smul _ _ h, smul_smul]
      simp [hN']
    · have h' : ¬ IsUnit (innovN P R H N).det := by
        rw [hi, Matrix.det_smul]
        rw [isUnit_iff_ne_zero, not_not] at h ⊢
        rw [h, mul_zero]
      rw [Matrix.nonsing_inv_apply_not_isUnit _ h, Matrix.nonsing_inv_apply_not_isUnit _ h', smul_zero]
  rw [kpost, kgain, ← hinv, kpostN, Matrix.sub_mul, Matrix.one_mul, Matrix.mul_smul, Matrix.smul_mul,
    Matrix.smul_mul, Matrix.mul_assoc _ H P]

theorem Spec.StrictCovariance.smul {R : Matrix m m ℝ} (h : StrictCovariance R) {c : ℝ} (hc : 0 < c) :
    StrictCovariance (c • R) := by
  refine ⟨by rw [Matrix.transpose_smul, h.1], fun x hx => ?_⟩
  rw [Matrix.smul_mulVec, dotProduct_smul, smul_eq_mul]
  exact mul_pos hc (h.2 x hx)

/-- The measured part of the covariance after `N` updates is at most an `N`th of the measurement noise. -/
theorem kpostN_noLarger (hP : Covariance P) (hR : StrictCovariance R) (N : ℕ) (hN : 0 < N) :
    NoLarger (H * (kpostN P R H N * Hᵀ)) ((N : ℝ)⁻¹ • R) := by
  rw [kpostN_eq N hN]
  exact kpost_noLarger_meas hP (hR.smul (by positivity))

end Adcs
