import Verif.Model.Observers
import Verif.Spec.Covariance
import Mathlib.LinearAlgebra.Matrix.ToLinearEquiv

set_option autoImplicit false
set_option linter.unusedSectionVars false

/-! # Lemmas on the Kalman update -/

namespace Adcs

open Spec
open scoped Matrix

variable {n m : Type} [Fintype n] [Fintype m] [DecidableEq n] [DecidableEq m]

theorem Spec.StrictCovariance.weaken {P : Matrix n n ℝ} (h : StrictCovariance P) : Covariance P := by
  refine ⟨h.1, fun x => ?_⟩
  rcases eq_or_ne x 0 with rfl | hx
  · simp
  · exact (h.2 x hx).le

theorem Spec.StrictCovariance.det_ne {P : Matrix n n ℝ} (h : StrictCovariance P) : P.det ≠ 0 := by
  intro hd
  obtain ⟨v, hv, h0⟩ := Matrix.exists_mulVec_eq_zero_iff.mpr hd
  have := h.2 v hv
  rw [h0] at this
  simp at this

/-- `xᵀ (M P Mᵀ) x` is the quadratic form of `P` at `Mᵀ x`. -/
theorem quad_conj (P : Matrix n n ℝ) (M : Matrix m n ℝ) (x : m → ℝ) :
    x ⬝ᵥ ((M * (P * Mᵀ)) *ᵥ x) = (Mᵀ *ᵥ x) ⬝ᵥ (P *ᵥ (Mᵀ *ᵥ x)) := by
  rw [← Matrix.mulVec_mulVec, ← Matrix.mulVec_mulVec, Matrix.dotProduct_mulVec, Matrix.mulVec_transpose]

theorem Spec.Covariance.conj {P : Matrix n n ℝ} (h : Covariance P) (M : Matrix m n ℝ) :
    Covariance (M * (P * Mᵀ)) := by
  refine ⟨?_, fun x => ?_⟩
  · simp [Matrix.transpose_mul, h.1, Matrix.mul_assoc]
  · rw [quad_conj]; exact h.2 _

theorem Spec.Covariance.add {P Q : Matrix n n ℝ} (hP : Covariance P) (hQ : Covariance Q) :
    Covariance (P + Q) := by
  refine ⟨by rw [Matrix.transpose_add, hP.1, hQ.1], fun x => ?_⟩
  rw [Matrix.add_mulVec, dotProduct_add]
  exact add_nonneg (hP.2 x) (hQ.2 x)

theorem Spec.Covariance.add_strict {P Q : Matrix n n ℝ} (hP : Covariance P) (hQ : StrictCovariance Q) :
    StrictCovariance (P + Q) := by
  refine ⟨by rw [Matrix.transpose_add, hP.1, hQ.1], fun x hx => ?_⟩
  rw [Matrix.add_mulVec, dotProduct_add]
  exact add_pos_of_nonneg_of_pos (hP.2 x) (hQ.2 x hx)

theorem Spec.StrictCovariance.diagonal {d : n → ℝ} (h : ∀ i, 0 < d i) :
    StrictCovariance (Matrix.diagonal d) := by
  refine ⟨Matrix.diagonal_transpose d, fun x hx => ?_⟩
  have : ∀ i, x i * (Matrix.diagonal d *ᵥ x) i = d i * x i ^ 2 := fun i => by
    rw [Matrix.mulVec_diagonal]; ring
  simp only [dotProduct, this]
  obtain ⟨i, hi⟩ := Function.ne_iff.mp hx
  refine Finset.sum_pos' (fun j _ => mul_nonneg (h j).le (sq_nonneg _))
    ⟨i, Finset.mem_univ i, mul_pos (h i) (pow_pos_of_ne hi)⟩
where pow_pos_of_ne {a : ℝ} (h : a ≠ 0) : 0 < a ^ 2 := by positivity

theorem Spec.Covariance.diagonal {d : n → ℝ} (h : ∀ i, 0 ≤ d i) : Covariance (Matrix.diagonal d) := by
  refine ⟨Matrix.diagonal_transpose d, fun x => ?_⟩
  have : ∀ i, x i * (Matrix.diagonal d *ᵥ x) i = d i * x i ^ 2 := fun i => by
    rw [Matrix.mulVec_diagonal]; ring
  simp only [dotProduct, this]
  exact Finset.sum_nonneg fun j _ => mul_nonneg (h j) (sq_nonneg _)

section update
variable (P : Matrix n n ℝ) (R : Matrix m m ℝ) (H : Matrix m n ℝ)

/-- Innovation covariance. -/
def innov : Matrix m m ℝ := R + H * (P * Hᵀ)

/-- Kalman gain. -/
noncomputable def kgain : Matrix n m ℝ := P * Hᵀ * (innov P R H)⁻¹

/-- Covariance after the update. -/
noncomputable def kpost : Matrix n n ℝ := (1 - kgain P R H * H) * P

variable {P R H}

theorem innov_strict (hP : Covariance P) (hR : StrictCovariance R) :
    StrictCovariance (innov P R H) := by
  rw [innov, add_comm]; exact (hP.conj H).add_strict hR

theorem kgain_innov (hP : Covariance P) (hR : StrictCovariance R) :
    kgain P R H * innov P R H = P * Hᵀ := by
  rw [kgain, Matrix.mul_assoc, Matrix.nonsing_inv_mul _
    (isUnit_iff_ne_zero.mpr (innov_strict hP hR).det_ne), Matrix.mul_one]

/-- Joseph form of the updated covariance. -/
theorem kpost_joseph (hP : Covariance P) (hR : StrictCovariance R) :
    kpost P R H = (1 - kgain P R H * H) * (P * (1 - kgain P R H * H)ᵀ)
      + kgain P R H * (R * (kgain P R H)ᵀ) := by
  have hk := kgain_innov (H := H) hP hR
  set K := kgain P R H
  have h1 : K * R + K * (H * (P * Hᵀ)) = P * Hᵀ := by
    rw [← Matrix.mul_add]; exact hk
  have h2 : K * R = P * Hᵀ - K * (H * (P * Hᵀ)) := eq_sub_of_add_eq h1
  rw [kpost, ← Matrix.mul_assoc K R, h2]
  simp only [Matrix.transpose_sub, Matrix.transpose_one, Matrix.transpose_mul, Matrix.sub_mul,
    Matrix.mul_sub, Matrix.one_mul, Matrix.mul_one, Matrix.mul_assoc]
  show P - K * (H * P) = _
  abel

theorem kpost_cov (hP : Covariance P) (hR : StrictCovariance R) : Covariance (kpost P R H) := by
  rw [kpost_joseph hP hR]
  exact (hP.conj _).add ((StrictCovariance.weaken hR).conj _)

theorem kpost_strict (hP : StrictCovariance P) (hR : StrictCovariance R) :
    StrictCovariance (kpost P R H) := by
  have hPw := StrictCovariance.weaken hP
  refine ⟨(kpost_cov hPw hR).1, fun x hx => ?_⟩
  rw [kpost_joseph hPw hR, Matrix.add_mulVec, dotProduct_add, quad_conj, quad_conj]
  set K := kgain P R H
  by_cases hK : Kᵀ *ᵥ x = 0
  · refine add_pos_of_pos_of_nonneg (hP.2 _ ?_) (by simp [hK])
    have : (1 - K * H)ᵀ *ᵥ x = x := by
      rw [Matrix.transpose_sub, Matrix.transpose_one, Matrix.transpose_mul, Matrix.sub_mulVec,
        ← Matrix.mulVec_mulVec, hK]
      simp
    rw [this]; exact hx
  · exact add_pos_of_nonneg_of_pos (hPw.2 _) (hR.2 _ hK)

theorem kpost_noLarger (hP : Covariance P) (hR : StrictCovariance R) :
    NoLarger (kpost P R H) P := by
  intro x
  have hS := innov_strict (H := H) hP hR
  have hk := kgain_innov (H := H) hP hR
  set K := kgain P R H
  have hKT : H * P = innov P R H * Kᵀ := by
    have := congrArg Matrix.transpose hk
    rw [Matrix.transpose_mul, Matrix.transpose_mul, hS.1, hP.1, Matrix.transpose_transpose] at this
    exact this.symm
  have : kpost P R H = P - K * (innov P R H * Kᵀ) := by
    rw [kpost, Matrix.sub_mul, Matrix.one_mul, Matrix.mul_assoc, hKT]
  rw [this, Matrix.sub_mulVec, dotProduct_sub, quad_conj]
  linarith [(StrictCovariance.weaken hS).2 (Kᵀ *ᵥ x)]

theorem kpost_noLarger_meas (hP : Covariance P) (hR : StrictCovariance R) :
    NoLarger (H * (kpost P R H * Hᵀ)) R := by
  intro x
  have hS := innov_strict (H := H) hP hR
  have hSu := isUnit_iff_ne_zero.mpr hS.det_ne
  have hA : H * (P * Hᵀ) = innov P R H - R := by rw [innov]; abel
  have hinvT : ((innov P R H)⁻¹)ᵀ = (innov P R H)⁻¹ := by rw [Matrix.transpose_nonsing_inv, hS.1]
  have key : H * (kpost P R H * Hᵀ) = R - R * ((innov P R H)⁻¹ * Rᵀ) := by
    have : H * (kpost P R H * Hᵀ)
        = H * (P * Hᵀ) - (H * (P * Hᵀ)) * ((innov P R H)⁻¹ * (H * (P * Hᵀ))) := by
      rw [kpost, kgain]
      simp only [Matrix.sub_mul, Matrix.mul_sub, Matrix.one_mul, Matrix.mul_assoc]
    rw [this, hA, Matrix.mul_sub, Matrix.nonsing_inv_mul _ hSu, hR.1]
    simp only [Matrix.sub_mul, Matrix.mul_sub, Matrix.mul_one]
    rw [← Matrix.mul_assoc (innov P R H), Matrix.mul_nonsing_inv _ hSu, Matrix.one_mul]
    abel
  rw [key, Matrix.sub_mulVec, dotProduct_sub, quad_conj]
  have hinv : 0 ≤ (Rᵀ *ᵥ x) ⬝ᵥ ((innov P R H)⁻¹ *ᵥ (Rᵀ *ᵥ x)) := by
    set y := (innov P R H)⁻¹ *ᵥ (Rᵀ *ᵥ x) with hy
    have : Rᵀ *ᵥ x = innov P R H *ᵥ y := by
      rw [hy, Matrix.mulVec_mulVec, Matrix.mul_nonsing_inv _ hSu, Matrix.one_mulVec]
    rw [this, dotProduct_comm]
    exact (StrictCovariance.weaken hS).2 y
  linarith

end update

end Adcs
