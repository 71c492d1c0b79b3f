import Mathlib.LinearAlgebra.Matrix.NonsingularInverse
import Mathlib.Data.Real.Basic

set_option autoImplicit false

/-! # Independent specification of covariance matrices -/

namespace Adcs.Spec

open scoped Matrix

variable {n : Type} [Fintype n]

/-- Symmetric with non-negative variance in every direction. -/
def Covariance (P : Matrix n n ℝ) : Prop := Pᵀ = P ∧ ∀ x : n → ℝ, 0 ≤ x ⬝ᵥ (P *ᵥ x)

/-- Symmetric with positive variance in every direction. -/
def StrictCovariance (P : Matrix n n ℝ) : Prop :=
  Pᵀ = P ∧ ∀ x : n → ℝ, x ≠ 0 → 0 < x ⬝ᵥ (P *ᵥ x)

/-- `A` has at most the variance of `B` in every direction. -/
def NoLarger (A B : Matrix n n ℝ) : Prop := ∀ x : n → ℝ, x ⬝ᵥ (A *ᵥ x) ≤ x ⬝ᵥ (B *ᵥ x)

end Adcs.Spec
