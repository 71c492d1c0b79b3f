import Mathlib.Analysis.Quaternion
import Mathlib.LinearAlgebra.CrossProduct
import Mathlib.LinearAlgebra.UnitaryGroup
import Mathlib.Analysis.SpecialFunctions.Trigonometric.Basic

set_option autoImplicit false

/-! # Independent specification of rotations -/

namespace Adcs.Spec

open scoped Matrix Quaternion

/-- Read a scalar-first array as a Mathlib quaternion. -/
def toH (q : Fin 4 → ℝ) : ℍ[ℝ] := ⟨q 0, q 1, q 2, q 3⟩

/-- Rodrigues' formula: the right-handed rotation of `v` by `θ` about the unit axis `r`. -/
noncomputable def rodrigues (r : Fin 3 → ℝ) (θ : ℝ) (v : Fin 3 → ℝ) : Fin 3 → ℝ :=
  Real.cos θ • v + Real.sin θ • (r ⨯₃ v) + ((1 - Real.cos θ) * (r ⬝ᵥ v)) • r

/-- `R` is a proper rotation matrix. -/
def IsRotation (R : Matrix (Fin 3) (Fin 3) ℝ) : Prop := Rᵀ * R = 1 ∧ R.det = 1

end Adcs.Spec
