import Mathlib.Analysis.Quaternion

set_option autoImplicit false

/-! # Independent specification of scalar-last quaternions -/

namespace Adcs.Spec

open scoped Quaternion

/-- Read an array `[x, y, z, s]` as a Mathlib quaternion. -/
def toHLast (q : Fin 4 → ℝ) : ℍ[ℝ] := ⟨q 3, q 0, q 1, q 2⟩

/-- A vector as a pure quaternion. -/
def pureH (v : Fin 3 → ℝ) : ℍ[ℝ] := ⟨0, v 0, v 1, v 2⟩

/-- The vector `v` turned by the unit quaternion `h`: the vector part of `h v h*`. -/
noncomputable def turn (h : ℍ[ℝ]) (v : Fin 3 → ℝ) : Fin 3 → ℝ :=
  let w := h * pureH v * star h
  ![w.imI, w.imJ, w.imK]

end Adcs.Spec
