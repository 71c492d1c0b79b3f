import Mathlib.Analysis.SpecialFunctions.Trigonometric.Inverse
import Mathlib.Analysis.SpecialFunctions.Complex.Arg
import Mathlib.LinearAlgebra.CrossProduct
import Mathlib.LinearAlgebra.Matrix.NonsingularInverse

set_option autoImplicit false

/-!
# Python and numpy primitives

Exceptions are values, floats are exact reals.  These definitions model the
language and library, not a file of the repository.
-/

namespace Adcs

/-- Ways in which a modelled call fails to return an ordinary value.
`nonFinite` stands for a numpy result that is inf or nan (numpy warns and goes
on; the model stops following the computation there). The others are Python
exceptions. -/
inductive Exc
  | nonFinite | zeroDivision | valueError | typeError | attributeError
  | unboundLocal | keyError | overflow | linAlg | indexError | assertion
  deriving DecidableEq, Repr

/-- Result of a Python call. -/
abbrev Py := Except Exc

abbrev V3 := Fin 3 → ℝ
abbrev V4 := Fin 4 → ℝ
abbrev M3 := Matrix (Fin 3) (Fin 3) ℝ

/-- `np.dot` of two one-dimensional arrays. -/
def npDot {n : ℕ} (x y : Fin n → ℝ) : ℝ := ∑ i, x i * y i

/-- `np.linalg.norm` of a one-dimensional array. -/
noncomputable def npNorm {n : ℕ} (x : Fin n → ℝ) : ℝ := Real.sqrt (∑ i, x i ^ 2)

/-- `np.cross` of two 3-vectors. -/
def npCross (a b : V3) : V3 :=
  ![a 1 * b 2 - a 2 * b 1, a 2 * b 0 - a 0 * b 2, a 0 * b 1 - a 1 * b 0]

/-- `np.max(np.abs(x))`; numpy raises `ValueError` on an empty array. -/
noncomputable def npMaxAbs {n : ℕ} (x : Fin n → ℝ) : Py ℝ :=
  if h : (Finset.univ : Finset (Fin n)).Nonempty then
    .ok (Finset.univ.sup' h fun i => |x i|)
  else .error .valueError

/-- Division of numpy floats: a zero divisor gives inf or nan. -/
noncomputable def npDiv (a b : ℝ) : Py ℝ := if b = 0 then .error .nonFinite else .ok (a / b)

/-- Division of a numpy array by a float. -/
noncomputable def npVDiv {n : ℕ} (a : Fin n → ℝ) (b : ℝ) : Py (Fin n → ℝ) :=
  if b = 0 then .error .nonFinite else .ok fun i => a i / b

/-- `np.sqrt`: nan on negative input. -/
noncomputable def npSqrt (a : ℝ) : Py ℝ := if a < 0 then .error .nonFinite else .ok (Real.sqrt a)

/-- `np.clip(x, lo, hi)`. -/
noncomputable def npClip (x lo hi : ℝ) : ℝ := min (max x lo) hi

/-- `np.sign`. -/
noncomputable def npSign (x : ℝ) : ℝ := if x < 0 then -1 else if x = 0 then 0 else 1

/-- `np.arctan2(y, x)`, principal value in `(-π, π]`, `0` at the origin
(signed zeros are not modelled). -/
noncomputable def npArctan2 (y x : ℝ) : ℝ := Complex.arg ⟨x, y⟩

/-- `np.radians`. -/
noncomputable def npRadians (d : ℝ) : ℝ := d * Real.pi / 180

/-- `np.degrees`. -/
noncomputable def npDegrees (r : ℝ) : ℝ := r * 180 / Real.pi

/-- `np.linalg.inv`: raises `LinAlgError` on a singular matrix. -/
noncomputable def npInv {ι : Type} [Fintype ι] [DecidableEq ι] (M : Matrix ι ι ℝ) :
    Py (Matrix ι ι ℝ) :=
  if M.det = 0 then .error .linAlg else .ok M⁻¹

/-- `q[1:]` of a quaternion. -/
def vecPart (q : V4) : V3 := ![q 1, q 2, q 3]

end Adcs
