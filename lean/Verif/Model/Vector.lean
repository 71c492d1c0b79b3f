import Verif.Py

set_option autoImplicit false

/-! # Model of `src/oresat_adcs/functions/vector.py` -/

namespace Adcs.Vec

open Adcs

/-- `saturation(x, x_max)`, vector.py lines 3-23.  `x_max * x / largest_x` is a
numpy division, so a zero `largest_x` (only possible for negative `x_max`) is
nan. -/
noncomputable def saturation {n : ℕ} (x : Fin n → ℝ) (xMax : ℝ) : Py (Fin n → ℝ) :=
  match npMaxAbs x with
  | .error e => .error e
  | .ok largest =>
    if largest > xMax then npVDiv (fun i => xMax * x i) largest
    else .ok x

/-- `cross(v)`, vector.py lines 25-41. -/
def cross (v : V3) : M3 :=
  !![0, -v 2, v 1; v 2, 0, -v 0; -v 1, v 0, 0]

/-- `normalize(q)`, vector.py lines 43-61, for an array of any length. -/
noncomputable def normalizeV {n : ℕ} (q : Fin n → ℝ) : Fin n → ℝ :=
  if npNorm q = 0 then q else fun i => q i / npNorm q

/-- `pointing_vector(position, target)`, vector.py lines 63-81. -/
noncomputable def pointingVector (position target : V3) : V3 :=
  normalizeV (target - position)

/-- `R_axis_angle(boresight, point)`, vector.py lines 83-104. -/
noncomputable def rAxisAngle (boresight point : V3) : V3 × ℝ :=
  (normalizeV (npCross boresight point),
   Real.arccos (npClip (npDot boresight point) (-1) 1))

end Adcs.Vec
