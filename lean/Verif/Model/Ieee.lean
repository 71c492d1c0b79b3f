import Verif.Model.Controller
import Mathlib.Data.NNReal.Basic

set_option autoImplicit false

/-! # Signed zeros, infinities and nan on the way to the magnetorquers

The rest of the model has one zero and treats infinities and nan as the end of a computation. Here
`MagnetorquerSystem.distribute` (structure.py lines 150-176) and the methods of `MagnetorquerController`
that call it (controller.py lines 93-152) are modelled once more on the values an IEEE 754 float can
take. The rounding of the results of operations is a parameter. Simplification: a finite result never
overflows. -/

namespace Adcs.Ieee

open Adcs Str
open scoped NNReal

/-- The values of a float: nan, the two infinities, and sign and magnitude. `true` is the negative sign,
`fin true 0` is the negative zero. -/
inductive F
  | nan
  | inf (neg : Bool)
  | fin (neg : Bool) (mag : ℝ≥0)

/-- The float nearest to a real number, for literals and for attributes that are numbers. -/
noncomputable def F.ofReal (rnd : ℝ≥0 → ℝ≥0) (x : ℝ) : F := .fin (decide (x < 0)) (rnd (Real.nnabs x))

/-- The number a float stands for; infinities and nan have none. -/
noncomputable def F.real? : F → Option ℝ
  | .fin s m => some (if s then -(m : ℝ) else m)
  | _ => none

/-- Unary minus changes the sign bit. -/
def F.neg : F → F
  | .nan => .nan
  | .inf s => .inf !s
  | .fin s m => .fin (!s) m

/-- `abs` clears the sign bit. -/
def F.abs : F → F
  | .nan => .nan
  | .inf _ => .inf false
  | .fin _ m => .fin false m

/-- `*`: the sign is negative when exactly one sign is; zero times infinity is nan. -/
noncomputable def F.mul (rnd : ℝ≥0 → ℝ≥0) : F → F → F
  | .fin s m, .fin t n => .fin (s ^^ t) (rnd (m * n))
  | .inf s, .inf t => .inf (s ^^ t)
  | .inf s, .fin t n => if n = 0 then .nan else .inf (s ^^ t)
  | .fin s m, .inf t => if m = 0 then .nan else .inf (s ^^ t)
  | _, _ => .nan

/-- `/`: a number over zero is an infinity, zero over zero is nan. -/
noncomputable def F.div (rnd : ℝ≥0 → ℝ≥0) : F → F → F
  | .fin s m, .fin t n => if n = 0 then (if m = 0 then .nan else .inf (s ^^ t)) else .fin (s ^^ t) (rnd (m / n))
  | .inf s, .fin t _ => .inf (s ^^ t)
  | .fin s _, .inf t => .fin (s ^^ t) 0
  | _, _ => .nan

/-- `+` for two finite numbers given as sign and magnitude: an exact sum of zero is positive unless both
signs are negative. -/
noncomputable def F.addFin (rnd : ℝ≥0 → ℝ≥0) (s : Bool) (m : ℝ≥0) (t : Bool) (n : ℝ≥0) : F :=
  if s = t then .fin s (rnd (m + n))
  else if m = n then .fin false 0
  else if n < m then .fin s (rnd (m - n))
  else .fin t (rnd (n - m))

/-- `+`: the infinities of different signs have no sum. -/
noncomputable def F.add (rnd : ℝ≥0 → ℝ≥0) : F → F → F
  | .fin s m, .fin t n => F.addFin rnd s m t n
  | .inf s, .inf t => if s = t then .inf s else .nan
  | .inf s, .fin _ _ => .inf s
  | .fin _ _, .inf t => .inf t
  | _, _ => .nan

/-- `a - b` is `a + (-b)`. -/
noncomputable def F.sub (rnd : ℝ≥0 → ℝ≥0) (a b : F) : F := F.add rnd a b.neg

/-- `np.sqrt`: of the negative zero it is the negative zero, of other negative numbers nan. -/
noncomputable def F.sqrt (rnd : ℝ≥0 → ℝ≥0) : F → F
  | .nan => .nan
  | .inf s => if s then .nan else .inf false
  | .fin s m => if s && decide (m ≠ 0) then .nan else .fin s (rnd (NNReal.sqrt m))

/-- `np.sign`: both zeros give the positive zero. -/
noncomputable def F.sign : F → F
  | .nan => .nan
  | .inf s => .fin s 1
  | .fin s m => if m = 0 then .fin false 0 else .fin s 1

/-- `<`: the two zeros are equal, nan is not comparable. -/
noncomputable def F.lt : F → F → Bool
  | .fin s m, .fin t n => decide ((if s then -(m : ℝ) else m) < (if t then -(n : ℝ) else n))
  | .inf s, .inf t => s && !t
  | .inf s, .fin _ _ => s
  | .fin _ _, .inf t => !t
  | _, _ => false

/-- Python's `min` of a list that is not empty: a later item replaces the present one if it is smaller. -/
noncomputable def pyMin (a : F) (l : List F) : F := l.foldl (fun acc x => if F.lt x acc then x else acc) a

/-- `np.cross(a, b)` of three components. -/
noncomputable def cross (rnd : ℝ≥0 → ℝ≥0) (a b : Fin 3 → F) : Fin 3 → F :=
  ![F.sub rnd (F.mul rnd (a 1) (b 2)) (F.mul rnd (a 2) (b 1)),
    F.sub rnd (F.mul rnd (a 2) (b 0)) (F.mul rnd (a 0) (b 2)),
    F.sub rnd (F.mul rnd (a 0) (b 1)) (F.mul rnd (a 1) (b 0))]

/-- `np.dot(a, b)` of three components, added from left to right. -/
noncomputable def dot (rnd : ℝ≥0 → ℝ≥0) (a b : Fin 3 → F) : F :=
  F.add rnd (F.add rnd (F.mul rnd (a 0) (b 0)) (F.mul rnd (a 1) (b 1))) (F.mul rnd (a 2) (b 2))

/-- `Magnetorquer.getCurrent`, structure.py lines 95-116. -/
noncomputable def getCurrent (rnd : ℝ≥0 → ℝ≥0) (t : Magnetorquer) (m : F) : Py F :=
  let lit := F.ofReal rnd
  let mul := F.mul rnd
  let sub := F.sub rnd
  if t.mtType = "Square" then .ok (mul m (lit 0.631313))
  else if t.mtType = "Rod" then
    .ok (mul (mul m.sign (lit 0.0181818))
      (sub (lit 59) (F.sqrt rnd (sub (lit 3481) (mul (lit 2750) m.abs)))))
  else if t.mtType = "LinearRod" then .ok (mul m (lit 0.5347593))
  else .error .unboundLocal

/-- Line 172 of `MagnetorquerSystem.distribute`, for three torquers: the least of the ratios. -/
noncomputable def factor (rnd : ℝ≥0 → ℝ≥0) (torquers : Fin 3 → Magnetorquer) (m : Fin 3 → F) : F :=
  let r := fun i => F.div rnd (F.ofReal rnd (torquers i).maxM) (m i)
  pyMin (r 0) [r 1, r 2]

/-- Lines 172-174 of `MagnetorquerSystem.distribute`: the moment after scaling. -/
noncomputable def scale (rnd : ℝ≥0 → ℝ≥0) (torquers : Fin 3 → Magnetorquer) (m : Fin 3 → F) : Fin 3 → F :=
  let f := factor rnd torquers m
  if F.lt f (F.ofReal rnd 1) then fun i => F.mul rnd (m i) f else m

/-- `MagnetorquerSystem.distribute`, structure.py lines 150-176, for three torquers. -/
noncomputable def distribute (rnd : ℝ≥0 → ℝ≥0) (torquers : Fin 3 → Magnetorquer) (m : Fin 3 → F) :
    Py (Fin 3 → F) :=
  pyForall fun i => getCurrent rnd (torquers i) (scale rnd torquers m i)

/-- `MagnetorquerController.actuator_commands`, controller.py lines 93-117, of a controller that is not
bang-bang. -/
noncomputable def actuatorCommands (rnd : ℝ≥0 → ℝ≥0) (torquers : Fin 3 → Magnetorquer) (B torque : Fin 3 → F) :
    Py (Fin 3 → F) :=
  distribute rnd torquers fun i => F.div rnd (cross rnd B torque i) (dot rnd B B)

/-- `MagnetorquerController.desaturate`, controller.py lines 119-125: `h` and `hRef` are the momenta that
`reaction_wheels.momentum` returns for the speeds of the wheels and for the reference. -/
noncomputable def desaturate (rnd : ℝ≥0 → ℝ≥0) (torquers : Fin 3 → Magnetorquer) (B h hRef : Fin 3 → F) :
    Py (Fin 3 → F) :=
  actuatorCommands rnd torquers B fun i =>
    F.mul rnd (F.ofReal rnd Ctl.kBbq).neg (F.sub rnd (h i) (hRef i))

/-- `MagnetorquerController.detumble`, controller.py lines 127-152, for a matrix of inertia of floats. -/
noncomputable def detumble (rnd : ℝ≥0 → ℝ≥0) (torquers : Fin 3 → Magnetorquer) (J : Fin 3 → Fin 3 → F)
    (B gyro : Fin 3 → F) : Py (Fin 3 → F) :=
  actuatorCommands rnd torquers B fun i =>
    F.mul rnd (F.ofReal rnd Ctl.kBbq).neg (dot rnd (J i) gyro)

end Adcs.Ieee
