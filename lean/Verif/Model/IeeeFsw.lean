import Verif.Model.Ieee
import Verif.Model.FlightSoftware

set_option autoImplicit false

/-! # The flight software of the simulation on the values of floats

`Fsw.updateState` stops when a division has no number for a result. numpy goes on with infinities and nan.
Here `simulation/FlightSoftwareModule.py` from the messages to the commands of the wheels is modelled once more
on the values an IEEE 754 float can take, with the rounding of the results as a parameter. Simplifications:
a finite result never overflows; sums of products are added from left to right. -/

namespace Adcs.Ieee

open Adcs Obs
open scoped NNReal

/-- `==` of two floats: the two zeros are equal, nan is equal to nothing. -/
noncomputable def F.eq : F → F → Bool
  | .fin s m, .fin t n => decide ((if s then -(m : ℝ) else m) = (if t then -(n : ℝ) else n))
  | .inf s, .inf t => s == t
  | _, _ => false

/-- `np.acos`: nan outside of [-1, 1]. -/
noncomputable def F.acos (rnd : ℝ≥0 → ℝ≥0) : F → F
  | .fin s m => if m ≤ 1 then F.ofReal rnd (Real.arccos (if s then -(m : ℝ) else m)) else .nan
  | _ => .nan

/-- Python's `max` of a list that is not empty: a later item replaces the present one if it is greater. -/
noncomputable def pyMax (a : F) (l : List F) : F := l.foldl (fun acc x => if F.lt acc x then x else acc) a

/-- A sum of products, as in `np.dot` and `@`. -/
noncomputable def dotN {n : ℕ} (rnd : ℝ≥0 → ℝ≥0) (a b : Fin n → F) : F :=
  (List.ofFn fun i => F.mul rnd (a i) (b i)).foldl (F.add rnd) (.fin false 0)

/-- `normalize` of simulation/Quaternions.py lines 17-19; `np.linalg.norm` is the root of the sum of squares. -/
noncomputable def normalize (rnd : ℝ≥0 → ℝ≥0) (q : Fin 4 → F) : Fin 4 → F := fun i =>
  F.div rnd (q i) (F.sqrt rnd (dotN rnd q q))

/-- `quat_mult` of simulation/Quaternions.py lines 21-32. -/
noncomputable def quatMult (rnd : ℝ≥0 → ℝ≥0) (qRot qInit : Fin 4 → F) : Fin 4 → F :=
  let p := normalize rnd qRot
  let q := normalize rnd qInit
  let mul := F.mul rnd
  let add := F.add rnd
  let sub := F.sub rnd
  normalize rnd
    ![sub (add (add (mul (p 3) (q 0)) (mul (p 0) (q 3))) (mul (p 1) (q 2))) (mul (p 2) (q 1)),
      add (add (sub (mul (p 3) (q 1)) (mul (p 0) (q 2))) (mul (p 1) (q 3))) (mul (p 2) (q 0)),
      add (sub (add (mul (p 3) (q 2)) (mul (p 0) (q 1))) (mul (p 1) (q 0))) (mul (p 2) (q 3)),
      sub (sub (sub (mul (p 3) (q 3)) (mul (p 0) (q 0))) (mul (p 1) (q 1))) (mul (p 2) (q 2))]

/-- `quat_error` of simulation/Quaternions.py lines 34-35, with `quat_conjugate` of lines 9-11. -/
noncomputable def quatError (rnd : ℝ≥0 → ℝ≥0) (target q : Fin 4 → F) : Fin 4 → F :=
  quatMult rnd target ![(q 0).neg, (q 1).neg, (q 2).neg, q 3]

/-- `error_angle` of simulation/Quaternions.py lines 59-70. -/
noncomputable def errorAngle (rnd : ℝ≥0 → ℝ≥0) (q : Fin 4 → F) : F :=
  F.div rnd (F.mul rnd (F.mul rnd (F.ofReal rnd 2) (F.acos rnd (q 3).abs)) (F.ofReal rnd 180)) (F.ofReal rnd Real.pi)

/-- Attributes of a `FlightSoftware`, simulation/FlightSoftwareModule.py lines 10-57, that are floats. `t2` is
the constant of line 105, computed from literals in every call. -/
structure FlightF where
  Gpinv : Fin 4 → Fin 3 → F
  rwInertia : F
  updateTime : F
  qTarget : Fin 4 → F
  t2 : Fin 4 → F
  omegaTarget : Fin 3 → F
  maxTorque : F
  maxSpeed : F
  Kq : Fin 3 → Fin 3 → F
  Kw : Fin 3 → Fin 3 → F
  torqueVals : Fin 4 → F
  signFlipped : Bool

/-- `check_hemi`, lines 62-70; `q[3] >= 0` is `0 < q[3] or q[3] == 0`. -/
noncomputable def FlightF.checkHemi (f : FlightF) (q : Fin 4 → F) : (Fin 4 → F) × FlightF :=
  if F.lt (.fin false 0) (q 3) || F.eq (q 3) (.fin false 0) then (q, { f with signFlipped := false })
  else (fun i => (q i).neg, { f with signFlipped := true })

/-- `max(-self.maxTorque, min(x, self.maxTorque))`, lines 170, 172 and 177. -/
noncomputable def FlightF.clamp (f : FlightF) (x : F) : F := pyMax f.maxTorque.neg [pyMin x [f.maxTorque]]

/-- One pass of the loop of `check_torque_vals`, lines 162-172. -/
noncomputable def FlightF.checkTorque (rnd : ℝ≥0 → ℝ≥0) (f : FlightF) (torque speed : F) : F :=
  let projected := F.add rnd speed (F.mul rnd (F.div rnd torque f.rwInertia) f.updateTime)
  if F.lt f.maxSpeed projected.abs then
    let sign := if F.eq speed (.fin false 0) then torque.sign else speed.sign
    f.clamp (F.div rnd (F.mul rnd (F.sub rnd (F.mul rnd sign f.maxSpeed) speed) f.rwInertia) f.updateTime)
  else f.clamp torque

/-- `zero_wheel_speeds`, lines 174-179, for a time step that is not zero. -/
noncomputable def FlightF.zeroWheelSpeeds (rnd : ℝ≥0 → ℝ≥0) (f : FlightF) (speeds : Fin 4 → F) : FlightF :=
  { f with torqueVals := fun i => f.clamp (F.div rnd (F.mul rnd f.rwInertia.neg (speeds i)) f.updateTime) }

/-- `quaternion_controller`, lines 189-193. -/
noncomputable def FlightF.quaternionController (rnd : ℝ≥0 → ℝ≥0) (f : FlightF) (qError : Fin 4 → F)
    (omega : Fin 3 → F) : Fin 3 → F :=
  let sign := F.ofReal rnd (if f.signFlipped then -1 else 1)
  let x : Fin 6 → F :=
    ![F.mul rnd (qError 0) sign, F.mul rnd (qError 1) sign, F.mul rnd (qError 2) sign,
      F.sub rnd (omega 0) (f.omegaTarget 0), F.sub rnd (omega 1) (f.omegaTarget 1), F.sub rnd (omega 2) (f.omegaTarget 2)]
  fun i => dotN rnd
    ![(f.Kq i 0).neg, (f.Kq i 1).neg, (f.Kq i 2).neg, (f.Kw i 0).neg, (f.Kw i 1).neg, (f.Kw i 2).neg] x

/-- `convert_torque_to_wheels`, lines 154-157. -/
noncomputable def FlightF.convertTorque (rnd : ℝ≥0 → ℝ≥0) (f : FlightF) (torque : Fin 3 → F) : Fin 4 → F :=
  fun i => dotN rnd (f.Gpinv i) torque

/-- `UpdateState`, lines 72-123, from the start time of the controller on: `reading` is `qInrtl2Case`,
scalar first. -/
noncomputable def FlightF.updateState (rnd : ℝ≥0 → ℝ≥0) (f : FlightF) (reading : Fin 4 → F) (omega : Fin 3 → F)
    (speeds : Fin 4 → F) : FlightF :=
  let q := normalize rnd ![reading 1, reading 2, reading 3, reading 0]
  let (err, f) := f.checkHemi (quatError rnd f.qTarget q)
  let still := F.eq (omega 0) (.fin false 0) && F.eq (omega 1) (.fin false 0) && F.eq (omega 2) (.fin false 0)
  let f := if F.eq (errorAngle rnd err) (.fin false 0) && still then { f with qTarget := f.t2 } else f
  let torque := f.convertTorque rnd (f.quaternionController rnd err omega)
  { f with torqueVals := fun i => f.checkTorque rnd (torque i) (speeds i) }

end Adcs.Ieee
