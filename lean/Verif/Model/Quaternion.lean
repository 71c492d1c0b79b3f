import Verif.Model.Vector

set_option autoImplicit false

/-! # Model of `src/oresat_adcs/functions/quaternion.py` -/

namespace Adcs.Quat

open Adcs

/-- `metric(p, q)`, quaternion.py lines 6-22. -/
def metric (p q : V4) : ℝ := 1 - npDot p q

/-- `xi(q)`, quaternion.py lines 24-40: the row `-q[1:]` above
`q[0] * eye(3) + cross(q[1:])`. -/
def xi (q : V4) : Matrix (Fin 4) (Fin 3) ℝ :=
  let m : M3 := q 0 • (1 : M3) + Vec.cross (vecPart q)
  !![-q 1, -q 2, -q 3; m 0 0, m 0 1, m 0 2; m 1 0, m 1 1, m 1 2; m 2 0, m 2 1, m 2 2]

/-- `conjugate(q)`, quaternion.py lines 42-55. -/
def conjugate (q : V4) : V4 := ![q 0, -q 1, -q 2, -q 3]

/-- `product(a, b)`, quaternion.py lines 57-77. -/
def product (a b : V4) : V4 :=
  let v : V3 := b 0 • vecPart a + a 0 • vecPart b + npCross (vecPart a) (vecPart b)
  ![a 0 * b 0 - npDot (vecPart a) (vecPart b), v 0, v 1, v 2]

/-- `sandwich(q, v)`, quaternion.py lines 79-96. -/
def sandwich (q : V4) (v : V3) : V3 :=
  vecPart (product (conjugate q) (product ![0, v 0, v 1, v 2] q))

/-- `sandwich_opp(q, v)`, quaternion.py lines 98-115. -/
def sandwichOpp (q : V4) (v : V3) : V3 := sandwich (conjugate q) v

/-- `error_quat(q, q_ref)`, quaternion.py lines 117-132. -/
def errorQuat (q qRef : V4) : V4 := product (conjugate qRef) q

/-- `axisangle_to_quat(r, theta)`, quaternion.py lines 134-150. -/
noncomputable def axisangleToQuat (r : V3) (theta : ℝ) : V4 :=
  let v : V3 := Real.sin (theta / 2) • r
  ![Real.cos (theta / 2), v 0, v 1, v 2]

/-- `eulerangle_to_quat(RA, dec, roll)` (degrees), quaternion.py lines 152-182. -/
noncomputable def eulerangleToQuat (RA dec roll : ℝ) : V4 :=
  let ra := npRadians RA / 2
  let de := npRadians dec / 2
  let ro := npRadians roll / 2
  let cPhi := Real.cos ra
  let sPhi := Real.sin ra
  let cTheta := Real.cos de
  let sTheta := Real.sin de
  let cPsi := Real.cos ro
  let sPsi := Real.sin ro
  ![cPhi * cTheta * cPsi + sPhi * sTheta * sPsi,
    cPhi * cTheta * sPsi - sPhi * sTheta * cPsi,
    cPhi * sTheta * cPsi + sPhi * cTheta * sPsi,
    sPhi * cTheta * cPsi - cPhi * sTheta * sPsi]

/-- `_quat2equatorial(q)`, quaternion.py lines 184-222, for a single quaternion
(the code also accepts arrays of quaternions, treated elementwise). -/
noncomputable def quat2equatorial (q : V4) : Py V3 :=
  let xa := q 0 ^ 2 - q 1 ^ 2 - q 2 ^ 2 + q 3 ^ 2
  let xb := 2 * (q 0 * q 1 + q 2 * q 3)
  let xn := 2 * (q 0 * q 2 - q 1 * q 3)
  let yn := 2 * (q 1 * q 2 + q 0 * q 3)
  let zn := q 3 ^ 2 + q 2 ^ 2 - q 0 ^ 2 - q 1 ^ 2
  let oneMinusXn2 := 1 - xn ^ 2
  if oneMinusXn2 < -1e-12 then .error .valueError
  else
    let om := if oneMinusXn2 < 0 then 0 else oneMinusXn2
    let ra := npDegrees (npArctan2 xb xa)
    let dec := npDegrees (npArctan2 xn (Real.sqrt om))
    let roll := npDegrees (npArctan2 yn zn)
    let ra' := if ra < 0 then ra + 360 else ra
    let roll' := if roll < 0 then roll + 360 else roll
    .ok ![ra', dec, roll']

/-- `path_lift(RA, dec, roll, q_ref)`, quaternion.py lines 224-252. -/
noncomputable def pathLift (RA dec roll : ℝ) (qRef : V4) : V4 :=
  let q := eulerangleToQuat RA dec roll
  if metric q qRef < metric (-q) qRef then q else -q

end Adcs.Quat
