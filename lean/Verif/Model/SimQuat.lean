import Verif.Py

set_option autoImplicit false

/-! # Model of `simulation/Quaternions.py` and of `get_nadir_pointing_quaternion`

Quaternions here are arrays `[x, y, z, s]`, scalar last. -/

namespace Adcs.Sim

open Adcs
open scoped Matrix

/-- `quat_conjugate`, lines 9-11. -/
def quatConjugate (q : V4) : V4 := ![-q 0, -q 1, -q 2, q 3]

/-- `hemi`, lines 13-15. -/
noncomputable def hemi (q : V4) : V4 := if 0 ≤ q 3 then q else -q

/-- `normalize`, lines 17-19: nan for the zero array. -/
noncomputable def normalize (q : V4) : Py V4 := npVDiv q (npNorm q)

/-- The list `q_new`, lines 24-30. -/
def rawMult (p q : V4) : V4 :=
  let (x1, y1, z1, s1) := (p 0, p 1, p 2, p 3)
  let (x2, y2, z2, s2) := (q 0, q 1, q 2, q 3)
  ![s1 * x2 + x1 * s2 + y1 * z2 - z1 * y2,
    s1 * y2 - x1 * z2 + y1 * s2 + z1 * x2,
    s1 * z2 + x1 * y2 - y1 * x2 + z1 * s2,
    s1 * s2 - x1 * x2 - y1 * y2 - z1 * z2]

/-- `quat_mult(q_rot, q_init)`, lines 21-32. -/
noncomputable def quatMult (qRot qInit : V4) : Py V4 :=
  match normalize qRot with
  | .error e => .error e
  | .ok p =>
    match normalize qInit with
    | .error e => .error e
    | .ok q => normalize (rawMult p q)

/-- `quat_error`, lines 34-35. -/
noncomputable def quatError (qTarget qCurrent : V4) : Py V4 := quatMult qTarget (quatConjugate qCurrent)

/-- `to_scalar_last`, lines 37-38. -/
def toScalarLast (q : V4) : V4 := ![q 1, q 2, q 3, q 0]

/-- `axis_angle_to_quaternion(axis, angle_deg)`, lines 40-47. -/
noncomputable def axisAngle (axis : V3) (angleDeg : ℝ) : Py V4 :=
  let angle := npRadians angleDeg
  match npVDiv axis (npNorm axis) with
  | .error e => .error e
  | .ok u =>
    let s := Real.sin (angle / 2)
    let q : V4 := ![u 0 * s, u 1 * s, u 2 * s, Real.cos (angle / 2)]
    npVDiv q (npNorm q)

/-- `simulation/ADCS_Simulation_Basilisk.py` lines 225-227: the target attitude of a run, turned by `deg`
degrees about `axis` from the initial attitude. -/
noncomputable def initialTarget (axis : V3) (deg : ℝ) (qInit : V4) : Py V4 :=
  match axisAngle axis deg with
  | .error e => .error e
  | .ok qRot => quatMult qRot qInit

/-- `quat_to_axis`, lines 49-57. -/
noncomputable def quatToAxis (qError : V4) : Py V3 :=
  match npVDiv qError (npNorm qError) with
  | .error e => .error e
  | .ok q =>
    match npSqrt (1 - q 3 ^ 2) with
    | .error e => .error e
    | .ok s => if s < 1e-6 then .ok ![1, 0, 0] else npVDiv ![q 0, q 1, q 2] s

/-- `error_angle`, lines 59-70: nan if the scalar part is outside of [-1, 1]. -/
noncomputable def errorAngle (q : V4) : Py ℝ :=
  if |q 3| ≤ 1 then .ok (2 * Real.arccos |q 3| * 180 / Real.pi) else .error .nonFinite

/-- `axis_map`, line 87: `KeyError` for other characters. -/
def axisMap (c : Char) : Py V3 :=
  if c = 'x' then .ok ![1, 0, 0] else if c = 'y' then .ok ![0, 1, 0]
  else if c = 'z' then .ok ![0, 0, 1] else .error .keyError

/-- One entry of `q_list`, lines 90-91. -/
noncomputable def sequenceEntry (c : Char) (angle : ℝ) : Py V4 :=
  match axisMap c with
  | .error e => .error e
  | .ok a => axisAngle a angle

/-- `rotation_sequence_to_quaternion(angles_deg, order)`, lines 72-101. The last assertion compares a
floating-point norm with 1 exactly; over the reals it always holds, with rounding see `Fl.RotationSequence`. -/
noncomputable def rotationSequence (angles : List ℝ) (order : List Char) : Py V4 :=
  match angles, order with
  | [a1, a2, a3], [c1, c2, c3] =>
    if ∀ c ∈ [c1, c2, c3], c = 'x' ∨ c = 'y' ∨ c = 'z' then
      match sequenceEntry c1 a1 with
      | .error e => .error e
      | .ok q1 =>
        match sequenceEntry c2 a2 with
        | .error e => .error e
        | .ok q2 =>
          match sequenceEntry c3 a3 with
          | .error e => .error e
          | .ok q3 =>
            match quatMult q3 q2 with
            | .error e => .error e
            | .ok t =>
              match quatMult t q1 with
              | .error e => .error e
              | .ok t =>
                match npVDiv t (npNorm t) with
                | .error e => .error e
                | .ok t => if npNorm t = 1 then .ok t else .error .assertion
    else .error .assertion
  | _, _ => .error .assertion

/-- `get_rotation_angle_from_quaternion(q, degrees)`, lines 103-122. -/
noncomputable def rotationAngle (q : V4) (degrees : Bool) : Py ℝ :=
  match npVDiv q (npNorm q) with
  | .error e => .error e
  | .ok q =>
    let angle := 2 * Real.arccos (npClip (q 3) (-1) 1)
    .ok (if degrees then npDegrees angle else angle)

/-- `get_nadir_pointing_quaternion(r_BN_N, body_axis)`, ADCS_Simulation_Basilisk.py lines 48-84.
`Rotation.from_rotvec(axis * angle).as_quat()` of scipy is taken to be the scalar-last quaternion of the
rotation by `angle` about `axis`. -/
noncomputable def nadirQuaternion (r bodyAxis : V3) : Py V4 :=
  match npVDiv (-r) (npNorm r) with
  | .error e => .error e
  | .ok rHat =>
    match npVDiv bodyAxis (npNorm bodyAxis) with
    | .error e => .error e
    | .ok bHat =>
      let cross := npCross bHat rHat
      let dot := npDot bHat rHat
      let n := npNorm cross
      if n < 1e-8 then
        if 0 < dot then .ok ![0, 0, 0, 1]
        else
          let axis : V3 := if |bHat 0| < 0.9 then ![1, 0, 0] else ![0, 1, 0]
          let perp := npCross bHat axis
          match npVDiv perp (npNorm perp) with
          | .error e => .error e
          | .ok perp =>
            let s := Real.sin (Real.pi / 2)
            .ok ![perp 0 * s, perp 1 * s, perp 2 * s, Real.cos (Real.pi / 2)]
      else
        match npVDiv cross n with
        | .error e => .error e
        | .ok axis =>
          let angle := Real.arccos (npClip dot (-1) 1)
          let s := Real.sin (angle / 2)
          .ok ![axis 0 * s, axis 1 * s, axis 2 * s, Real.cos (angle / 2)]

end Adcs.Sim
