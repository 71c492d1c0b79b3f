import Verif.Model.Quaternion

set_option autoImplicit false

/-! # Model of `src/oresat_adcs/functions/frame.py` -/

namespace Adcs.Fr

open Adcs Vec

/-- `inertial_to_ecef(clock)`, frame.py lines 9-28, as a function of the value of
`clock.theta_gmst()`. -/
noncomputable def inertialToEcef (gmst : ℝ) : M3 :=
  let C := Real.cos gmst
  let S := Real.sin gmst
  !![C, S, 0; -S, C, 0; 0, 0, 1]

/-- `lvlh_to_inertial(r_I, v_I)`, frame.py lines 30-51. -/
noncomputable def lvlhToInertial (r v : V3) : M3 :=
  let o3 := -normalizeV r
  let o2 := -normalizeV (npCross r v)
  let o1 := npCross o2 o3
  !![o1 0, o2 0, o3 0; o1 1, o2 1, o3 1; o1 2, o2 2, o3 2]

/-- `geodetic_to_ECEF(lat, long, h)` (radians), frame.py lines 53-79.  The root is always of a
positive number since `e = 0.0818`. -/
noncomputable def geodeticToEcef (lat long h : ℝ) : V3 :=
  let a : ℝ := 6378137
  let e : ℝ := 0.0818
  let N := a / Real.sqrt (1 - (e * Real.sin lat) ^ 2)
  let temp := (N + h) * Real.cos lat
  ![temp * Real.cos long, temp * Real.sin long, (N * (1 - e ^ 2) + h) * Real.sin lat]

/-- WGS-84 parameters and derived constants, frame.py lines 81-92. -/
noncomputable def wgsA : ℝ := 6378137
noncomputable def wgsF : ℝ := 1 / 298.257223563
noncomputable def wgsE2 : ℝ := wgsF * (2 - wgsF)
noncomputable def wgsA1 : ℝ := wgsA * wgsE2
noncomputable def wgsA2 : ℝ := wgsA1 * wgsA1
noncomputable def wgsA3 : ℝ := wgsA1 * wgsE2 / 2
noncomputable def wgsA4 : ℝ := 2.5 * wgsA2
noncomputable def wgsA5 : ℝ := wgsA1 + wgsA3
noncomputable def wgsA6 : ℝ := 1 - wgsE2

/-- `ecef_to_lla`, frame.py lines 116-134: from `w` (distance from the axis) and `z` the first
estimate `(s, c, ss, lat)`.  At the centre of the Earth `a2 / r` raises `ZeroDivisionError`;
`math.asin`/`math.acos` raise `ValueError` outside `[-1, 1]`. -/
noncomputable def llaStart (w z : ℝ) : Py (ℝ × ℝ × ℝ × ℝ) :=
  let zp := |z|
  let w2 := w * w
  let r2 := z * z + w2
  let r := Real.sqrt r2
  if r = 0 then .error .zeroDivision
  else
    let s2 := z * z / r2
    let c2 := w2 / r2
    let u := wgsA2 / r
    let v := wgsA3 - wgsA4 / r
    if c2 > 0.3 then
      let s := zp / r * (1 + c2 * (wgsA1 + u + s2 * v) / r)
      if s < -1 ∨ 1 < s then .error .valueError
      else
        let ss := s * s
        .ok (s, Real.sqrt (1 - ss), ss, Real.arcsin s)
    else
      let c := w / r * (1 - s2 * (wgsA5 - u - c2 * v) / r)
      if c < -1 ∨ 1 < c then .error .valueError
      else
        let ss := 1 - c * c
        .ok (Real.sqrt ss, c, ss, Real.arccos c)

/-- `ecef_to_lla(ecef)`, frame.py lines 94-146; degrees and metres.  The division in
`p = m / (rf / g + f)` is a numpy division; `g` is positive because `0 ≤ ss ≤ 1`. -/
noncomputable def ecefToLla (x : V3) : Py (ℝ × ℝ × ℝ) :=
  let w := Real.sqrt (x 0 * x 0 + x 1 * x 1)
  let z := x 2
  let zp := |z|
  match llaStart w z with
  | .error e => .error e
  | .ok (s, c, ss, lat) =>
    let g := 1 - wgsE2 * ss
    let rg := wgsA / Real.sqrt g
    let rf := wgsA6 * rg
    let u := w - rg * c
    let v := zp - rf * s
    let f := c * u + s * v
    let m := c * v - s * u
    if rf / g + f = 0 then .error .nonFinite
    else
      let p := m / (rf / g + f)
      let lat := lat + p
      let lat := if z < 0 then -lat else lat
      .ok (npDegrees lat, npDegrees (npArctan2 (x 1) (x 0)), f + m * p / 2)

end Adcs.Fr
