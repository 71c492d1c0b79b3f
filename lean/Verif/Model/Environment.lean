import Verif.Model.State
import Mathlib.Analysis.SpecialFunctions.Exp

set_option autoImplicit false

/-! # Model of `src/oresat_adcs/configuration/environment.py`

The two classes repeat the same constants and formulas; they are modelled separately. -/

namespace Adcs.Env

open Adcs JDay Dyn
open scoped Matrix

/-- Result of `SRP_info`. -/
structure SRPInfo where
  srp : ℝ
  inShadow : Bool
  S : V3

/-! ## `Environment`, lines 6-189 -/

namespace Plain

/-- Class constants, lines 7-24. -/
noncomputable def AU : ℝ := 1.496e11
noncomputable def earthRotation : ℝ := 7.2921158553e-5
noncomputable def gNewton : ℝ := 6.6743e-11
noncomputable def earthRad : ℝ := 6.378137e6
noncomputable def earthMass : ℝ := 5.9733328e24
noncomputable def J2 : ℝ := 1.08262668355e-3
noncomputable def J3 : ℝ := -2.53265648533e-6
noncomputable def J4 : ℝ := -1.61962159137e-6
noncomputable def magRefRadius : ℝ := 6.3712e6
noncomputable def G11 : ℝ := -1450.9
noncomputable def H11 : ℝ := 4652.5
noncomputable def G10 : ℝ := -29404.8

/-- `self.MU`, line 32. -/
noncomputable def MU : ℝ := gNewton * earthMass
/-- `self.m`, line 33. -/
noncomputable def m : V3 := (magRefRadius ^ 3 * 1e-9) • ![G11, H11, G10]
/-- `self.SRP_coeff`, line 34. -/
noncomputable def srpCoeff : ℝ := 1362 * AU ^ 2 / 299792458

/-- `relative_vel(x, v)`, lines 37-51. -/
noncomputable def relativeVel (x v : V3) : V3 :=
  ![v 0 + earthRotation * x 1, v 1 + earthRotation * x 0, v 2]

/-- The vector `earth_to_sun`, lines 67-75, at a Julian date. -/
noncomputable def earthToSun (jd : ℝ) : V3 :=
  let t := (jd - 2451545) / 36525
  let meanLong := pyMod (280.46 + 36000.771 * t) 360
  let meanAnom := npRadians (pyMod (357.5277233 + 35999.05034 * t) 360)
  let eclLong := npRadians (meanLong + 1.914666471 * Real.sin meanAnom
    + 0.019994643 * Real.sin (2 * meanAnom))
  let eclOblq := npRadians (23.439291 - 0.0130042 * t)
  ![Real.cos eclLong, Real.cos eclOblq * Real.sin eclLong, Real.sin eclOblq * Real.sin eclLong]

/-- `SRP_info(clock, x)`, lines 54-83. The square root of a negative number is nan, and comparison
with nan is `False`. -/
noncomputable def srpInfo (clock : JClock) (x : V3) : Py SRPInfo :=
  let s := earthToSun clock.julianDate
  let satToSun : V3 := AU • s - x
  let S := Vec.normalizeV satToSun
  let inShadow : Bool :=
    match npSqrt (npDot x x - earthRad ^ 2) with
    | .error _ => false
    | .ok r => npDot x s < -r
  match npDiv srpCoeff (npDot satToSun satToSun) with
  | .error e => .error e
  | .ok srp => .ok { srp := srp, inShadow := inShadow, S := S }

/-- `atmo_density(h)`, lines 87-120. Outside of the bands `rho_0` is unassigned. -/
noncomputable def atmoDensity (h : ℝ) : Py ℝ :=
  if 250000 ≤ h ∧ h < 300000 then .ok (7.248 * 10 ^ (-11 : ℤ) * Real.exp ((250000 - h) / 46900))
  else if 300000 ≤ h ∧ h < 350000 then
    .ok (2.418 * 10 ^ (-11 : ℤ) * Real.exp ((300000 - h) / 52500))
  else if 350000 ≤ h ∧ h < 400000 then
    .ok (9.158 * 10 ^ (-12 : ℤ) * Real.exp ((350000 - h) / 56400))
  else if 400000 ≤ h ∧ h < 450000 then
    .ok (3.727 * 10 ^ (-12 : ℤ) * Real.exp ((400000 - h) / 59400))
  else if 450000 ≤ h ∧ h < 500000 then
    .ok (1.585 * 10 ^ (-12 : ℤ) * Real.exp ((400000 - h) / 62200))
  else .error .unboundLocal

/-- `hi_fi_gravity(position, r, coeff)`, lines 123-152. -/
noncomputable def hiFiGravity (position : V3) (r coeff : ℝ) : Py V3 :=
  if r = 0 then .error .nonFinite
  else
    let xr := position 0 / r
    let yr := position 1 / r
    let zr := position 2 / r
    let z2 := zr ^ 2
    let z3 := zr * z2
    let z4 := z2 ^ 2
    let re := earthRad / r
    let a : V3 := fun i => position i / r
    let aj2 : V3 := (3 / 2 * J2 * re ^ 2) •
      ![(1 - 5 * z2) * xr, (1 - 5 * z2) * yr, (3 - 5 * z2) * zr]
    let aj3 : V3 := (1 / 2 * J3 * re ^ 3) •
      ![5 * (7 * z3 - 3 * zr) * xr, 5 * (7 * z3 - 3 * zr) * yr, 3 * (10 * z2 - 35 / 3 * z4 - 1)]
    let aj4 : V3 := (5 / 8 * J4 * re ^ 4) •
      ![(3 - 42 * z2 + 63 * z4) * xr, (3 - 42 * z2 + 63 * z4) * yr,
        -(15 - 70 * z2 + 63 * z4) * zr]
    .ok ((-coeff) • (a + aj2 + aj3 + aj4))

/-- `gravity_accel(position, length)`, lines 155-172. -/
noncomputable def gravityAccel (hiFi : Bool) (position : V3) (length : ℝ) : Py V3 :=
  match npDiv MU (length ^ 2) with
  | .error e => .error e
  | .ok coeff =>
    if hiFi then hiFiGravity position length coeff
    else npVDiv ((-coeff) • position) length

/-- `magnetic_field(r_ecef, length, GCI_to_ECEF)`, lines 174-189. -/
noncomputable def magneticField (rEcef : V3) (length : ℝ) (gci : M3) : Py V3 :=
  match npVDiv ((3 * npDot m rEcef) • rEcef - length ^ 2 • m) (length ^ 5) with
  | .error e => .error e
  | .ok R => .ok (gciᵀ *ᵥ R)

end Plain

/-! ## `OrbitalEnvironment`, lines 193-376 -/

namespace Orb

/-- Class constants, lines 194-211. -/
noncomputable def AU : ℝ := 1.496e11
noncomputable def earthRotation : ℝ := 7.2921158553e-5
noncomputable def gNewton : ℝ := 6.6743e-11
noncomputable def earthRad : ℝ := 6.378137e6
noncomputable def earthMass : ℝ := 5.9733328e24
noncomputable def J2 : ℝ := 1.08262668355e-3
noncomputable def J3 : ℝ := -2.53265648533e-6
noncomputable def J4 : ℝ := -1.61962159137e-6
noncomputable def magRefRadius : ℝ := 6.3712e6
noncomputable def G11 : ℝ := -1450.9
noncomputable def H11 : ℝ := 4652.5
noncomputable def G10 : ℝ := -29404.8

/-- `self.MU`, line 219. -/
noncomputable def MU : ℝ := gNewton * earthMass
/-- `self.m`, line 220. -/
noncomputable def m : V3 := (magRefRadius ^ 3 * 1e-9) • ![G11, H11, G10]
/-- `self.SRP_coeff`, line 221. -/
noncomputable def srpCoeff : ℝ := 1362 * AU ^ 2 / 299792458

variable {n : ℕ}

/-- `relative_vel(state)`, lines 224-238. -/
noncomputable def relativeVel (s : SatState n) : V3 :=
  ![s.attrs.v 0 + earthRotation * s.attrs.x 1, s.attrs.v 1 + earthRotation * s.attrs.x 0,
    s.attrs.v 2]

/-- The vector `earth_to_sun`, lines 253-261, at a Julian date. -/
noncomputable def earthToSun (jd : ℝ) : V3 :=
  let t := (jd - 2451545) / 36525
  let meanLong := pyMod (280.46 + 36000.771 * t) 360
  let meanAnom := npRadians (pyMod (357.5277233 + 35999.05034 * t) 360)
  let eclLong := npRadians (meanLong + 1.914666471 * Real.sin meanAnom
    + 0.019994643 * Real.sin (2 * meanAnom))
  let eclOblq := npRadians (23.439291 - 0.0130042 * t)
  ![Real.cos eclLong, Real.cos eclOblq * Real.sin eclLong, Real.sin eclOblq * Real.sin eclLong]

/-- `SRP_info(state)`, lines 241-270; `None.julian_date()` raises `AttributeError`. -/
noncomputable def srpInfo (st : SatState n) : Py SRPInfo :=
  match st.clock with
  | none => .error .attributeError
  | some clock =>
    let s := earthToSun clock.julianDate
    let satToSun : V3 := AU • s - st.attrs.x
    let S := Vec.normalizeV satToSun
    let inShadow : Bool :=
      match npSqrt (npDot st.attrs.x st.attrs.x - earthRad ^ 2) with
      | .error _ => false
      | .ok r => npDot st.attrs.x s < -r
    match npDiv srpCoeff (npDot satToSun satToSun) with
    | .error e => .error e
    | .ok srp => .ok { srp := srp, inShadow := inShadow, S := S }

/-- `atmo_density(state)`, lines 274-307. -/
noncomputable def atmoDensity (s : SatState n) : Py ℝ :=
  let h := s.attrs.h
  if 250000 ≤ h ∧ h < 300000 then .ok (7.248 * 10 ^ (-11 : ℤ) * Real.exp ((250000 - h) / 46900))
  else if 300000 ≤ h ∧ h < 350000 then
    .ok (2.418 * 10 ^ (-11 : ℤ) * Real.exp ((300000 - h) / 52500))
  else if 350000 ≤ h ∧ h < 400000 then
    .ok (9.158 * 10 ^ (-12 : ℤ) * Real.exp ((350000 - h) / 56400))
  else if 400000 ≤ h ∧ h < 450000 then
    .ok (3.727 * 10 ^ (-12 : ℤ) * Real.exp ((400000 - h) / 59400))
  else if 450000 ≤ h ∧ h < 500000 then
    .ok (1.585 * 10 ^ (-12 : ℤ) * Real.exp ((400000 - h) / 62200))
  else .error .unboundLocal

/-- `hi_fi_gravity(state, coeff)`, lines 310-339. -/
noncomputable def hiFiGravity (s : SatState n) (coeff : ℝ) : Py V3 :=
  if s.attrs.length = 0 then .error .nonFinite
  else
    let xr := s.attrs.position 0 / s.attrs.length
    let yr := s.attrs.position 1 / s.attrs.length
    let zr := s.attrs.position 2 / s.attrs.length
    let z2 := zr ^ 2
    let z3 := zr * z2
    let z4 := z2 ^ 2
    let re := earthRad / s.attrs.length
    let a : V3 := fun i => s.attrs.position i / s.attrs.length
    let aj2 : V3 := (3 / 2 * J2 * re ^ 2) •
      ![(1 - 5 * z2) * xr, (1 - 5 * z2) * yr, (3 - 5 * z2) * zr]
    let aj3 : V3 := (1 / 2 * J3 * re ^ 3) •
      ![5 * (7 * z3 - 3 * zr) * xr, 5 * (7 * z3 - 3 * zr) * yr, 3 * (10 * z2 - 35 / 3 * z4 - 1)]
    let aj4 : V3 := (5 / 8 * J4 * re ^ 4) •
      ![(3 - 42 * z2 + 63 * z4) * xr, (3 - 42 * z2 + 63 * z4) * yr,
        -(15 - 70 * z2 + 63 * z4) * zr]
    .ok ((-coeff) • (a + aj2 + aj3 + aj4))

/-- `gravity_accel(state)`, lines 342-359. -/
noncomputable def gravityAccel (hiFi : Bool) (s : SatState n) : Py V3 :=
  match npDiv MU (s.attrs.length ^ 2) with
  | .error e => .error e
  | .ok coeff =>
    if hiFi then hiFiGravity s coeff
    else npVDiv ((-coeff) • s.attrs.position) s.attrs.length

/-- `magnetic_field(state)`, lines 361-376. -/
noncomputable def magneticField (s : SatState n) : Py V3 :=
  match npVDiv ((3 * npDot m s.attrs.rEcef) • s.attrs.rEcef - s.attrs.length ^ 2 • m)
      (s.attrs.length ^ 5) with
  | .error e => .error e
  | .ok R => .ok (s.attrs.gciToEcefᵀ *ᵥ R)

end Orb

end Adcs.Env
