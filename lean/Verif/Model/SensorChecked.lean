import Verif.Model.Sensor

set_option autoImplicit false

/-! # The sensors with the check of numpy's `normal`

`Verif.Model.Sensor` has the formula of `rng.normal` for every standard deviation. Here a negative one raises
`ValueError`, as in numpy, at the place in sensor.py where it is used. -/

namespace Adcs.Sens

open Adcs Dyn Env

/-- `rng.normal(mean, std, size)` (numpy): `ValueError: scale < 0`, also for size 0. (numpy looks at the sign bit, so
it also refuses the float -0.0, which the reals do not have.) -/
noncomputable def normalPy (mean std : ℝ) (size : ℕ) (rng : Rng) : Py ((Fin size → ℝ) × Rng) :=
  if std < 0 then .error .valueError else .ok (normal mean std size rng)

/-- `Sensor.generate_noise`, sensor.py lines 25-34. -/
noncomputable def Sensor.generateNoisePy {size : ℕ} (s : Sensor size) (noisy : Bool) (rng : Rng) :
    Py ((Fin size → ℝ) × Rng) :=
  if ¬ noisy then .ok (0, rng) else normalPy s.mean s.stdDev size rng

/-- `StarTracker.generate_noise`, sensor.py lines 119-121, for size 4. -/
noncomputable def starNoisePy (s : Sensor 4) (noisy : Bool) (rng : Rng) : Py (V4 × Rng) :=
  match (if ¬ noisy then .ok ((0 : V3), rng) else normalPy s.mean s.stdDev 3 rng : Py (V3 × Rng)) with
  | .error e => .error e
  | .ok (v, rng') => .ok (![0, v 0, v 1, v 2], rng')

/-- `Gyro.__init__`, sensor.py lines 147-155: the initial bias is drawn on line 150. -/
noncomputable def Gyro.initPy (arwMean arwStd rrwMean rrwStd initBias : ℝ) (rng : Rng) : Py (Gyro × Rng) :=
  match normalPy 0 initBias 3 rng with
  | .error e => .error e
  | .ok _ => .ok (Gyro.init arwMean arwStd rrwMean rrwStd initBias rng)

/-- `Gyro.propagate`, sensor.py lines 157-168: the drift is drawn on line 165. -/
noncomputable def Gyro.propagatePy (g : Gyro) (dt : ℝ) (rng : Rng) : Py (Gyro × Rng) :=
  match normalPy g.rrwMean g.rrwStdDev 3 rng with
  | .error e => .error e
  | .ok _ => g.propagate dt rng

/-- `Sensor.measurement`, sensor.py lines 49-59: first the true value, then the noise. -/
def measurementPy {size : ℕ} (trueValue : Py (Fin size → ℝ)) (noise : Rng → Py ((Fin size → ℝ) × Rng))
    (rng : Rng) : Py ((Fin size → ℝ) × Rng) :=
  match trueValue with
  | .error e => .error e
  | .ok v =>
    match noise rng with
    | .error e => .error e
    | .ok (w, rng') => .ok (v + w, rng')

/-- `Dynamics.measurement(state, noisy)`, dynamics.py lines 147-157. The noise of the gyro is drawn with the literals
0 and 1 (sensor.py line 176), which numpy accepts. -/
noncomputable def Suite.measurementPy {n : ℕ} (u : Suite n) (s : SatState n) (noisy : Bool) (rng : Rng) :
    Py (Measurements n × Rng) :=
  match Sens.measurementPy (gpsPosTrue s) (u.gpsPos.generateNoisePy noisy) rng with
  | .error e => .error e
  | .ok (m1, rng) =>
  match Sens.measurementPy (gpsVelTrue s) (u.gpsVel.generateNoisePy noisy) rng with
  | .error e => .error e
  | .ok (m2, rng) =>
  match Sens.measurementPy (starTrue s) (starNoisePy u.star noisy) rng with
  | .error e => .error e
  | .ok (m3, rng) =>
  match Sens.measurement (gyroTrue s) (u.gyro.generateNoise noisy) rng with
  | .error e => .error e
  | .ok (m4, rng) =>
  match Sens.measurementPy (wheelTrue s) (u.wheel.generateNoisePy noisy) rng with
  | .error e => .error e
  | .ok (m5, rng) =>
  match Sens.measurementPy (magTrue s) (u.mag.generateNoisePy noisy) rng with
  | .error e => .error e
  | .ok (m6, rng) =>
  match Sens.measurementPy (sunTrue s) (u.sun.generateNoisePy noisy) rng with
  | .error e => .error e
  | .ok (m7, rng) => .ok (⟨m1, m2, m3, m4, m5, m6, m7⟩, rng)

end Adcs.Sens
