import Verif.Model.Environment

set_option autoImplicit false

/-! # Model of `src/oresat_adcs/classes/sensor.py`

Random draws are explicit: every function that calls a generator takes the stream of future standard
normal draws `rng : ℕ → ℝ` and returns the stream that is left.  `rng.normal(mean, std, size)` is
`mean + std * z` for the next `size` draws `z`.  The code draws from two generators (`default_rng` for
most sensors, the global one of numpy for the gyro); one stream stands for both. -/

namespace Adcs.Sens

open Adcs Dyn Env

/-- The draws still to come of a random generator. -/
abbrev Rng := ℕ → ℝ

/-- `rng.normal(mean, std, size)` (numpy), for `std >= 0`. Simplification: for a negative `std` numpy raises `ValueError`,
the model keeps to the formula. -/
def normal (mean std : ℝ) (size : ℕ) (rng : Rng) : (Fin size → ℝ) × Rng :=
  (fun i => mean + std * rng i, fun k => rng (k + size))

/-- Attributes of a `Sensor`, lines 18-22 (the environment is `OrbitalEnvironment`). -/
structure Sensor (size : ℕ) where
  mean : ℝ
  stdDev : ℝ

/-- `Sensor.generate_noise`, lines 25-34. -/
def Sensor.generateNoise {size : ℕ} (s : Sensor size) (noisy : Bool) (rng : Rng) :
    (Fin size → ℝ) × Rng :=
  if ¬ noisy then (0, rng) else normal s.mean s.stdDev size rng

/-- `Sensor.measurement`, lines 49-59, given the overridden `true_value` and `generate_noise`. -/
def measurement {size : ℕ} (trueValue : Py (Fin size → ℝ)) (noise : Rng → (Fin size → ℝ) × Rng)
    (rng : Rng) : Py ((Fin size → ℝ) × Rng) :=
  match trueValue with
  | .error e => .error e
  | .ok v => let (w, rng') := noise rng; .ok (v + w, rng')

/-- `Sensor.true_value` of the base class, lines 37-46. -/
def Sensor.trueValue {size : ℕ} (_ : Sensor size) : Py (Fin size → ℝ) := .ok 0

/-- `GPS_pos.true_value`, lines 75-81. -/
def gpsPosTrue {n : ℕ} (s : SatState n) : Py V3 := .ok s.arr.pos

/-- `GPS_vel.true_value`, lines 94-100. -/
def gpsVelTrue {n : ℕ} (s : SatState n) : Py V3 := .ok s.arr.vel

/-- `StarTracker.true_value`, lines 124-130. -/
def starTrue {n : ℕ} (s : SatState n) : Py V4 := .ok s.arr.att

/-- `StarTracker.generate_noise`, lines 119-121, for size 4: nothing is added to the scalar part. -/
def starNoise (s : Sensor 4) (noisy : Bool) (rng : Rng) : V4 × Rng :=
  let (v, rng') := if ¬ noisy then ((0 : V3), rng) else normal s.mean s.stdDev 3 rng
  (![0, v 0, v 1, v 2], rng')

/-- Attributes of a `Gyro`, lines 147-155. -/
structure Gyro where
  base : Sensor 3
  rrwMean : ℝ
  rrwStdDev : ℝ
  bias : V3
  lastBias : V3
  noiseCoefficient : ℝ
  arwVar : ℝ
  rrwVar : ℝ

/-- `Gyro.__init__`, lines 147-155. -/
noncomputable def Gyro.init (arwMean arwStd rrwMean rrwStd initBias : ℝ) (rng : Rng) : Gyro × Rng :=
  let (b, rng') := normal 0 initBias 3 rng
  ({ base := ⟨arwMean, arwStd⟩, rrwMean := rrwMean, rrwStdDev := rrwStd, bias := b, lastBias := 0,
     noiseCoefficient := 0, arwVar := arwStd ^ 2, rrwVar := rrwStd ^ 2 / 12 }, rng')

/-- `Gyro.propagate`, lines 157-168.  `np.sqrt(dt)` of a negative step is nan, division of a Python
float by zero raises (the steps the library passes are Python floats). -/
noncomputable def Gyro.propagate (g : Gyro) (dt : ℝ) (rng : Rng) : Py (Gyro × Rng) :=
  let (z, rng') := normal g.rrwMean g.rrwStdDev 3 rng
  match npSqrt dt with
  | .error e => .error e
  | .ok sq =>
    let newBias : V3 := g.bias + sq • z
    if dt = 0 then .error .zeroDivision
    else
      match npSqrt (g.arwVar / dt + g.rrwVar * dt) with
      | .error e => .error e
      | .ok c => .ok ({ g with lastBias := g.bias, noiseCoefficient := c, bias := newBias }, rng')

/-- `Gyro.generate_noise`, lines 170-176. -/
noncomputable def Gyro.generateNoise (g : Gyro) (noisy : Bool) (rng : Rng) : V3 × Rng :=
  if ¬ noisy then (0, rng)
  else
    let (z, rng') := normal 0 1 3 rng
    ((0.5 : ℝ) • (g.bias + g.lastBias) + g.noiseCoefficient • z, rng')

/-- `Gyro.true_value`, lines 178-184. -/
def gyroTrue {n : ℕ} (s : SatState n) : Py V3 := .ok s.arr.rate

/-- `Wheel_vel.true_value`, lines 199-205. -/
def wheelTrue {n : ℕ} (s : SatState n) : Py (Fin n → ℝ) := .ok s.arr.whl

/-- `Magnetometer.true_value`, lines 221-229. -/
noncomputable def magTrue {n : ℕ} (s : SatState n) : Py V3 :=
  match Orb.magneticField s with
  | .error e => .error e
  | .ok B => .ok (Quat.sandwich s.arr.att B)

/-- `SunSensor.true_value`, lines 244-252. -/
noncomputable def sunTrue {n : ℕ} (s : SatState n) : Py V3 :=
  match Orb.srpInfo s with
  | .error e => .error e
  | .ok i => .ok (Quat.sandwich s.arr.att i.S)

/-- The sensor list of the library's examples, in the order documented by `Dynamics.measurement`
(dynamics.py lines 147-157). `n` is the number of wheels. -/
structure Suite (n : ℕ) where
  gpsPos : Sensor 3
  gpsVel : Sensor 3
  star : Sensor 4
  gyro : Gyro
  wheel : Sensor n
  mag : Sensor 3
  sun : Sensor 3

/-- The list returned by `Dynamics.measurement`. -/
@[ext] structure Measurements (n : ℕ) where
  pos : V3
  vel : V3
  att : V4
  rate : V3
  whl : Fin n → ℝ
  mag : V3
  sun : V3

/-- `Dynamics.measurement(state, noisy)`, dynamics.py lines 147-157: each sensor in turn
(sensor.py lines 49-59). -/
noncomputable def Suite.measurement {n : ℕ} (u : Suite n) (s : SatState n) (noisy : Bool) (rng : Rng) :
    Py (Measurements n × Rng) :=
  match Sens.measurement (gpsPosTrue s) (u.gpsPos.generateNoise noisy) rng with
  | .error e => .error e
  | .ok (m1, rng) =>
  match Sens.measurement (gpsVelTrue s) (u.gpsVel.generateNoise noisy) rng with
  | .error e => .error e
  | .ok (m2, rng) =>
  match Sens.measurement (starTrue s) (starNoise u.star noisy) rng with
  | .error e => .error e
  | .ok (m3, rng) =>
  match Sens.measurement (gyroTrue s) (u.gyro.generateNoise noisy) rng with
  | .error e => .error e
  | .ok (m4, rng) =>
  match Sens.measurement (wheelTrue s) (u.wheel.generateNoise noisy) rng with
  | .error e => .error e
  | .ok (m5, rng) =>
  match Sens.measurement (magTrue s) (u.mag.generateNoise noisy) rng with
  | .error e => .error e
  | .ok (m6, rng) =>
  match Sens.measurement (sunTrue s) (u.sun.generateNoise noisy) rng with
  | .error e => .error e
  | .ok (m7, rng) => .ok (⟨m1, m2, m3, m4, m5, m6, m7⟩, rng)

end Adcs.Sens
