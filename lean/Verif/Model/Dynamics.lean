import Verif.Model.Sensor
import Verif.Model.Structure

set_option autoImplicit false

/-! # Model of `Dynamics` and `Integrator` in `src/oresat_adcs/classes/dynamics.py`, and of
`src/oresat_adcs/system/simulator.py`

`Dynamics` is a satellite with `OrbitalEnvironment(hi_fi)`, the environment used by all examples. -/

namespace Adcs.Dyn

open Adcs JDay Str Env Sens
open scoped Matrix

/-- Sum of arrays `[F, T]`. -/
def FT.add (a b : FT) : FT := ⟨a.F + b.F, a.T + b.T⟩

/-- `sum([...])` of arrays `[F, T]`. -/
def FT.sum (l : List FT) : FT := l.foldl FT.add ⟨0, 0⟩

/-- `Dynamics.area_and_cop`, lines 160-173. -/
noncomputable def areaAndCop (sat : Satellite) (v : V3) : Py (ℝ × V3) :=
  let s := (sat.walls.map fun w => w.centerOfPressure v).foldl
    (fun a b => (a.1 + b.1, a.2 + b.2)) ((0 : ℝ), (0 : V3))
  match npVDiv s.2 s.1 with
  | .error e => .error e
  | .ok c => .ok (s.1, c)

/-- `Dynamics.solar_F_and_T`, lines 177-201. -/
noncomputable def solarFT (sat : Satellite) (s : SatState sat.rw.n) : Py FT :=
  match Orb.srpInfo s with
  | .error e => .error e
  | .ok i =>
    if i.inShadow then .ok ⟨0, 0⟩
    else
      let ft := FT.sum (sat.walls.map fun w => w.srpForce i.srp i.S)
      .ok { ft with F := Quat.sandwichOpp s.attrs.attitude ft.F }

/-- `Dynamics.drag_F_and_T`, lines 205-224. -/
noncomputable def dragFT (sat : Satellite) (s : SatState sat.rw.n) : Py FT :=
  let vRel := Orb.relativeVel s
  let norm := npNorm vRel
  match npVDiv vRel norm with
  | .error e => .error e
  | .ok u =>
    let vRef := Quat.sandwich s.attrs.attitude u
    match Orb.atmoDensity s with
    | .error e => .error e
    | .ok rho =>
      let pressure := -0.5 * rho * sat.dragCoeff * norm ^ 2
      let ft := FT.sum (sat.walls.map fun w => w.dragForce pressure vRef)
      .ok { ft with F := Quat.sandwichOpp s.attrs.attitude ft.F }

/-- `Dynamics.gravity_F_and_T`, lines 227-245. -/
noncomputable def gravityFT (hiFi : Bool) (sat : Satellite) (s : SatState sat.rw.n) : Py FT :=
  match Orb.gravityAccel hiFi s with
  | .error e => .error e
  | .ok accel =>
    match npVDiv (-s.attrs.position) s.attrs.length with
    | .error e => .error e
    | .ok u =>
      let nv := Quat.sandwich s.attrs.attitude u
      match npDiv (3 * Orb.MU) (s.attrs.length ^ 3) with
      | .error e => .error e
      | .ok k =>
        .ok ⟨fun i => accel i * sat.mass, k • npCross nv (sat.totalMoment *ᵥ nv)⟩

/-- `Dynamics.env_F_and_T`, lines 249-286. -/
noncomputable def envFT (hiFi : Bool) (sat : Satellite) (s : SatState sat.rw.n) (magMoment : V3) :
    Py FT :=
  match solarFT sat s with
  | .error e => .error e
  | .ok S =>
    match dragFT sat s with
    | .error e => .error e
    | .ok D =>
      match gravityFT hiFi sat s with
      | .error e => .error e
      | .ok G =>
        match Orb.magneticField s with
        | .error e => .error e
        | .ok B =>
          let Bbody := Quat.sandwich s.attrs.attitude B
          let M : FT := ⟨0, npCross magMoment Bbody⟩
          .ok (FT.add (FT.add (FT.add D G) M) S)

/-- `Dynamics.vector_field`, lines 289-319, lines 314-319: the derivative for a given environment force
and torque. A zero mass makes the linear acceleration nan. -/
noncomputable def derivative (sat : Satellite) (s : SatState sat.rw.n) (env : FT)
    (accl : Fin sat.rw.n → ℝ) : Py (Raw sat.rw.n) :=
  let Twhl := sat.rw.torque accl
  let Hwhl := sat.rw.momentum s.attrs.wheelVel
  match npVDiv env.F sat.mass with
  | .error e => .error e
  | .ok dv =>
    let w := s.attrs.bodyAngVel
    .ok { pos := s.attrs.velocity
          vel := dv
          att := (0.5 : ℝ) • Quat.product s.attrs.attitude ![0, w 0, w 1, w 2]
          rate := sat.invTotMoment *ᵥ
            (env.T - Twhl - npCross w (Hwhl + sat.totalMoment *ᵥ w))
          whl := accl }

/-- `Dynamics.vector_field`, lines 289-319. -/
noncomputable def vectorField (hiFi : Bool) (sat : Satellite) (s : SatState sat.rw.n)
    (cur : Fin sat.nMt → ℝ) (accl : Fin sat.rw.n → ℝ) : Py (Raw sat.rw.n) :=
  match sysActuate sat.mt cur with
  | .error e => .error e
  | .ok moment =>
    match envFT hiFi sat s moment with
    | .error e => .error e
    | .ok env => derivative sat s env accl

/-- `Integrator.RK4_step`, lines 342-362, for the vector field `f` of a model with held commands. -/
noncomputable def rk4Step {n : ℕ} (f : SatState n → Py (Raw n)) (dt : ℝ) (s : SatState n) :
    Py (SatState n) :=
  match f s with
  | .error e => .error e
  | .ok k1 =>
  match s.add ((dt / 2) • k1) with
  | .error e => .error e
  | .ok s2 =>
  match f s2 with
  | .error e => .error e
  | .ok k2 =>
  match s.add ((dt / 2) • k2) with
  | .error e => .error e
  | .ok s3 =>
  match f s3 with
  | .error e => .error e
  | .ok k3 =>
  match s.add (dt • k3) with
  | .error e => .error e
  | .ok s4 =>
  match f s4 with
  | .error e => .error e
  | .ok k4 => s.add (dt • ((1 / 6 : ℝ) • (k1 + (2 : ℝ) • k2 + (2 : ℝ) • k3 + k4)))

/-- Attributes of an `Integrator`, lines 336-340, with the parts of the model that change: the gyro
(`satellite.sensors[3]`) and the random stream. -/
structure Integ (n : ℕ) where
  state : SatState n
  dt : ℝ
  gyro : Gyro
  rng : Rng

/-- `Integrator.update`, lines 364-382 (`model.simulator` is `True`, set on line 143). The result and the
integrator afterwards: an exception after line 377 leaves the new state in place. -/
noncomputable def Integ.update {n : ℕ} (f : SatState n → Py (Raw n)) (g : Integ n) :
    Py Unit × Integ n :=
  match rk4Step f g.dt g.state with
  | .error e => (.error e, g)
  | .ok next =>
    let next := { next with arr := { next.arr with att := Vec.normalizeV next.arr.att } }
    match next.clock with
    | none => (.error .attributeError, { g with state := next })
    | some c =>
      match c.tick g.dt with
      | (.error e, c') => (.error e, { g with state := { next with clock := some c' } })
      | (.ok (), c') =>
        let next := { next with clock := some c' }
        match next.update with
        | .error e => (.error e, { g with state := next })
        | .ok next =>
          match g.gyro.propagate g.dt g.rng with
          | .error e => (.error e, { g with state := next })
          | .ok (gy, rng) => (.ok (), { g with state := next, gyro := gy, rng := rng })

/-- The condition of the loop on line 393. -/
def loopCond (t duration : ℝ) : Prop := t < duration ∨ |t - duration| < 0.001

/-- The loop of `Integrator.integrate`, lines 393-400, started with counter `t`: it ends in `r`. There
is no derivation when it runs for ever. -/
inductive Loop {n : ℕ} (f : SatState n → Py (Raw n)) (duration : ℝ) :
    ℝ → Integ n → Py Unit × Integ n → Prop
  | done {t g} : ¬ loopCond t duration → Loop f duration t g (.ok (), g)
  | raise {t g e g'} : loopCond t duration → g.update f = (.error e, g') →
      Loop f duration t g (.error e, g')
  | step {t g g' r} : loopCond t duration → g.update f = (.ok (), g') →
      Loop f duration (t + g.dt) g' r → Loop f duration t g r

/-- `Integrator.integrate(duration, zero_order_hold)`, lines 384-400, ends in `r`. -/
def Integrates {n : ℕ} (f : SatState n → Py (Raw n)) (duration : ℝ) (g : Integ n)
    (r : Py Unit × Integ n) : Prop := Loop f duration g.dt g r

/-! ## `SimulatorDaemonInterface`, simulator.py lines 5-47 -/

/-- `SimulatorDaemonInterface.__init__`, simulator.py lines 10-14: the argument `dt` is overwritten. -/
noncomputable def simInit {n : ℕ} (state : SatState n) (_dt : ℝ) (gyro : Gyro) (rng : Rng) : Integ n :=
  let dt : ℝ := 0.05
  { state := state, dt := dt, gyro := gyro, rng := rng }

/-- `SimulatorDaemonInterface.propagate`, simulator.py lines 36-47 (`input` lines 16-23, `output`
lines 25-34): ends with these measurements and integrator. The sensors other than the gyro do not
change. -/
inductive SimPropagate {n : ℕ} (f : SatState n → Py (Raw n)) (suite : Suite n) (duration : ℝ)
    (g : Integ n) : Py (Measurements n) → Integ n → Prop
  | fail {e g'} : Integrates f duration g (.error e, g') → SimPropagate f suite duration g (.error e) g'
  | out {g' m rng} : Integrates f duration g (.ok (), g') →
      ({ suite with gyro := g'.gyro } : Suite n).measurement g'.state false g'.rng = .ok (m, rng) →
      SimPropagate f suite duration g (.ok m) { g' with rng := rng }
  | outFail {g' e} : Integrates f duration g (.ok (), g') →
      ({ suite with gyro := g'.gyro } : Suite n).measurement g'.state false g'.rng = .error e →
      SimPropagate f suite duration g (.error e) g'

end Adcs.Dyn
