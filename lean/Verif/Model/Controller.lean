import Verif.Model.Dynamics
import Mathlib.Analysis.SpecialFunctions.Log.Basic

set_option autoImplicit false

/-! # Model of `src/oresat_adcs/classes/controller.py`

`print` calls are left out.  The list of measurements handed to the controllers is the structure
`Measurements`.  A method that changes its object returns the exception or result and the object
afterwards. -/

namespace Adcs.Ctl

open Adcs JDay Str Sens
open scoped Matrix

/-! ## `MayhewTrigger`, lines 5-55 -/

/-- Attributes of a `MayhewTrigger`, lines 20-23. -/
structure Trigger where
  memory : ℝ
  halfWidth : ℝ

/-- `MayhewTrigger.__init__`, lines 20-23. -/
noncomputable def Trigger.init (x halfWidth : ℝ) : Trigger :=
  let sign := npSign x
  { memory := if sign ≠ 0 then sign else 1, halfWidth := halfWidth }

/-- `MayhewTrigger.step`, lines 25-38. -/
noncomputable def Trigger.step (t : Trigger) (x : ℝ) : Trigger :=
  if x * t.memory ≤ -t.halfWidth then
    let sign := npSign x
    { t with memory := if sign ≠ 0 then sign else t.memory }
  else t

/-- `MayhewTrigger.sign`, lines 40-55: the answer and the object afterwards. -/
noncomputable def Trigger.sign (t : Trigger) (x : ℝ) : ℝ × Trigger :=
  let t' := t.step x
  (t'.memory, t')

/-! ## The model object

The controllers are given a model (`model.satellite`, `model.clock`, `model.enviro`).  Attributes that
may be missing are options: `clock`, and the method `enviro.sun_vector(clock, position)`. -/

/-- What the controllers read of a model. -/
structure CtlModel where
  sat : Satellite
  clock : Option JClock
  sunVector : Option (JClock → V3 → Py V3)

/-- A `dynamics.Dynamics` object seen by the controllers: `Dynamics.__init__` (dynamics.py lines 138-143)
sets `satellite`, `enviro` and `simulator` only, and neither class of environment.py defines
`sun_vector`. -/
def ofDynamics (sat : Satellite) : CtlModel := { sat := sat, clock := none, sunVector := none }

/-! ## `MagnetorquerController`, lines 58-182 -/

/-- `self.bbq`, lines 71 and 207. -/
noncomputable def bbq : V3 := (4 : ℝ) • ![0, 0, 0.00733]

/-- `self.ecl`, lines 72-73 and 208-209. -/
noncomputable def ecl : V4 :=
  let eps := npRadians 23.439291
  ![Real.cos (0.5 * eps), Real.sin (0.5 * eps), 0, 0]

/-- `self.k_bbq`, line 81. -/
noncomputable def kBbq : ℝ := 1.72192143 * 4 * Real.pi / 5560.8

/-- Attributes of a `MagnetorquerController` that are used, lines 69-91, for a satellite with three
torquers. `triggers` is used only by a bang-bang controller. -/
structure MagController where
  sat : Satellite
  torquers : Fin 3 → Magnetorquer
  hdBody : V3
  hdIntl : V3
  bangBang : Bool
  triggers : Fin 3 → Trigger

/-- `MagnetorquerController.__init__`, lines 69-91. -/
noncomputable def MagController.init (model : CtlModel) (h3 : model.sat.nMt = 3) (bangBang : Bool) :
    Py MagController :=
  match model.clock with
  | none => .error .attributeError
  | some _ =>
    let hd := model.sat.totalMoment *ᵥ bbq
    .ok { sat := model.sat
          torquers := fun i => model.sat.mt (i.cast h3.symm)
          hdBody := hd
          hdIntl := npNorm hd • Quat.sandwichOpp ecl ![0, 0, 1]
          bangBang := bangBang
          triggers := fun _ => Trigger.init 1 0.3 }

/-- Line 110: the magnetic moment asked for. Division by a zero field is nan. -/
noncomputable def magMoment (B torque : V3) : Py V3 := npVDiv (npCross B torque) (npDot B B)

/-- `MagnetorquerController.actuator_commands(state, torque_command)`, lines 93-117, with
`mag_field = state[5]`. In a zero field the moment is nan, whose comparisons in the triggers fail: a
bang-bang controller goes on with the memory of its triggers. -/
noncomputable def MagController.actuatorCommands (c : MagController) (B torque : V3) :
    Py (Fin 3 → ℝ) × MagController :=
  match magMoment B torque with
  | .error e =>
    if c.bangBang then
      (distribute c.torquers fun i => (c.triggers i).memory * (c.torquers 2).maxM, c)
    else (.error e, c)
  | .ok m =>
    if c.bangBang then
      let m' : V3 := fun i => ((c.triggers i).sign (m i)).1 * (c.torquers 2).maxM
      (distribute c.torquers m', { c with triggers := fun i => ((c.triggers i).sign (m i)).2 })
    else (distribute c.torquers m, c)

/-- Lines 120-122: the torque asked for by `desaturate`. -/
noncomputable def MagController.desaturateTorque (c : MagController) (whl ref : Fin c.sat.rw.n → ℝ) : V3 :=
  (-kBbq) • (c.sat.rw.momentum whl - c.sat.rw.momentum ref)

/-- `MagnetorquerController.desaturate`, lines 119-125. -/
noncomputable def MagController.desaturate (c : MagController) (s : Measurements c.sat.rw.n)
    (ref : Fin c.sat.rw.n → ℝ) : Py (Fin 3 → ℝ) × MagController :=
  c.actuatorCommands s.mag (c.desaturateTorque s.whl ref)

/-- Line 149: the torque asked for by `detumble`. -/
noncomputable def MagController.detumbleTorque (c : MagController) (gyro : V3) : V3 :=
  (-kBbq) • (c.sat.totalMoment *ᵥ gyro)

/-- `MagnetorquerController.detumble`, lines 127-152. -/
noncomputable def MagController.detumble (c : MagController) (s : Measurements c.sat.rw.n) :
    Py (Fin 3 → ℝ) × MagController :=
  c.actuatorCommands s.mag (c.detumbleTorque s.rate)

/-- Lines 168-172: the torque asked for by `no_q_bbq_roll`. -/
noncomputable def MagController.bbqTorque (c : MagController) (q : V4) (w : V3) : V3 :=
  let h := c.sat.totalMoment *ᵥ w
  let Hd := Quat.sandwich q c.hdIntl
  let purespin := h - c.hdBody
  let spinaxis := h - Hd
  (-kBbq) • (purespin + spinaxis)

/-- `MagnetorquerController.no_q_bbq_roll`, lines 154-175. -/
noncomputable def MagController.noQBbqRoll (c : MagController) (s : Measurements c.sat.rw.n) :
    Py (Fin 3 → ℝ) × MagController :=
  c.actuatorCommands s.mag (c.bbqTorque s.att s.rate)

/-- `MagnetorquerController.check`, lines 177-182. -/
noncomputable def MagController.check (c : MagController) (q : V4) (w : V3) : ℝ :=
  let h := c.sat.totalMoment *ᵥ w
  let Hd := Quat.sandwich q c.hdIntl
  let purespin := h - c.hdBody
  let spinaxis := h - Hd
  npNorm (purespin + spinaxis)

/-! ## `ReactionWheelsController`, lines 185-470 -/

/-- `SensitiveInstrument.set_gains`, structure.py lines 31-35, with the same gain for every object (as
on line 228). -/
noncomputable def setGains (i : Instrument) (stop gain : ℝ) : Instrument :=
  let sigma : Fin i.nBounds → ℝ := fun j => 0.5 * |Real.cos (i.bounds j - i.sign j * stop) - i.cosPsi j|
  { i with sigma := sigma, iota := fun j => 0.25 * sigma j, gains := fun _ => gain,
           push := fun _ => gain * 0.5 }

/-- Attributes of a `ReactionWheelsController`, lines 198-236. `instruments` is
`satellite.instruments`, changed by `set_gains`; `J` is `MoI`. -/
structure RwController where
  sat : Satellite
  clock : JClock
  sunVector : Option (JClock → V3 → Py V3)
  objAvoidance : Bool
  trigger : Trigger
  alpha : ℝ
  gamma : ℝ
  instruments : List Instrument

/-- `ReactionWheelsController.__init__`, lines 198-236. The message on line 236 divides by
`damping * nat_freq` (Python floats). -/
noncomputable def RwController.init (model : CtlModel) (damping natFreq : ℝ) : Py RwController :=
  match model.clock with
  | none => .error .attributeError
  | some clock =>
    let alpha := 2 * natFreq ^ 2
    if damping * natFreq = 0 then .error .zeroDivision
    else .ok { sat := model.sat, clock := clock, sunVector := model.sunVector, objAvoidance := true,
               trigger := Trigger.init 1 0.3, alpha := alpha, gamma := 2 * damping * natFreq,
               instruments := model.sat.instruments.map fun i => setGains i Real.pi (alpha * 1) }

/-- The list `[obj(state) for obj in self.objects]`, line 366 with the functions of lines 204-205. -/
noncomputable def RwController.objects (c : RwController) (s : Measurements c.sat.rw.n) : Py (List V3) :=
  match c.sunVector with
  | none => .error .attributeError
  | some f =>
    match f c.clock s.pos with
    | .error e => .error e
    | .ok sun => .ok [Quat.sandwich s.att sun, -Vec.normalizeV s.pos]

/-- `np.log`: nan or -inf unless the argument is positive. -/
noncomputable def npLog (x : ℝ) : Py ℝ := if 0 < x then .ok (Real.log x) else .error .nonFinite

/-- The variables changed in the loop of `allowable_zone`. -/
structure Zone where
  c : ℝ
  axis : V3
  nudge : V3

/-- One pass of the inner loop of `allowable_zone`, lines 443-463, for object number `j`: `s` is the
answer of the trigger, `dq` the vector part of the attitude error. The tests `is np.zeros(3)` compare
with a new array and are always false. -/
noncomputable def zoneStep (instr : Instrument) (s : ℝ) (dq dw : V3) (j : ℕ) (obj : V3) (z : Zone) :
    Py Zone :=
  if h : j < instr.nBounds then
    let k : Fin instr.nBounds := ⟨j, h⟩
    let psi := 0.5 * instr.sign k * (npDot instr.boresight obj - instr.cosPsi k)
    match instr.caresAbout j psi with
    | .error e => .error e
    | .ok false => .ok z
    | .ok true =>
      let psi := if psi ≤ 0 then 1e-4 else psi
      match npLog psi with
      | .error e => .error e
      | .ok l =>
        let perp := npCross instr.boresight obj
        match npDiv (instr.gains k * instr.sign k) psi with
        | .error e => .error e
        | .ok g =>
          let nudge :=
            if psi < instr.iota k then
              let v := Vec.normalizeV (s • npCross dq perp)
              let dir := npSign (npDot dw v)
              let dir := if dir ≠ 0 then dir else instr.sign k
              z.nudge - (instr.push k * dir) • v
            else z.nudge
          .ok { c := z.c - instr.gains k * l, axis := z.axis + g • perp, nudge := nudge }
  else .error .indexError

/-- The inner loop, lines 442-463, from object number `j` on. -/
noncomputable def zoneObjects (instr : Instrument) (s : ℝ) (dq dw : V3) : ℕ → List V3 → Zone → Py Zone
  | _, [], z => .ok z
  | j, o :: l, z =>
    match zoneStep instr s dq dw j o z with
    | .error e => .error e
    | .ok z' => zoneObjects instr s dq dw (j + 1) l z'

/-- The outer loop, lines 441-463. -/
noncomputable def zoneInstruments (s : ℝ) (dq dw : V3) (objs : List V3) : List Instrument → Zone → Py Zone
  | [], z => .ok z
  | i :: l, z =>
    match zoneObjects i s dq dw 0 objs z with
    | .error e => .error e
    | .ok z' => zoneInstruments s dq dw objs l z'

/-- `ReactionWheelsController.allowable_zone`, lines 415-470. (`q_cmd` and `q_act` are not used.) -/
noncomputable def RwController.allowableZone (c : RwController) (delQ : V4) (delOmega : V3)
    (objs : List V3) : Py V3 × RwController :=
  let (s, t) := c.trigger.sign (delQ 0)
  let c' := { c with trigger := t }
  let dq := vecPart delQ
  match zoneInstruments s dq delOmega objs c.instruments ⟨c.alpha, 0, 0⟩ with
  | .error e => (.error e, c')
  | .ok z => (.ok ((-s * z.c) • dq + (0.5 * (1 - s * delQ 0)) • z.axis + z.nudge), c')

/-- `ReactionWheelsController.tracking(state, [rate_cmd, rate_cmd_dot, q_cmd])`, lines 348-395. -/
noncomputable def RwController.tracking (c : RwController) (s : Measurements c.sat.rw.n)
    (rateCmd rateCmdDot : V3) (qCmd : V4) : Py V3 × RwController :=
  match c.objects s with
  | .error e => (.error e, c)
  | .ok objs =>
    let I := c.sat.totalMoment
    let hw := c.sat.rw.momentum s.whl
    let err := Quat.errorQuat s.att qCmd
    let rateB := Quat.sandwich err rateCmd
    let rateErr := s.rate - rateB
    let delH := I *ᵥ rateErr
    let gyro := npCross s.rate (I *ᵥ s.rate + hw)
    let ff := -(I *ᵥ (npCross s.rate rateB + Quat.sandwich err rateCmdDot))
    let (q, c') : Py V3 × RwController :=
      if c.objAvoidance then
        match c.allowableZone err rateErr objs with
        | (.error e, c') => (.error e, c')
        | (.ok v, c') => (.ok (I *ᵥ v), c')
      else
        let (sg, t) := c.trigger.sign (err 0)
        (.ok ((-sg * c.alpha) • (I *ᵥ vecPart err)), { c with trigger := t })
    match q with
    | .error e => (.error e, c')
    | .ok quat => (.ok (gyro + quat + (-c.gamma) • delH + ff), c')

/-- `ReactionWheelsController.actuator_commands`, lines 397-413. -/
noncomputable def RwController.actuatorCommands (c : RwController) (law : V3) : Py (Fin c.sat.rw.n → ℝ) :=
  c.sat.rw.accelerations (-law)

/-- `ReactionWheelsController.track_and_desaturate`, lines 238-242. -/
noncomputable def RwController.trackAndDesaturate (c : RwController) (s : Measurements c.sat.rw.n)
    (moment : V3) (rateCmd rateCmdDot : V3) (qCmd : V4) : Py (Fin c.sat.rw.n → ℝ) × RwController :=
  match c.tracking s rateCmd rateCmdDot qCmd with
  | (.error e, c') => (.error e, c')
  | (.ok u, c') => (c.actuatorCommands (u + npCross s.mag moment), c')

/-- `ReactionWheelsController.ecliptic_attitude`, lines 244-264. -/
noncomputable def RwController.eclipticAttitude (c : RwController) (roll : Bool) : V4 :=
  if roll then
    let t : ℝ := c.clock.absolute
    Quat.product ecl ![Real.cos (0.5 * (bbq 2 * t)), 0, 0, Real.sin (0.5 * (bbq 2 * t))]
  else ecl

/-- `ReactionWheelsController.induce_bbq_roll_attitude`, lines 266-283. -/
noncomputable def RwController.induceBbqRollAttitude (c : RwController) (s : Measurements c.sat.rw.n)
    (moment : V3) : Py (Fin c.sat.rw.n → ℝ) × RwController :=
  c.trackAndDesaturate s moment bbq 0 (c.eclipticAttitude true)

/-- `ReactionWheelsController.acquire_target`, lines 285-310. -/
noncomputable def acquireTarget (position : V3) (attitude : V4) (boresight target : V3) : V4 :=
  let direction := Vec.pointingVector position target
  let directionB := Quat.sandwich attitude direction
  let (r, theta) := Vec.rAxisAngle boresight directionB
  Quat.axisangleToQuat r theta

/-- `ReactionWheelsController.point_and_stare`, lines 312-346: the references handed to `tracking`
(line 343), the rate and the attitude, for the entries 1 and 2 of `mission_data`. -/
noncomputable def pointReference (position velocity : V3) (attitude : V4) (data1 data2 : V3) :
    Py (V3 × V4) :=
  let boresight := data1
  let target := data2
  let h := position - target
  match npVDiv (npCross h velocity) (npDot h h) with
  | .error e => .error e
  | .ok w =>
    .ok (Quat.sandwich attitude w,
      Quat.product attitude (acquireTarget position attitude boresight target))

/-- `ReactionWheelsController.point_and_stare`, lines 312-346. -/
noncomputable def RwController.pointAndStare (c : RwController) (s : Measurements c.sat.rw.n)
    (data1 data2 : V3) : Py (Fin c.sat.rw.n → ℝ) × RwController :=
  match pointReference s.pos s.vel s.att data1 data2 with
  | .error e => (.error e, c)
  | .ok (wRef, qCmd) =>
    match c.tracking s wRef 0 qCmd with
    | (.error e, c') => (.error e, c')
    | (.ok T, c') => (c.actuatorCommands T, c')

end Adcs.Ctl
