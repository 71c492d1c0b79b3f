import Verif.Model.Controller
import Verif.Model.Observers
import Verif.Model.StateMachine

set_option autoImplicit false

/-! # Model of `src/oresat_adcs/system/manager.py`, `src/oresat_adcs/system/manager_class.py` and of
`KalmanFilters` in `src/oresat_adcs/classes/observers.py` -/

namespace Adcs.Man

open Adcs Ctl Sens Str
open scoped Matrix

/-! ## Calling Python functions -/

/-- The parameters of a Python function or bound method (without `self`): the names of those without
and those with a default. -/
structure Sig where
  required : List String
  optional : List String

/-- Binding `npos` positional arguments and the keywords `kw` to the parameters: `TypeError` for too
many arguments, an unknown or doubly given keyword or a missing argument. -/
def Sig.bind (s : Sig) (npos : ℕ) (kw : List String) : Py Unit :=
  let names := s.required ++ s.optional
  if names.length < npos then .error .typeError
  else if ∃ k ∈ kw, k ∉ names.drop npos then .error .typeError
  else if ∃ r ∈ s.required.drop npos, r ∉ kw then .error .typeError
  else .ok ()

/-- `Dynamics.measurement(self, state, noisy)`, dynamics.py line 147. -/
def sigDynamicsMeasurement : Sig := ⟨["state", "noisy"], []⟩
/-- `DiscretePositionKalman.__init__(self, env, state)`, observers.py line 188. -/
def sigPosKalman : Sig := ⟨["env", "state"], []⟩
/-- `MagnetorquerController.__init__(self, model, bang_bang)`, controller.py line 69. -/
def sigMagController : Sig := ⟨["model", "bang_bang"], []⟩
/-- `MagnetorquerController.detumble(self, state)`, controller.py line 127. -/
def sigDetumble : Sig := ⟨["state"], []⟩
/-- `ReactionWheelsController.point_and_stare(self, state, mission_data)`, controller.py line 312. -/
def sigPointAndStare : Sig := ⟨["state", "mission_data"], []⟩

/-! ## `KalmanFilters`, observers.py lines 339-399 -/

/-- What `KalmanFilters` uses of its `truth_model`: the parameters of the method `measurement`, what
it returns (or raises), and the attribute `init_date` if there is one. -/
structure Truth (n : ℕ) where
  sig : Sig
  measurement : Py (Measurements n)
  initDate : Option JDay.JClock

/-- A `dynamics.Dynamics` object (dynamics.py lines 138-157) as truth model: `__init__` sets
`satellite`, `enviro` and `simulator` only. -/
def Truth.ofDynamics {n : ℕ} (result : Py (Measurements n)) : Truth n :=
  ⟨sigDynamicsMeasurement, result, none⟩

/-- The evaluation of `truth_model.measurement(noisy=True)`, lines 350 and 363. -/
def Truth.call {n : ℕ} (t : Truth n) : Py (Measurements n) :=
  match t.sig.bind 0 ["noisy"] with
  | .error e => .error e
  | .ok () => t.measurement

/-- The attributes of a `KalmanFilters` object. `lastW` is set by `output`. A `DiscretePositionKalman`
has no attribute `model` (observers.py lines 188-216). -/
structure Filters (n : ℕ) where
  truth : Truth n
  gyroDt : ℝ
  gpsDt : ℝ
  pos : Obs.Pos.Kalman n
  att : Obs.Att.Kalman
  lastW : Option V3

/-- `KalmanFilters.__init__`, lines 348-355. `DiscretePositionKalman` is called with three arguments
(line 354); `posInit` is what its body would do with them. -/
noncomputable def Filters.init {n : ℕ} (gyroStep gpsStep : ℝ) (truth : Truth n)
    (posInit : V3 → V3 → JDay.JClock → Py (Obs.Pos.Kalman n)) : Py (Filters n) :=
  match truth.call with
  | .error e => .error e
  | .ok s =>
    match truth.initDate with
    | none => .error .attributeError
    | some date =>
      match sigPosKalman.bind 3 [] with
      | .error e => .error e
      | .ok () =>
        match posInit s.pos s.vel date with
        | .error e => .error e
        | .ok pos => .ok ⟨truth, gyroStep, gpsStep, pos, Obs.Att.init s.att, none⟩

/-- `KalmanFilters.output`, lines 357-372. -/
def Filters.output {n : ℕ} (f : Filters n) : Py (Measurements n) × Filters n :=
  match f.truth.call with
  | .error e => (.error e, f)
  | .ok s =>
    let (x, v) := f.pos.output
    let (q, b) := f.att.output
    let w := s.rate - b
    (.ok { s with pos := x, vel := v, att := q, rate := w }, { f with lastW := some w })

/-- `KalmanFilters.update`, lines 374-381: the first three entries of the sensor data. -/
noncomputable def Filters.update {n : ℕ} (f : Filters n) (x v : V3) (q : V4) : Py Unit × Filters n :=
  match f.pos.update x v with
  | (.error e, p) => (.error e, { f with pos := p })
  | (.ok (), p) =>
    match f.att.measurement q with
    | .error e => (.error e, { f with pos := p })
    | .ok a => (.ok (), { f with pos := p, att := a })

/-- The condition of the loops on lines 391 and 395. -/
def due (t duration : ℝ) : Prop := t < duration ∨ |t - duration| < 0.001

/-- The loop on lines 391-393, from time `t` on: ends with the second filter. -/
inductive AttLoop (w : V3) (dt duration : ℝ) : ℝ → Obs.Att.Kalman → Obs.Att.Kalman → Prop
  | stop {t a} : ¬ due t duration → AttLoop w dt duration t a a
  | step {t a a'} : due t duration → AttLoop w dt duration (t + dt) (a.propagate w dt) a' →
      AttLoop w dt duration t a a'

/-- `KalmanFilters.propagate`, lines 383-399: ends with this exception or result and this object. The
body of the second loop reads `self.PosFilter.model` after propagating the position filter; there is no
such attribute. Line 390 reads `self.last_w`, an attribute that only `output` sets. -/
inductive Propagates {n : ℕ} (f : Filters n) (duration : ℝ) : Py Unit → Filters n → Prop
  | noRate : f.lastW = none → Propagates f duration (.error .attributeError) f
  | done {w a} : f.lastW = some w → AttLoop w f.gyroDt duration f.gyroDt f.att a →
      ¬ due f.gpsDt duration → Propagates f duration (.ok ()) { f with att := a }
  | posFail {w a e p} : f.lastW = some w → AttLoop w f.gyroDt duration f.gyroDt f.att a →
      due f.gpsDt duration → f.pos.propagate f.gpsDt = (.error e, p) →
      Propagates f duration (.error e) { f with att := a, pos := p }
  | noModel {w a p} : f.lastW = some w → AttLoop w f.gyroDt duration f.gyroDt f.att a →
      due f.gpsDt duration → f.pos.propagate f.gpsDt = (.ok (), p) →
      Propagates f duration (.error .attributeError) { f with att := a, pos := p }

/-! ## `ManagerDaemonInterface` of manager_class.py -/

/-- A stored wheel command: an array of some length. -/
def Cmd : Type := Σ n : ℕ, Fin n → ℝ

/-- `np.zeros(4)`. -/
def zeros4 : Cmd := ⟨4, 0⟩

/-- Attributes of a `ManagerDaemonInterface`, manager_class.py lines 19-23, without the filter. Both controllers are made
from `self.filter.PosFilter.model`. -/
structure Manager where
  mag : MagController
  rw : RwController
  same : rw.sat = mag.sat
  magCmd : Fin 3 → ℝ
  rwCmd : Cmd

/-- `ManagerDaemonInterface.__init__`, manager_class.py lines 20-23, given that the filter was constructed and has the
attribute `PosFilter.model`. -/
noncomputable def Manager.init (model : CtlModel) (h3 : model.sat.nMt = 3) : Py Manager :=
  match hm : MagController.init model h3 false with
  | .error e => .error e
  | .ok mag =>
    match hr : RwController.init model 0.707 0.1 with
    | .error e => .error e
    | .ok rw => .ok
      { mag := mag, rw := rw, magCmd := 0, rwCmd := zeros4
        same := by
          have h1 : mag.sat = model.sat := by
            unfold MagController.init at hm
            cases hc : model.clock with
            | none => rw [hc] at hm; simp at hm
            | some c => rw [hc] at hm; simp only [Except.ok.injEq] at hm; rw [← hm]
          have h2 : rw.sat = model.sat := by
            unfold RwController.init at hr
            cases hc : model.clock with
            | none => rw [hc] at hr; simp at hr
            | some c =>
              rw [hc] at hr
              simp only at hr
              split at hr
              · cases hr
              · simp only [Except.ok.injEq] at hr; rw [← hr]
          rw [h1, h2] }

/-- The whole constructor, manager_class.py lines 19-23: the filter comes first. `model` is what
`self.filter.PosFilter.model` is, if it exists. -/
noncomputable def Manager.construct {n : ℕ} (gyroStep gpsStep : ℝ) (truth : Truth n)
    (posInit : V3 → V3 → JDay.JClock → Py (Obs.Pos.Kalman n)) (model : Option CtlModel)
    (h3 : ∀ m ∈ model, m.sat.nMt = 3) : Py Manager :=
  match Filters.init gyroStep gpsStep truth posInit with
  | .error e => .error e
  | .ok _ =>
    match model with
    | none => .error .attributeError
    | some m => Manager.init m (h3 m rfl)

/-- `mission_data`: the number of a state and the entries after it. -/
structure MissionData where
  id : ℤ
  rest : List V3

/-- The vector `null`, manager_class.py line 58. -/
noncomputable def null4 : Fin 4 → ℝ := ![-0.5, 0.5, -0.5, 0.5]

/-- `mult`, manager_class.py line 59. -/
noncomputable def spinMult : ℝ := kBbq * 250

/-- Lines 56-72: the wheel command of SPINDOWN for wheel speeds `whl`. `np.dot` raises `ValueError`
unless there are four wheels. -/
noncomputable def spindown {n : ℕ} (whl : Fin n → ℝ) : Py Cmd :=
  if h : n = 4 then
    let w : Fin 4 → ℝ := fun i => whl (i.cast h.symm)
    let cmd := (-(∑ i, w i * null4 i)) • null4
    if npNorm cmd < 0.00001 then
      if npNorm w < 0.01 then .ok zeros4
      else .ok ⟨4, spinMult • -w⟩
    else .ok ⟨4, cmd⟩
  else .error .valueError

theorem MagController.actuatorCommands_sat (c : MagController) (B torque : V3) :
    (c.actuatorCommands B torque).2.sat = c.sat := by
  unfold MagController.actuatorCommands
  split <;> split <;> rfl

theorem RwController.allowableZone_sat (c : RwController) (q : V4) (w : V3) (objs : List V3) :
    (c.allowableZone q w objs).2.sat = c.sat := by
  unfold RwController.allowableZone
  simp only
  split <;> rfl

theorem RwController.tracking_sat (c : RwController) (s : Measurements c.sat.rw.n) (a b : V3) (q : V4) :
    (c.tracking s a b q).2.sat = c.sat := by
  unfold RwController.tracking
  split
  · rfl
  · rename_i objs _
    have hz := RwController.allowableZone_sat c (Quat.errorQuat s.att q)
      (s.rate - Quat.sandwich (Quat.errorQuat s.att q) a) objs
    simp only
    cases hb : c.objAvoidance
    · simp
    · rcases hr : c.allowableZone (Quat.errorQuat s.att q)
        (s.rate - Quat.sandwich (Quat.errorQuat s.att q) a) objs with ⟨r | r, c'⟩ <;>
      · rw [hr] at hz
        simpa using hz

theorem RwController.pointAndStare_sat (c : RwController) (s : Measurements c.sat.rw.n) (a b : V3) :
    (c.pointAndStare s a b).2.sat = c.sat := by
  unfold RwController.pointAndStare
  split
  · rfl
  · rename_i w q _
    have := RwController.tracking_sat c s w 0 q
    split <;> simp_all

theorem RwController.induceBbqRollAttitude_sat (c : RwController) (s : Measurements c.sat.rw.n) (m : V3) :
    (c.induceBbqRollAttitude s m).2.sat = c.sat := by
  unfold RwController.induceBbqRollAttitude RwController.trackAndDesaturate
  have := RwController.tracking_sat c s bbq 0 (c.eclipticAttitude true)
  split <;> simp_all

/-- The measurements for the wheels controller, which has the same satellite. -/
def Manager.forRw (m : Manager) (s : Measurements m.mag.sat.rw.n) : Measurements m.rw.sat.rw.n :=
  { pos := s.pos, vel := s.vel, att := s.att, rate := s.rate, mag := s.mag, sun := s.sun
    whl := fun i => s.whl (i.cast (by rw [m.same])) }

/-- Storing the result of a wheels controller. -/
def Manager.setRw (m : Manager) {c : RwController} (r : Py (Fin c.sat.rw.n → ℝ) × RwController)
    (h : r.2.sat = m.mag.sat) : Py Unit × Manager :=
  match r.1 with
  | .error e => (.error e, { m with rw := r.2, same := h })
  | .ok cmd => (.ok (), { m with rw := r.2, same := h, rwCmd := ⟨_, cmd⟩ })

/-- Storing the result of a torquers controller. -/
def Manager.setMag (m : Manager) (r : Py (Fin 3 → ℝ) × MagController) (h : r.2.sat = m.mag.sat) :
    Py Unit × Manager :=
  match r.1 with
  | .error e => (.error e, { m with mag := r.2, same := m.same.trans h.symm })
  | .ok cmd => (.ok (), { m with mag := r.2, same := m.same.trans h.symm, magCmd := cmd })

/-- `mission_input`, manager_class.py lines 25-75, where `out` is what `self.filter.output()` gives. Attributes assigned
before an exception keep their new values. In BBQ (manager_class.py line 54) `np.zeros(4)` is a reference for at most
four wheels (`momentum` reads one entry for each wheel, `IndexError` in structure.py line 368 when there are more); the
torquers of `self.filter.PosFilter.model.satellite` are those of the controller. -/
noncomputable def Manager.missionInput (m : Manager) (out : Py (Measurements m.mag.sat.rw.n))
    (d : MissionData) : Py Unit × Manager :=
  match out with
  | .error e => (.error e, m)
  | .ok s =>
    if d.id = SM.State.SLEEP.value ∨ d.id = SM.State.FAILED.value then
      (.ok (), { m with magCmd := 0, rwCmd := zeros4 })
    else if d.id = SM.State.DETUMBLE.value then
      match m.setMag (m.mag.detumble s) (MagController.actuatorCommands_sat ..) with
      | (.error e, m') => (.error e, m')
      | (.ok (), m') => (.ok (), { m' with rwCmd := zeros4 })
    else if d.id = SM.State.POINT.value then
      let m1 := { m with magCmd := 0 }
      match d.rest with
      | d1 :: d2 :: _ => m1.setRw (m.rw.pointAndStare (m.forRw s) d1 d2)
          ((RwController.pointAndStare_sat ..).trans m.same)
      | _ => (.error .indexError, m1)
    else if d.id = SM.State.BBQ.value then
      if m.mag.sat.rw.n ≤ 4 then
        let r := m.mag.desaturate s 0
        have h : r.2.sat = m.mag.sat := MagController.actuatorCommands_sat ..
        match r.1 with
        | .error e => (.error e, { m with mag := r.2, same := m.same.trans h.symm })
        | .ok currents =>
          let m' : Manager := { m with mag := r.2, same := m.same.trans h.symm, magCmd := currents }
          match sysActuate r.2.torquers currents with
          | .error e => (.error e, m')
          | .ok moment => m'.setRw (m.rw.induceBbqRollAttitude (m.forRw s) moment)
              ((RwController.induceBbqRollAttitude_sat ..).trans m'.same)
      else (.error .indexError, m)
    else if d.id = SM.State.SPINDOWN.value then
      let m1 := { m with magCmd := 0 }
      match spindown s.whl with
      | .error e => (.error e, m1)
      | .ok cmd => (.ok (), { m1 with rwCmd := cmd })
    else (.ok (), m)

/-! ## The rest of `ManagerDaemonInterface` of manager_class.py, manager_class.py lines 77-134 -/

theorem Manager.missionInput_sat (m : Manager) (out : Py (Measurements m.mag.sat.rw.n)) (d : MissionData) :
    (m.missionInput out d).2.mag.sat = m.mag.sat := by
  have hrw : ∀ (m : Manager) {c : RwController} (r : Py (Fin c.sat.rw.n → ℝ) × RwController)
      (h : r.2.sat = m.mag.sat), (m.setRw r h).2.mag = m.mag := by
    intro m c r h
    unfold Manager.setRw
    split <;> rfl
  unfold Manager.missionInput
  split
  · rfl
  · rename_i s
    split_ifs
    · rfl
    · have hd : (m.mag.detumble s).2.sat = m.mag.sat := MagController.actuatorCommands_sat ..
      unfold Manager.setMag
      split
      · rename_i h
        split at h <;> · simp only [Prod.mk.injEq] at h; rw [← h.2]; exact hd
      · rename_i h
        split at h <;> · simp only [Prod.mk.injEq] at h; simp only [← h.2]; exact hd
    · simp only
      split
      · rw [hrw]
      · rfl
    · have hd : (m.mag.desaturate s 0).2.sat = m.mag.sat := MagController.actuatorCommands_sat ..
      simp only
      split
      · exact hd
      · split
        · exact hd
        · rw [hrw]; exact hd
    · rfl
    · split <;> rfl
    · rfl

/-- A manager with its filter, manager_class.py lines 19-23. The manager uses the filter for the satellite it commands: as
many wheels. -/
structure Daemon (n : ℕ) where
  filter : Filters n
  man : Manager
  hn : n = man.mag.sat.rw.n

/-- The same measurements, for an equal number of wheels. -/
def castM {n m : ℕ} (h : n = m) (s : Measurements n) : Measurements m :=
  { pos := s.pos, vel := s.vel, att := s.att, rate := s.rate, whl := fun i => s.whl (i.cast h.symm)
    mag := s.mag, sun := s.sun }

/-- `sensor_input`, manager_class.py lines 77-90: `none` is `None`; of the data, `KalmanFilters.update` reads the first three
entries. -/
noncomputable def Daemon.sensorInput {n : ℕ} (d : Daemon n) : Option (V3 × V3 × V4) → Py Unit × Daemon n
  | none => (.ok (), d)
  | some (x, v, q) =>
    let r := d.filter.update x v q
    (r.1, { d with filter := r.2 })

/-- The filter when its truth model is about to give the reading `t`. -/
def Filters.reading {n : ℕ} (f : Filters n) (t : Py (Measurements n)) : Filters n :=
  { f with truth := { f.truth with measurement := t } }

/-- `mission_input`, manager_class.py lines 25-75, with the call of `self.filter.output()` on line 37;
`t` is what the truth
model gives. -/
noncomputable def Daemon.missionInput {n : ℕ} (d : Daemon n) (t : Py (Measurements n)) (md : MissionData) :
    Py Unit × Daemon n :=
  let r := (d.filter.reading t).output
  let out : Py (Measurements d.man.mag.sat.rw.n) := r.1.map (castM d.hn)
  let m := d.man.missionInput out md
  (m.1, { filter := r.2, man := m.2,
          hn := d.hn.trans (congrArg (fun s => s.rw.n) (Manager.missionInput_sat d.man out md).symm) })

/-- What `output`, manager_class.py lines 92-105, returns: both commands and the estimate. -/
abbrev Out (n : ℕ) := (Fin 3 → ℝ) × Cmd × Measurements n

/-- `output`, manager_class.py lines 92-105. -/
def Daemon.output {n : ℕ} (d : Daemon n) (t : Py (Measurements n)) : Py (Out n) × Daemon n :=
  let r := (d.filter.reading t).output
  (r.1.map fun s => (d.man.magCmd, d.man.rwCmd, s), { d with filter := r.2 })

/-- `propagate`, manager_class.py lines 107-134: one call ends with this exception or result and this object. `t1` and `t2` are
what the truth model gives at the two calls of `self.filter.output()`. -/
inductive Daemon.Propagate {n : ℕ} (d : Daemon n) (duration : ℝ) (md : MissionData)
    (data : Option (V3 × V3 × V4)) (t1 t2 : Py (Measurements n)) : Py (Out n) → Daemon n → Prop
  | sensorFail {e d1} : d.sensorInput data = (.error e, d1) → Daemon.Propagate d duration md data t1 t2 (.error e) d1
  | missionFail {e d1 d2} : d.sensorInput data = (.ok (), d1) → d1.missionInput t1 md = (.error e, d2) →
      Daemon.Propagate d duration md data t1 t2 (.error e) d2
  | filterFail {e d1 d2 f} : d.sensorInput data = (.ok (), d1) → d1.missionInput t1 md = (.ok (), d2) →
      Propagates d2.filter duration (.error e) f →
      Daemon.Propagate d duration md data t1 t2 (.error e) { d2 with filter := f }
  | output {d1 d2 f} : d.sensorInput data = (.ok (), d1) → d1.missionInput t1 md = (.ok (), d2) →
      Propagates d2.filter duration (.ok ()) f →
      Daemon.Propagate d duration md data t1 t2 ((Daemon.output { d2 with filter := f } t2).1)
        (Daemon.output { d2 with filter := f } t2).2

/-! ## `ManagerDaemonInterface` of manager.py -/

/-- The names defined in the module `observers` (observers.py lines 1-10, 180 and 339). -/
def observersNames : List String :=
  ["np", "default_rng", "quaternion", "vector", "dynamics", "attitude_estimation",
   "DiscreteAttitudeStartrackerKalman", "DiscretePositionKalman", "KalmanFilters"]

/-- `module.name`. -/
def moduleAttr (names : List String) (name : String) : Py Unit :=
  if name ∈ names then .ok () else .error .attributeError

/-- The commands kept by a `ManagerDaemonInterface`, manager.py line 12. -/
structure OldManager where
  magCmd : Fin 3 → ℝ
  rwCmd : Cmd

/-- `ManagerDaemonInterface.__init__`, manager.py lines 8-12; `rest` is what line 11 would do. There is no
`DummyFilter`, so that `sensor_input`, `output` and `propagate` (manager.py lines 24-35) have no object to run on. -/
def OldManager.init (rest : Py Unit) : Py OldManager :=
  match moduleAttr observersNames "DummyFilter" with
  | .error e => .error e
  | .ok () =>
    match sigMagController.bind 0 [] with
    | .error e => .error e
    | .ok () =>
      match rest with
      | .error e => .error e
      | .ok () => .ok ⟨0, zeros4⟩

/-- `mission_input`, manager.py lines 14-22, after `self.filter.output()`: `detumble` and
`pointAndStare` are what the bodies of the controllers' methods would return. -/
def OldManager.missionInput (m : OldManager) (d : MissionData) (detumble : Py (Fin 3 → ℝ))
    (pointAndStare : Py Cmd) : Py Unit × OldManager :=
  if d.id = SM.State.SLEEP.value ∨ d.id = SM.State.FAILED.value then (.ok (), ⟨0, zeros4⟩)
  else if d.id = SM.State.DETUMBLE.value then
    match sigDetumble.bind 2 [] with
    | .error e => (.error e, m)
    | .ok () =>
      match detumble with
      | .error e => (.error e, m)
      | .ok c => (.ok (), ⟨c, zeros4⟩)
  else if d.id = SM.State.POINT.value then
    let m1 : OldManager := { m with magCmd := 0 }
    match d.rest with
    | _ :: _ :: _ =>
      match sigPointAndStare.bind 6 [] with
      | .error e => (.error e, m1)
      | .ok () =>
        match pointAndStare with
        | .error e => (.error e, m1)
        | .ok c => (.ok (), { m1 with rwCmd := c })
    | _ => (.error .indexError, m1)
  else (.ok (), m)

end Adcs.Man
