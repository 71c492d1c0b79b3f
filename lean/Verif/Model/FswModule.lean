import Verif.Model.FlightSoftware

set_option autoImplicit false

/-! # Model of the module around the flight software, `simulation/FlightSoftwareModule.py`

`UpdateState` with the messages of the Basilisk framework: a reader may not have been written to yet, and what is
sent is recorded. The function `updateState` of `Verif.Model.FlightSoftware` is the case in which all messages
are there and the controller has started. -/

namespace Adcs

/-- What the three readers of lines 15-17 hold: `none` for a message with `isWritten()` false. `star` is
`qInrtl2Case`, scalar first; of the wheel speeds only the first four are read. -/
structure FswMsgs where
  star : Option V4
  imu : Option V3
  wheels : Option (Fin 4 → ℝ)

/-- The attributes of a `FlightSoftware`, lines 10-57, with those that `Fsw` leaves out: `controllerStartTime`
(line 37), `output_states` (line 36), `error` (line 45), and what was written to `rwMotorTorqueOutMsg`, each with
its time. `exit` (line 54) is never set, so that lines 73-74 never act. -/
structure FswModule where
  fsw : Fsw
  startTime : ℝ
  outputStates : Bool
  error : List V4
  sent : List (ℕ × (Fin 36 → ℝ))

/-- `FlightSoftware.__init__`, lines 10-57, lines 36-37 and 45. -/
noncomputable def FswModule.init (pinv : Matrix (Fin 4) (Fin 3) ℝ) (updateTime rwInertia : ℝ)
    (K : Matrix (Fin 3) Obs.I6 ℝ) : FswModule :=
  { fsw := Fsw.init pinv updateTime rwInertia K, startTime := 0, outputStates := false, error := [], sent := [] }

/-- `Reset`, lines 59-60: prints only. -/
def FswModule.reset (m : FswModule) : FswModule := m

/-- `self.torque_vals`, an array of 36 zeros (line 22) of which the first four entries are set. -/
def Fsw.payload (f : Fsw) : Fin 36 → ℝ := fun i => if h : i.val < 4 then f.torqueVals ⟨i.val, h⟩ else 0

/-- `command_wheel_torques`, lines 149-152. -/
noncomputable def FswModule.command (m : FswModule) (nanos : ℕ) (torque speeds : Fin 4 → ℝ) :
    Py Unit × FswModule :=
  match m.fsw.checkTorqueVals torque speeds with
  | .error e => (.error e, m)
  | .ok f => (.ok (), { m with fsw := f, sent := m.sent ++ [(nanos, f.payload)] })

/-- `UpdateState`, lines 72-147; `macros.NANO2SEC` is `1e-9`. A local variable that no branch has assigned is an
`UnboundLocalError` where it is read: `q` on line 99, `omega` on line 107 (only if the angle is zero), lines 115
and 136, `wheelSpeeds` on line 123, and `desired_torque` on line 143. -/
noncomputable def FswModule.updateState (m : FswModule) (nanos : ℕ) (msgs : FswMsgs) : Py Unit × FswModule :=
  match msgs.star with
  | none => (.error .unboundLocal, m)
  | some reading =>
    match Sim.normalize (Sim.toScalarLast reading) with
    | .error e => (.error e, m)
    | .ok q =>
      match Sim.axisAngle ![0, 1, 0] 90 with
      | .error e => (.error e, m)
      | .ok qInit =>
        match Sim.quatError m.fsw.qTarget q with
        | .error e => (.error e, m)
        | .ok err =>
          let (err, f) := m.fsw.checkHemi err
          let m := { m with fsw := f, error := m.error ++ [err] }
          match Sim.axisAngle ![0, 1, 0] 180 with
          | .error e => (.error e, m)
          | .ok qRot =>
            match Sim.quatMult qRot qInit with
            | .error e => (.error e, m)
            | .ok t2 =>
              match Sim.errorAngle err with
              | .error e => (.error e, m)
              | .ok angle =>
                if angle = 0 ∧ msgs.imu = none then (.error .unboundLocal, m)
                else
                  let m := if angle = 0 ∧ msgs.imu = some 0 then { m with fsw := { m.fsw with qTarget := t2 } } else m
                  if nanos * 1e-9 ≥ m.startTime then
                    match msgs.imu, msgs.wheels with
                    | some omega, some speeds =>
                      m.command nanos (m.fsw.convertTorque (m.fsw.quaternionController err omega)) speeds
                    | _, _ => (.error .unboundLocal, m)
                  else if m.outputStates then (.error .unboundLocal, m)
                  else (.ok (), m)

/-- The results of the calls of `UpdateState` at the times and with the messages of a list, and the module
after them. -/
noncomputable def FswModule.run (m : FswModule) : List (ℕ × FswMsgs) → List (Py Unit) × FswModule
  | [] => ([], m)
  | (t, msgs) :: rest =>
    let r := m.updateState t msgs
    let s := r.2.run rest
    (r.1 :: s.1, s.2)

end Adcs
