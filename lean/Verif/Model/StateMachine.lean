import Verif.Py
import Verif.Model.JDay

set_option autoImplicit false

/-! # Model of `src/oresat_adcs/configuration/state_machine.py` -/

namespace Adcs.SM

open Adcs

/-- `State`, lines 5-14. -/
inductive State
  | FAILED | SLEEP | UNSAFE | SAFE | SPINDOWN | DETUMBLE | BBQ | POINT | MANUAL
  deriving DecidableEq, Repr, Inhabited

/-- `State.<name>.value`, lines 6-14. -/
def State.value : State → ℤ
  | .FAILED => 0 | .SLEEP => 1 | .UNSAFE => 2 | .SAFE => 3 | .SPINDOWN => 4
  | .DETUMBLE => 5 | .BBQ => 6 | .POINT => 7 | .MANUAL => 8

/-- A Python value handed to `change_state` or stored as the current state: an enum member, a number
equal to an integer, an object whose `==` with these is always false, or a numpy array with more than
one element (whose `==` has no truth value). -/
inductive PyVal
  | st (s : State) | num (n : ℤ) | other | array
  deriving DecidableEq, Repr

/-- `x == y`; `Enum` members never equal integers. Comparing with an array gives an array, whose truth
value raises `ValueError`. -/
def pyEq : PyVal → PyVal → Py Bool
  | .array, _ => .error .valueError
  | _, .array => .error .valueError
  | .st a, .st b => .ok (a = b)
  | .num a, .num b => .ok (a = b)
  | _, _ => .ok false

/-- `x in list`: compares in order and stops at the first hit. -/
def pyIn (x : PyVal) : List PyVal → Py Bool
  | [] => .ok false
  | y :: l =>
    match pyEq x y with
    | .error e => .error e
    | .ok true => .ok true
    | .ok false => pyIn x l

/-- `_valid_transition`, lines 376-386. The entry `State.POINT.value` on line 383 is the number 7. -/
def validTransition : State → List PyVal
  | .FAILED => [.st .FAILED, .st .UNSAFE]
  | .SLEEP => [.st .SLEEP, .st .FAILED, .st .UNSAFE]
  | .UNSAFE => [.st .FAILED, .st .UNSAFE, .st .SAFE, .st .DETUMBLE, .st .BBQ, .st .POINT, .st .MANUAL]
  | .SAFE => [.st .FAILED, .st .SAFE, .st .SPINDOWN, .st .POINT, .st .BBQ, .st .MANUAL]
  | .SPINDOWN => [.st .FAILED, .st .SLEEP, .st .SPINDOWN]
  | .DETUMBLE => [.st .FAILED, .st .DETUMBLE, .st .BBQ, .st .POINT, .st .MANUAL]
  | .BBQ => [.st .FAILED, .st .SAFE, .st .BBQ, .num State.POINT.value, .st .MANUAL]
  | .POINT => [.st .FAILED, .st .POINT, .st .UNSAFE, .st .MANUAL]
  | .MANUAL => [.st .FAILED, .st .POINT, .st .UNSAFE, .st .MANUAL]

/-- `self._valid_transition[self._current_state]`: `KeyError` when the key is not a member. -/
def lookup : PyVal → Py (List PyVal)
  | .st s => .ok (validTransition s)
  | _ => .error .keyError

/-- `Mission`, lines 351-370 (target and instrument as used by the pointing controller). The times are only
handed to the clock's `is_after`, which `Env.isAfter` leaves open: an end of `None` (the default) is a value
on which it raises. -/
structure Mission where
  start : JDay.DateTime
  stop : JDay.DateTime
  target : V3
  instrument : ℤ

/-- Attributes of a `StateMachine`, lines 373-388. -/
structure Machine where
  current : PyVal
  mission : Option Mission
  locked : Bool

/-- `StateMachine.__init__`, lines 373-388. -/
def Machine.init : Machine := { current := .st .SLEEP, mission := none, locked := false }

/-- How a call ends. `blocked` is a `Lock.acquire` that never returns. -/
inductive Outcome (α : Type)
  | ret (a : α) | exc (e : Exc) | blocked

/-- The decision of `change_state` on lines 438-443: the new current state and the answer. -/
def decideChange (cur v : PyVal) : Py Bool :=
  match lookup cur with
  | .error e => .error e
  | .ok l => pyIn v l

/-- What lines 439 and 442 store. -/
def storeChange (v : PyVal) (valid : Bool) : PyVal := if valid then v else .st .FAILED

/-- `StateMachine.change_state`, lines 427-446. An exception leaves the lock held: there is no
`try`/`finally`. -/
def changeState (m : Machine) (v : PyVal) : Outcome Bool × Machine :=
  if m.locked then (.blocked, m)
  else
    match decideChange m.current v with
    | .error e => (.exc e, { m with locked := true })
    | .ok valid => (.ret valid, { m with current := storeChange v valid })

/-- `StateMachine.set_next_mission`, lines 401-425. -/
def setNextMission (m : Machine) (mis : Option Mission) : Outcome Unit × Machine :=
  if m.locked then (.blocked, m) else (.ret (), { m with mission := mis })

/-- `StateMachine.get_next_mission`, lines 391-399: reads without taking the lock. -/
def getNextMission (m : Machine) : Option Mission := m.mission

/-- `StateMachine.get_current_state`, lines 449-451. -/
def getCurrentState (m : Machine) : PyVal := m.current

/-! ## Automatic transitions, lines 16-349 -/

/-- What the transition methods read: the clock of the manager (any behaviour), the output of
`mag_controller.check`, the sensor values, `axes.dot(wheel_vel)`. -/
structure Env where
  isAfter : JDay.DateTime → Py Bool
  check : Py ℝ
  bodyAngVel : V3
  nWheels : ℕ
  wheelVel : Fin nWheels → ℝ
  wheelMomentum : V3
  curCmd : V3
  whlAccl : Fin nWheels → ℝ

/-- Calling a plain Python function of `params` positional parameters with `args` arguments. -/
def pyCall {α : Type} (params args : ℕ) (body : Py α) : Py α :=
  if args = params then body else .error .typeError

/-- Number of arguments that arrive when `self.method(n arguments)` is evaluated: a class does not
bind its functions, an instance does. -/
def boundArgs (selfIsClass : Bool) (n : ℕ) : ℕ := if selfIsClass then n else n + 1

/-- `SAFE_transition`, lines 24-58; `AttributeError` on `None.start`. -/
def safeTransition (env : Env) (mission : Option Mission) : Py State :=
  match mission with
  | none => .error .attributeError
  | some mis =>
    match env.isAfter mis.start with
    | .error e => .error e
    | .ok true => .ok .POINT
    | .ok false => .ok .SAFE

/-- `DETUMBLE_transition`, lines 60-97. -/
noncomputable def detumbleTransition (selfIsClass : Bool) (env : Env) (mission : Option Mission) :
    Py State :=
  match pyCall 11 (boundArgs selfIsClass 10) (safeTransition env mission) with
  | .error e => .error e
  | .ok interrupt =>
    if interrupt = .POINT then .ok .POINT
    else if npNorm env.bodyAngVel ≥ 0.05 then .ok .DETUMBLE
    else .ok .BBQ

/-- `BBQ_transition`, lines 99-138. -/
noncomputable def bbqTransition (selfIsClass : Bool) (env : Env) (mission : Option Mission) :
    Py State :=
  match pyCall 11 (boundArgs selfIsClass 10) (safeTransition env mission) with
  | .error e => .error e
  | .ok interrupt =>
    if interrupt = .POINT then .ok .POINT
    else
      match env.check with
      | .error e => .error e
      | .ok c =>
        if c < 1e-4 ∧ npNorm env.curCmd < 1e-4 ∧ npNorm env.wheelMomentum < 30 then .ok .SAFE
        else .ok .BBQ

/-- `UNSAFE_transition`, lines 140-176; lines 173 and 175 pass nine arguments (no mission). -/
noncomputable def unsafeTransition (selfIsClass : Bool) (env : Env) (mission : Option Mission) :
    Py State :=
  match pyCall 11 (boundArgs selfIsClass 10) (safeTransition env mission) with
  | .error e => .error e
  | .ok interrupt =>
    if interrupt = .POINT then .ok .POINT
    else
      match pyCall 11 (boundArgs selfIsClass 9) (detumbleTransition selfIsClass env mission) with
      | .error e => .error e
      | .ok state =>
        if state = .BBQ then
          pyCall 11 (boundArgs selfIsClass 9) (bbqTransition selfIsClass env mission)
        else .ok state

/-- `SPINDOWN_transition`, lines 178-211. -/
noncomputable def spindownTransition (env : Env) : Py State :=
  if npNorm env.whlAccl < 0.00001 ∧ npNorm env.wheelVel < 0.01 then .ok .SLEEP else .ok .SPINDOWN

/-- `POINT_transition`, lines 281-315. -/
def pointTransition (env : Env) (mission : Option Mission) : Py State :=
  match mission with
  | none => .error .attributeError
  | some mis =>
    match env.isAfter mis.stop with
    | .error e => .error e
    | .ok true => .ok .UNSAFE
    | .ok false => .ok .POINT

/-- The method picked by name on lines 19-20, called with the class and ten arguments (line 21). The
methods of FAILED, SLEEP and MANUAL (lines 213-279, 317-349) test `if False`. -/
noncomputable def dispatch (selfIsClass : Bool) (s : State) (env : Env) (mission : Option Mission) :
    Py State :=
  match s with
  | .FAILED => .ok .FAILED
  | .SLEEP => .ok .SLEEP
  | .UNSAFE => unsafeTransition selfIsClass env mission
  | .SAFE => safeTransition env mission
  | .SPINDOWN => spindownTransition env
  | .DETUMBLE => detumbleTransition selfIsClass env mission
  | .BBQ => bbqTransition selfIsClass env mission
  | .POINT => pointTransition env mission
  | .MANUAL => .ok .MANUAL

/-- `State.transition`, lines 16-21: `state.name` fails on anything that is not a member; the receiver
passed as `self` is the class. -/
noncomputable def stateTransition (cur : PyVal) (env : Env) (mission : Option Mission) : Py State :=
  match cur with
  | .st s => dispatch true s env mission
  | _ => .error .attributeError

/-- `StateMachine.transition`, lines 453-477, run without interference. -/
noncomputable def transition (m : Machine) (env : Env) : Outcome Unit × Machine :=
  match stateTransition (getCurrentState m) env m.mission with
  | .error e => (.exc e, m)
  | .ok next =>
    if getCurrentState m = .st next then (.ret (), m)
    else
      match changeState m (.st next) with
      | (.ret _, m') => (.ret (), m')
      | (.exc e, m') => (.exc e, m')
      | (.blocked, m') => (.blocked, m')

/-! ## Calls from several threads

The steps of the two locking methods are separated at each access to shared state.  Any idle thread
may start any call at any time, so every program of every number of threads is covered
(`transition` is a read of the state and of the mission followed by `change_state`). -/

/-- A locking call. -/
inductive Call
  | change (v : PyVal)
  | setMission (m : Option Mission)

/-- Where a thread is. -/
inductive Loc
  /-- outside the locking methods -/
  | idle
  /-- before `acquire` (lines 418, 435) -/
  | waiting (c : Call)
  /-- after `acquire`, nothing read or written yet -/
  | got (c : Call)
  /-- `change_state` after the membership test of line 438 -/
  | tested (v : PyVal) (valid : Bool)
  /-- after the write, before `release` (lines 425, 445) -/
  | written (r : Outcome Bool)

/-- What an outside observer sees. -/
inductive Event
  /-- thread `t` took the lock for `c` -/
  | acq (t : ℕ) (c : Call)
  /-- the call of thread `t` ended with this outcome (`set_next_mission` returns `None`, shown as
  `ret true`) -/
  | done (t : ℕ) (r : Outcome Bool)
  /-- thread `t` read the current state (lines 449-451, 473) -/
  | read (t : ℕ) (v : PyVal)
  /-- a step that nobody observes -/
  | tau

/-- Shared object and thread positions. -/
structure Config where
  m : Machine
  loc : ℕ → Loc

/-- One step of one thread. -/
inductive Step : Config → Event → Config → Prop
  | start {C : Config} {t : ℕ} {c : Call} (h : C.loc t = .idle) :
    Step C .tau { C with loc := Function.update C.loc t (.waiting c) }
  | acquire {C : Config} {t : ℕ} {c : Call} (h : C.loc t = .waiting c) (hl : C.m.locked = false) :
    Step C (.acq t c)
      { m := { C.m with locked := true }, loc := Function.update C.loc t (.got c) }
  | test {C : Config} {t : ℕ} {v : PyVal} {b : Bool} (h : C.loc t = .got (.change v))
      (hd : decideChange C.m.current v = .ok b) :
    Step C .tau { C with loc := Function.update C.loc t (.tested v b) }
  | raise {C : Config} {t : ℕ} {v : PyVal} {e : Exc} (h : C.loc t = .got (.change v))
      (hd : decideChange C.m.current v = .error e) :
    Step C (.done t (.exc e)) { C with loc := Function.update C.loc t .idle }
  | writeState {C : Config} {t : ℕ} {v : PyVal} {b : Bool} (h : C.loc t = .tested v b) :
    Step C .tau { m := { C.m with current := storeChange v b },
                  loc := Function.update C.loc t (.written (.ret b)) }
  | writeMission {C : Config} {t : ℕ} {mis : Option Mission} (h : C.loc t = .got (.setMission mis)) :
    Step C .tau { m := { C.m with mission := mis },
                  loc := Function.update C.loc t (.written (.ret true)) }
  | release {C : Config} {t : ℕ} {r : Outcome Bool} (h : C.loc t = .written r) :
    Step C (.done t r) { m := { C.m with locked := false }, loc := Function.update C.loc t .idle }
  | read {C : Config} {t : ℕ} (h : C.loc t = .idle) : Step C (.read t C.m.current) C

/-- Executions from a fresh object with every thread idle. -/
inductive Exec : Config → List Event → Prop
  | init : Exec { m := Machine.init, loc := fun _ => .idle } []
  | step {C C' : Config} {tr : List Event} {e : Event} (h : Exec C tr) (s : Step C e C') :
    Exec C' (tr ++ [e])

end Adcs.SM
