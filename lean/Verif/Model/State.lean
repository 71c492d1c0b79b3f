import Verif.Model.JDay
import Verif.Model.Frame

set_option autoImplicit false

/-! # Model of the state classes of `src/oresat_adcs/classes/dynamics.py`, lines 10-117

A state array is an object array of five vectors.  `n` is the number of wheels. -/

namespace Adcs.Dyn

open Adcs JDay

/-- The contents of a state array: `[position, velocity, attitude, body_ang_vel, wheel_vel]`. -/
@[ext] structure Raw (n : ℕ) where
  pos : V3
  vel : V3
  att : V4
  rate : V3
  whl : Fin n → ℝ

/-- Elementwise addition of two object arrays (numpy). -/
def Raw.add {n : ℕ} (a b : Raw n) : Raw n :=
  { pos := a.pos + b.pos, vel := a.vel + b.vel, att := a.att + b.att, rate := a.rate + b.rate,
    whl := a.whl + b.whl }

/-- Product of an object array with a number (numpy). -/
def Raw.smul {n : ℕ} (c : ℝ) (a : Raw n) : Raw n :=
  { pos := c • a.pos, vel := c • a.vel, att := c • a.att, rate := c • a.rate, whl := c • a.whl }

instance {n : ℕ} : Add (Raw n) := ⟨Raw.add⟩
instance {n : ℕ} : SMul ℝ (Raw n) := ⟨Raw.smul⟩

/-- The attributes set by `SatelliteState.update`, lines 46-66. -/
structure Attrs (n : ℕ) where
  position : V3
  velocity : V3
  attitude : V4
  bodyAngVel : V3
  wheelVel : Fin n → ℝ
  x : V3
  v : V3
  gciToEcef : M3
  rEcef : V3
  length : ℝ
  lat : ℝ
  long : ℝ
  h : ℝ

/-- `SatelliteState.update`, lines 46-66: the attributes for given contents and clock. -/
noncomputable def attrsOf {n : ℕ} (a : Raw n) (clock : JClock) : Py (Attrs n) :=
  let gci := Fr.inertialToEcef clock.thetaGmst
  let rEcef := gci.mulVec a.pos
  match Fr.ecefToLla rEcef with
  | .error e => .error e
  | .ok (lat, long, h) =>
    .ok { position := a.pos, velocity := a.vel, attitude := a.att, bodyAngVel := a.rate,
          wheelVel := a.whl, x := a.pos, v := a.vel, gciToEcef := gci, rEcef := rEcef,
          length := npNorm a.pos, lat := lat, long := long, h := h }

/-- A `SatelliteState` object that has been through `__new__` or `__add__`: contents, clock attribute
(`None` is possible) and the attributes last set.  The model does not share clock objects between
states: a tick of the clock of one state is not seen by another. -/
structure SatState (n : ℕ) where
  arr : Raw n
  clock : Option JClock
  attrs : Attrs n

/-- `update` for contents and a clock that may be `None` (then `clock.theta_gmst()` in
`frame.inertial_to_ecef` raises `AttributeError`). -/
noncomputable def mkState {n : ℕ} (a : Raw n) (clock : Option JClock) : Py (SatState n) :=
  match clock with
  | none => .error .attributeError
  | some c =>
    match attrsOf a c with
    | .error e => .error e
    | .ok at' => .ok { arr := a, clock := some c, attrs := at' }

/-- `SatelliteState.__new__`, lines 22-29. -/
noncomputable def SatState.new {n : ℕ} (a : Raw n) (clock : Option JClock) : Py (SatState n) :=
  mkState a clock

/-- `SatelliteState.update`, lines 46-66. -/
noncomputable def SatState.update {n : ℕ} (s : SatState n) : Py (SatState n) := mkState s.arr s.clock

/-- `SatelliteState.__add__`, lines 36-40: elementwise sum, the clock of `self`, then `update`. -/
noncomputable def SatState.add {n : ℕ} (s : SatState n) (other : Raw n) : Py (SatState n) :=
  mkState (s.arr + other) s.clock

/-- `SatelliteState.attach_clock`, lines 42-44. -/
def SatState.attachClock {n : ℕ} (s : SatState n) (c : Option JClock) : SatState n :=
  { s with clock := c }

/-- What a user can do to a state object between two uses: assign an entry of the array
(`state[i] = ...`), assign an attribute, attach or tick a clock, or call `update`. -/
inductive Mutation (n : ℕ)
  | setArr (a : Raw n)
  | setAttrs (a : Attrs n)
  | attach (c : Option JClock)
  | tick (dt : ℝ)
  | update

/-- Effect of a mutation (numpy item assignment, Python attribute assignment, lines 42-66). -/
noncomputable def Mutation.apply {n : ℕ} (s : SatState n) : Mutation n → Py (SatState n)
  | .setArr a => .ok { s with arr := a }
  | .setAttrs a => .ok { s with attrs := a }
  | .attach c => .ok (s.attachClock c)
  | .tick dt =>
    match s.clock with
    | none => .error .attributeError
    | some c =>
      match c.tick dt with
      | (.ok (), c') => .ok { s with clock := some c' }
      | (.error e, _) => .error e
  | .update => s.update

/-- A sequence of mutations. -/
noncomputable def mutate {n : ℕ} (s : SatState n) : List (Mutation n) → Py (SatState n)
  | [] => .ok s
  | m :: l =>
    match m.apply s with
    | .error e => .error e
    | .ok s' => mutate s' l

/-- `DynamicState.__init__`, lines 77-81, and `update_vector`, `update_other`, lines 89-113: the same
attributes, kept in an ordinary object. -/
noncomputable def DynamicState.init {n : ℕ} (position velocity : V3) (attitude : V4) (rate : V3)
    (wheel : Fin n → ℝ) (clock : Option JClock) : Py (SatState n) :=
  mkState ⟨position, velocity, attitude, rate, wheel⟩ clock

/-- `DynamicState.__add__`, lines 83-87. -/
noncomputable def DynamicState.add {n : ℕ} (s : SatState n) (other : Raw n) : Py (SatState n) :=
  DynamicState.init (s.arr.pos + other.pos) (s.arr.vel + other.vel) (s.arr.att + other.att)
    (s.arr.rate + other.rate) (s.arr.whl + other.whl) s.clock

end Adcs.Dyn
