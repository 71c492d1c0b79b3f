import Verif.Model.Dynamics

set_option autoImplicit false

/-! # Clock objects that several states share

`SatelliteState.__new__`, `__add__` and `attach_clock` (`src/oresat_adcs/classes/dynamics.py` lines 22-44)
store a reference to the clock they are given. `Verif/Model/State.lean` keeps the reading of the clock in the
state instead; here the clocks are in a store, and the integrator is modelled a second time on top of it. -/

namespace Adcs.Dyn

open Adcs JDay Sens

/-- The clock objects of the program, by reference. -/
abbrev Clocks := ℕ → JClock

/-- A `SatelliteState`, dynamics.py lines 22-44, with a reference to its clock. -/
structure RefState (n : ℕ) where
  arr : Raw n
  clock : ℕ
  attrs : Attrs n

/-- What a state object looks like at the moment. -/
def RefState.read {n : ℕ} (h : Clocks) (s : RefState n) : SatState n := ⟨s.arr, some (h s.clock), s.attrs⟩

/-- `SatelliteState.__new__`, dynamics.py lines 22-29, with a clock. -/
noncomputable def RefState.new {n : ℕ} (h : Clocks) (a : Raw n) (c : ℕ) : Py (RefState n) :=
  match attrsOf a (h c) with
  | .error e => .error e
  | .ok t => .ok ⟨a, c, t⟩

/-- `SatelliteState.__add__`, dynamics.py lines 36-40: the sum refers to the clock of `self`. -/
noncomputable def RefState.add {n : ℕ} (h : Clocks) (s : RefState n) (o : Raw n) : Py (RefState n) :=
  RefState.new h (s.arr + o) s.clock

/-- `SatelliteState.update`, dynamics.py lines 46-66. -/
noncomputable def RefState.update {n : ℕ} (h : Clocks) (s : RefState n) : Py (RefState n) :=
  RefState.new h s.arr s.clock

/-- `state.clock.tick(dt)`: changes the clock object, jday.py lines 264-267. -/
noncomputable def RefState.tick {n : ℕ} (h : Clocks) (s : RefState n) (dt : ℝ) : Py Unit × Clocks :=
  let (r, c) := (h s.clock).tick dt
  (r, Function.update h s.clock c)

/-- `Integrator.RK4_step`, dynamics.py lines 342-362. -/
noncomputable def rk4StepRef {n : ℕ} (f : SatState n → Py (Raw n)) (dt : ℝ) (h : Clocks) (s : RefState n) :
    Py (RefState n) :=
  match f (s.read h) with
  | .error e => .error e
  | .ok k1 =>
  match s.add h ((dt / 2) • k1) with
  | .error e => .error e
  | .ok s2 =>
  match f (s2.read h) with
  | .error e => .error e
  | .ok k2 =>
  match s.add h ((dt / 2) • k2) with
  | .error e => .error e
  | .ok s3 =>
  match f (s3.read h) with
  | .error e => .error e
  | .ok k3 =>
  match s.add h (dt • k3) with
  | .error e => .error e
  | .ok s4 =>
  match f (s4.read h) with
  | .error e => .error e
  | .ok k4 => s.add h (dt • ((1 / 6 : ℝ) • (k1 + (2 : ℝ) • k2 + (2 : ℝ) • k3 + k4)))

/-- Attributes of an `Integrator`, dynamics.py lines 336-340, as `Integ`. -/
structure RefInteg (n : ℕ) where
  state : RefState n
  dt : ℝ
  gyro : Gyro
  rng : Rng

/-- What an integrator looks like at the moment. -/
def RefInteg.read {n : ℕ} (h : Clocks) (g : RefInteg n) : Integ n := ⟨g.state.read h, g.dt, g.gyro, g.rng⟩

/-- `Integrator.update`, dynamics.py lines 364-382: the result, the clocks and the integrator afterwards. -/
noncomputable def RefInteg.update {n : ℕ} (f : SatState n → Py (Raw n)) (h : Clocks) (g : RefInteg n) :
    Py Unit × Clocks × RefInteg n :=
  match rk4StepRef f g.dt h g.state with
  | .error e => (.error e, h, g)
  | .ok next =>
    let next := { next with arr := { next.arr with att := Vec.normalizeV next.arr.att } }
    match next.tick h g.dt with
    | (.error e, h) => (.error e, h, { g with state := next })
    | (.ok (), h) =>
      match next.update h with
      | .error e => (.error e, h, { g with state := next })
      | .ok next =>
        match g.gyro.propagate g.dt g.rng with
        | .error e => (.error e, h, { g with state := next })
        | .ok (gy, rng) => (.ok (), h, { g with state := next, gyro := gy, rng := rng })

/-- The loop of `Integrator.integrate`, dynamics.py lines 393-400, from counter `t` on. -/
inductive RefLoop {n : ℕ} (f : SatState n → Py (Raw n)) (duration : ℝ) :
    ℝ → Clocks → RefInteg n → Py Unit → Clocks → RefInteg n → Prop
  | done {t h g} : ¬ loopCond t duration → RefLoop f duration t h g (.ok ()) h g
  | raise {t h g e h' g'} : loopCond t duration → g.update f h = (.error e, h', g') →
      RefLoop f duration t h g (.error e) h' g'
  | step {t h g h' g' r h'' g''} : loopCond t duration → g.update f h = (.ok (), h', g') →
      RefLoop f duration (t + g.dt) h' g' r h'' g'' → RefLoop f duration t h g r h'' g''

/-- A program with several integrators (one per `SimulatorDaemonInterface`, simulator.py lines 10-14). -/
structure World (ι : Type) (n : ℕ) where
  clocks : Clocks
  sims : ι → RefInteg n

/-- What the program does: `sims[i].integrator.integrate(duration, ...)` (simulator.py lines 16-23), or
`sims[i].integrator.state.clock.tick(dt)`. -/
inductive WorldOp (ι : Type)
  | integrate (i : ι) (duration : ℝ)
  | tick (i : ι) (dt : ℝ)

/-- One operation that returns. -/
inductive World.Step {ι : Type} [DecidableEq ι] {n : ℕ} (f : ι → SatState n → Py (Raw n)) :
    World ι n → WorldOp ι → World ι n → Prop
  | integrate {w : World ι n} {i duration h g} :
      RefLoop (f i) duration (w.sims i).dt w.clocks (w.sims i) (.ok ()) h g →
      World.Step f w (.integrate i duration) ⟨h, Function.update w.sims i g⟩
  | tick {w : World ι n} {i dt h} : (w.sims i).state.tick w.clocks dt = (.ok (), h) →
      World.Step f w (.tick i dt) ⟨h, w.sims⟩

/-- A sequence of operations that all return. -/
inductive World.Run {ι : Type} [DecidableEq ι] {n : ℕ} (f : ι → SatState n → Py (Raw n)) :
    World ι n → List (WorldOp ι) → World ι n → Prop
  | nil {w} : World.Run f w [] w
  | cons {w op w' l w''} : World.Step f w op w' → World.Run f w' l w'' → World.Run f w (op :: l) w''

end Adcs.Dyn
