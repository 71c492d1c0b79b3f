import Verif.Model.Observers
import Verif.Model.Shared

set_option autoImplicit false

/-! # Arrays and state objects that are shared with the filters

`Verif/Model/Observers.lean` returns and stores values. In the code `DiscreteAttitudeStartrackerKalman.output` returns
references to the arrays of the filter, and `DiscretePositionKalman` keeps a reference to the state object it is given
(`src/oresat_adcs/classes/observers.py` lines 160-171 and 188-216). Here these are in a store. -/

namespace Adcs.Obs

open Adcs Dyn JDay
open scoped Matrix

/-! ## Arrays of the attitude filter -/

/-- The arrays of four and of three numbers of a program, by reference, with the number of those made so far. -/
structure Arrays where
  q : ℕ → V4
  b : ℕ → V3
  nq : ℕ
  nb : ℕ

/-- A new array of four numbers. -/
def Arrays.newQ (h : Arrays) (v : V4) : ℕ × Arrays := (h.nq, { h with q := Function.update h.q h.nq v, nq := h.nq + 1 })

/-- A new array of three numbers. -/
def Arrays.newB (h : Arrays) (v : V3) : ℕ × Arrays := (h.nb, { h with b := Function.update h.b h.nb v, nb := h.nb + 1 })

/-- The attributes of a filter, observers.py lines 33-40, with references to the arrays that `output` returns. -/
structure AttRef where
  dq : V3
  db : V3
  P : M6
  q : ℕ
  b : ℕ

/-- What a filter looks like at the moment. -/
def AttRef.read (h : Arrays) (k : AttRef) : Att.Kalman := ⟨k.dq, k.db, k.P, h.q k.q, h.b k.b⟩

/-- `__init__`, observers.py lines 22-46: the filter keeps the caller's array for the quaternion (line 37). -/
noncomputable def AttRef.init (h : Arrays) (qInitial : ℕ) : AttRef × Arrays :=
  let r := h.newB 0
  ({ dq := 0, db := 0,
     P := Matrix.fromBlocks (Matrix.diagonal fun _ => Att.sensorSigma ^ 2) 0 0
       (Matrix.diagonal fun _ => Att.initialBias ^ 2),
     q := qInitial, b := r.1 }, r.2)

/-- `reset`, observers.py lines 66-73: `self.q` becomes a new array, `self.b += self.db` writes to the old one. -/
noncomputable def AttRef.reset (h : Arrays) (k : AttRef) : AttRef × Arrays :=
  let r := h.newQ (Vec.normalizeV (h.q k.q + (0.5 : ℝ) • (Quat.xi (h.q k.q) *ᵥ k.dq)))
  ({ k with q := r.1, dq := 0, db := 0 },
    { r.2 with b := Function.update r.2.b k.b (r.2.b k.b + k.db) })

/-- `measurement`, observers.py lines 48-64. -/
noncomputable def AttRef.measurement (h : Arrays) (k : AttRef) (qRef : V4) : Py (AttRef × Arrays) :=
  match (k.read h).gain with
  | .error e => .error e
  | .ok K =>
    let temp : M6 := 1 - Matrix.fromCols K (0 : Matrix I6 (Fin 3) ℝ)
    let dx := K *ᵥ (vecPart (Quat.errorQuat qRef (h.q k.q)) - k.dq)
    .ok (AttRef.reset h { k with P := temp * k.P, dq := dx ∘ Sum.inl, db := dx ∘ Sum.inr })

/-- `propagate`, observers.py lines 143-158: `self.q` becomes a new array. -/
noncomputable def AttRef.propagate (h : Arrays) (k : AttRef) (wSensor : V3) (dt : ℝ) : AttRef × Arrays :=
  let w := wSensor - h.b k.b
  let r := h.newQ (Att.omega w dt *ᵥ h.q k.q)
  ({ k with P := Att.phi w dt * (k.P * (Att.phi w dt)ᵀ) + Att.G * (Att.processNoise dt * Att.Gᵀ), q := r.1 }, r.2)

/-- `output`, observers.py lines 160-171: two references. -/
def AttRef.output (k : AttRef) : ℕ × ℕ := (k.q, k.b)

/-- A program with attitude filters under names. -/
structure AttWorld (ι : Type) where
  arrays : Arrays
  filters : ι → Option AttRef

/-- What the program does: make an array, make a filter from an array it has, or call a filter. -/
inductive AttOp (ι : Type)
  | array (v : V4)
  | create (i : ι) (a : ℕ)
  | measurement (i : ι) (qRef : V4)
  | propagate (i : ι) (w : V3) (dt : ℝ)

/-- One operation; one that raises (there is no such filter or array, or the inverse does not exist) changes nothing. -/
noncomputable def AttWorld.step {ι : Type} [DecidableEq ι] (w : AttWorld ι) : AttOp ι → AttWorld ι
  | .array v => { w with arrays := (w.arrays.newQ v).2 }
  | .create i a =>
    if a < w.arrays.nq then
      let r := AttRef.init w.arrays a
      ⟨r.2, Function.update w.filters i (some r.1)⟩
    else w
  | .measurement i qRef =>
    match w.filters i with
    | none => w
    | some k =>
      match k.measurement w.arrays qRef with
      | .error _ => w
      | .ok r => ⟨r.2, Function.update w.filters i (some r.1)⟩
  | .propagate i u dt =>
    match w.filters i with
    | none => w
    | some k =>
      let r := k.propagate w.arrays u dt
      ⟨r.2, Function.update w.filters i (some r.1)⟩

/-- A sequence of operations. -/
noncomputable def AttWorld.run {ι : Type} [DecidableEq ι] (w : AttWorld ι) (l : List (AttOp ι)) : AttWorld ι :=
  l.foldl AttWorld.step w

/-- A program at its start: no arrays and no filters. -/
def AttWorld.empty (ι : Type) : AttWorld ι := ⟨⟨fun _ => 0, fun _ => 0, 0, 0⟩, fun _ => none⟩

/-! ## The state object of the position filter -/

/-- A program with a simulator and a position filter: the clocks, the state objects made so far, the integrator
(dynamics.py lines 336-340) and the filter (observers.py lines 188-216), both with a reference to a state object. -/
structure PosWorld (n : ℕ) where
  clocks : Clocks
  objs : ℕ → RefState n
  next : ℕ
  simState : ℕ
  dt : ℝ
  gyro : Sens.Gyro
  rng : Sens.Rng
  P : M6
  x : I6 → ℝ
  mu : ℝ
  filterState : ℕ

/-- The integrator as it is at the moment, for the model of `Shared.lean`. -/
def PosWorld.integ {n : ℕ} (w : PosWorld n) : RefInteg n := ⟨w.objs w.simState, w.dt, w.gyro, w.rng⟩

/-- The simulated satellite as it is at the moment. -/
def PosWorld.truth {n : ℕ} (w : PosWorld n) : SatState n := (w.objs w.simState).read w.clocks

/-- The filter as it is at the moment. -/
def PosWorld.filter {n : ℕ} (w : PosWorld n) : Pos.Kalman n :=
  ⟨w.P, w.x, (w.objs w.filterState).read w.clocks, w.mu⟩

/-- `DiscretePositionKalman(env, integrator.state)`, observers.py lines 188-216: the filter keeps the object. -/
noncomputable def PosWorld.create {n : ℕ} (clocks : Clocks) (objs : ℕ → RefState n) (next a : ℕ) (dt : ℝ)
    (gyro : Sens.Gyro) (rng : Sens.Rng) (mu : ℝ) : PosWorld n :=
  { clocks := clocks, objs := objs, next := next, simState := a, dt := dt, gyro := gyro, rng := rng, P := 1,
    x := Sum.elim (objs a).attrs.position (objs a).attrs.velocity, mu := mu, filterState := a }

/-- What the program does: `integrator.integrate`, dynamics.py lines 384-400, or `update` or `propagate` of the filter,
observers.py lines 292-318. -/
inductive PosOp
  | integrate (duration : ℝ)
  | update (x v : V3)
  | propagate (dt : ℝ)

/-- One operation; the calls of `integrate` are those that return. When a step is taken, `integrator.state` is a new
object afterwards (dynamics.py lines 373-379), otherwise it is the same. The filter writes to its state object
(observers.py lines 303-306), also when the call raises after that. -/
inductive PosWorld.Step {n : ℕ} (f : SatState n → Py (Raw n)) : PosWorld n → PosOp → PosWorld n → Prop
  | integrate {w : PosWorld n} {d h g} : RefLoop f d w.dt w.clocks w.integ (.ok ()) h g → loopCond w.dt d →
      PosWorld.Step f w (.integrate d) { w with
        clocks := h, objs := Function.update w.objs w.next g.state, next := w.next + 1, simState := w.next,
        gyro := g.gyro, rng := g.rng }
  | idle {w : PosWorld n} {d} : ¬ loopCond w.dt d → PosWorld.Step f w (.integrate d) w
  | update {w : PosWorld n} {x v k} : (w.filter.update x v).2 = k →
      PosWorld.Step f w (.update x v) { w with
        P := k.P, x := k.x,
        objs := Function.update w.objs w.filterState ⟨k.state.arr, (w.objs w.filterState).clock, k.state.attrs⟩ }
  | propagate {w : PosWorld n} {d k} : (w.filter.propagate d).2 = k →
      PosWorld.Step f w (.propagate d) { w with P := k.P, x := k.x }

/-- A sequence of operations. -/
inductive PosWorld.Run {n : ℕ} (f : SatState n → Py (Raw n)) : PosWorld n → List PosOp → PosWorld n → Prop
  | nil {w} : PosWorld.Run f w [] w
  | cons {w op w' l w''} : PosWorld.Step f w op w' → PosWorld.Run f w' l w'' → PosWorld.Run f w (op :: l) w''

end Adcs.Obs
