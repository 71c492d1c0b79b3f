import Mathlib.Data.Matrix.ColumnRowPartitioned
import Verif.Model.State
import Verif.Model.Quaternion
import Verif.Model.Vector

set_option autoImplicit false

/-! # Model of `src/oresat_adcs/classes/observers.py`, lines 10-328

Six-dimensional error states are indexed by `Fin 3 ⊕ Fin 3` (numpy's `np.block`); a 6×6 matrix is a
2×2 block matrix.  The attributes `K`, `G`, `R` and `Q` that only hold intermediate or constant
values are definitions here. -/

namespace Adcs.Obs

open Adcs Dyn
open scoped Matrix

/-- Index of a six-dimensional error state. -/
abbrev I6 := Fin 3 ⊕ Fin 3
abbrev M6 := Matrix I6 I6 ℝ

/-! ## `DiscreteAttitudeStartrackerKalman`, lines 10-171 -/

namespace Att

/-- `self.GYRO_VAR`, line 23. -/
noncomputable def gyroVar : ℝ := 2.79e-4 ^ 2
/-- `self.DRIFT_VAR`, line 24. -/
noncomputable def driftVar : ℝ := 8.73e-7 ^ 2
/-- `self.INITIAL_BIAS`, line 25. -/
noncomputable def initialBias : ℝ := 3.15e-5
/-- `self.SENSOR_SIGMA`, line 30. -/
noncomputable def sensorSigma : ℝ := 0.75e-7

/-- `self.R`, line 46. -/
noncomputable def R : M3 := Matrix.diagonal fun _ => sensorSigma ^ 2

/-- `self.G`, line 43. -/
def G : M6 := Matrix.fromBlocks (-1) 0 0 1

/-- The attributes of a filter, lines 33-40.  `self.b` is updated in place by `reset`, so that an
array returned by `output` changes with it; the model returns values. -/
@[ext] structure Kalman where
  dq : V3
  db : V3
  P : M6
  q : V4
  b : V3

/-- `__init__`, lines 22-46. -/
noncomputable def init (qInitial : V4) : Kalman :=
  { dq := 0, db := 0,
    P := Matrix.fromBlocks (Matrix.diagonal fun _ => sensorSigma ^ 2) 0 0
      (Matrix.diagonal fun _ => initialBias ^ 2),
    q := qInitial, b := 0 }

/-- `reset`, lines 66-73. -/
noncomputable def Kalman.reset (k : Kalman) : Kalman :=
  { k with q := Vec.normalizeV (k.q + (0.5 : ℝ) • (Quat.xi k.q *ᵥ k.dq)), dq := 0,
           b := k.b + k.db, db := 0 }

/-- The Kalman gain, line 57. -/
noncomputable def Kalman.gain (k : Kalman) : Py (Matrix I6 (Fin 3) ℝ) :=
  match npInv (R + k.P.toBlocks₁₁) with
  | .error e => .error e
  | .ok inv => .ok (k.P.submatrix id Sum.inl * inv)

/-- `measurement`, lines 48-64.  Nothing is changed when the inverse does not exist. -/
noncomputable def Kalman.measurement (k : Kalman) (qRef : V4) : Py Kalman :=
  match k.gain with
  | .error e => .error e
  | .ok K =>
    let temp : M6 := 1 - Matrix.fromCols K (0 : Matrix I6 (Fin 3) ℝ)
    let dx := K *ᵥ (vecPart (Quat.errorQuat qRef k.q) - k.dq)
    .ok (Kalman.reset { k with P := temp * k.P, dq := dx ∘ Sum.inl, db := dx ∘ Sum.inr })

/-- The process noise of `state_transition`, lines 94-99. -/
noncomputable def processNoise (dt : ℝ) : M6 :=
  let Q11 := gyroVar * dt + 0.3333333 * driftVar * dt ^ 3
  let Q12 := -0.5 * driftVar * dt ^ 2
  let Q22 := driftVar * dt
  Matrix.fromBlocks (Q11 • 1) (Q12 • 1) (Q12 • 1) (Q22 • 1)

/-- `phi_11` of `state_transition`, lines 101-120. -/
noncomputable def phi11 (w : V3) (dt : ℝ) : M3 :=
  let wX := Vec.cross w
  let n := npNorm w
  let s := Real.sin (n * dt)
  let c := Real.cos (n * dt)
  if n ^ 2 ≠ 0 then 1 - (s / n) • wX + ((1 - c) / n ^ 2) • (wX * wX)
  else if n ≠ 0 then 1 - (s / n) • wX else 1

/-- `phi_12` of `state_transition`, lines 101-121. -/
noncomputable def phi12 (w : V3) (dt : ℝ) : M3 :=
  let wX := Vec.cross w
  let n := npNorm w
  let s := Real.sin (n * dt)
  let c := Real.cos (n * dt)
  if n ^ 2 ≠ 0 then
    if n ^ 3 ≠ 0 then
      -(dt • (1 : M3)) + ((1 - c) / n ^ 2) • wX - ((n * dt - s) / n ^ 3) • (wX * wX)
    else -(dt • (1 : M3)) + ((1 - c) / n ^ 2) • wX
  else -(dt • (1 : M3))

/-- `phi` of `state_transition`, lines 123-126. -/
noncomputable def phi (w : V3) (dt : ℝ) : M6 := Matrix.fromBlocks (phi11 w dt) (phi12 w dt) 0 1

/-- `psi` of `state_transition`, lines 128-134. -/
noncomputable def psi (w : V3) (dt : ℝ) : V3 :=
  let n := npNorm w
  if n ≠ 0 then (Real.sin (n * dt * 0.5) / n) • w else 0

/-- `omega` of `state_transition`, lines 136-139: the column `[c, psi]` beside
`[[-psi], [eye(3) - cross(psi)]]`. -/
noncomputable def omega (w : V3) (dt : ℝ) : Matrix (Fin 4) (Fin 4) ℝ :=
  let c := Real.cos (npNorm w * dt * 0.5)
  let p := psi w dt
  let B : M3 := 1 - Vec.cross p
  !![c, -p 0, -p 1, -p 2;
     p 0, B 0 0, B 0 1, B 0 2;
     p 1, B 1 0, B 1 1, B 1 2;
     p 2, B 2 0, B 2 1, B 2 2]

/-- `propagate`, lines 143-158. -/
noncomputable def Kalman.propagate (k : Kalman) (wSensor : V3) (dt : ℝ) : Kalman :=
  let w := wSensor - k.b
  { k with P := phi w dt * (k.P * (phi w dt)ᵀ) + G * (processNoise dt * Gᵀ),
           q := omega w dt *ᵥ k.q }

/-- `output`, lines 160-171. -/
def Kalman.output (k : Kalman) : V4 × V3 := (k.q, k.b)

end Att

/-! ## `DiscretePositionKalman`, lines 180-328 -/

namespace Pos

/-- `self.Q`, lines 193-197. -/
noncomputable def Q : M6 := Matrix.diagonal (Sum.elim (fun _ => 0) fun _ => 0.018166 ^ 2)

/-- `self.R`, lines 191-202. -/
noncomputable def R : M6 := Matrix.diagonal (Sum.elim (fun _ => 10.0598 ^ 2) fun _ => 0.52038 ^ 2)

/-- `self.a`, line 206. -/
noncomputable def a : ℝ := 1.28e-6
/-- `self.b`, line 207. -/
noncomputable def b : ℝ := 1.618e-10

/-- The attributes of a filter: covariance, estimate, the state object it was given and the
gravitational parameter of its environment (`self.environment.MU`). -/
structure Kalman (n : ℕ) where
  P : M6
  x : I6 → ℝ
  state : SatState n
  mu : ℝ

/-- `__init__`, lines 188-216. -/
noncomputable def init {n : ℕ} (mu : ℝ) (state : SatState n) : Kalman n :=
  { P := 1, x := Sum.elim state.attrs.position state.attrs.velocity, state := state, mu := mu }

/-- The rows `grad_a_1`, `grad_a_2`, `grad_a_3` of `F_continuous`, lines 248-258.  `-1/r**3` is a
numpy division: infinite at `r = 0`. -/
noncomputable def gradA (mu' : ℝ) (p : V3) : Py M3 :=
  let mu := -mu'
  let r := npNorm p
  match npDiv (-1) (r ^ 3) with
  | .error e => .error e
  | .ok r3term =>
    match npDiv 3 (r ^ 5) with
    | .error e => .error e
    | .ok r5term =>
      let x := p 0
      let y := p 1
      let z := p 2
      let g1 : V3 := ![mu * (r3term + r5term * x ^ 2), mu * (r5term * x * y), mu * (r5term * x * z)]
      let g2 : V3 := ![g1 1, mu * (r3term + r5term * y ^ 2), mu * r5term * z * y]
      let g3 : V3 := ![g1 2, g2 2, mu * (r3term + r5term * z ^ 2)]
      .ok (Matrix.of ![g1, g2, g3])

/-- `F_continuous`, lines 240-262. -/
noncomputable def Kalman.fContinuous {n : ℕ} (k : Kalman n) : Py M6 :=
  match gradA k.mu (k.x ∘ Sum.inl) with
  | .error e => .error e
  | .ok F21 => .ok (Matrix.fromBlocks 0 1 F21 (b • 1))

/-- `A_discrete` of `state_transition`, lines 282-287. -/
noncomputable def aDiscrete (dt : ℝ) : M6 :=
  let t2 := dt ^ 2
  let A11 := 1 - 0.5 * a * t2
  let A12 := dt - 0.5 * b * t2 - 0.1666 * a * dt * t2
  let A21 := -a * dt
  let A22 := A11 - b * dt
  Matrix.fromBlocks (A11 • 1) (A12 • 1) (A21 • 1) (A22 • 1)

/-- `state_transition`, lines 265-289. -/
noncomputable def Kalman.stateTransition {n : ℕ} (k : Kalman n) (dt : ℝ) : Py (M6 × M6) :=
  match k.fContinuous with
  | .error e => .error e
  | .ok F => .ok (1 + dt • F + (0.5 * dt ^ 2) • (F * F), aDiscrete dt)

/-- `update`, lines 292-307.  The filter keeps what was assigned before an exception: the state
object is written before its `update` is called. -/
noncomputable def Kalman.update {n : ℕ} (k : Kalman n) (xRef vRef : V3) : Py Unit × Kalman n :=
  let y : I6 → ℝ := Sum.elim xRef vRef
  match npInv (k.P + R) with
  | .error e => (.error e, k)
  | .ok inv =>
    let K := k.P * inv
    let x := k.x + K *ᵥ (y - k.x)
    let st : SatState n :=
      { k.state with arr := { k.state.arr with pos := x ∘ Sum.inl, vel := x ∘ Sum.inr } }
    let k' : Kalman n := { k with P := (1 - K) * k.P, x := x, state := st }
    match st.update with
    | .error e => (.error e, k')
    | .ok st' => (.ok (), { k' with state := st' })

/-- `propagate`, lines 310-318. -/
noncomputable def Kalman.propagate {n : ℕ} (k : Kalman n) (dt : ℝ) : Py Unit × Kalman n :=
  match k.stateTransition dt with
  | .error e => (.error e, k)
  | .ok (F, A) => (.ok (), { k with P := F * (k.P * Fᵀ) + Q, x := A *ᵥ k.x })

/-- `output`, lines 321-328. -/
def Kalman.output {n : ℕ} (k : Kalman n) : V3 × V3 := (k.x ∘ Sum.inl, k.x ∘ Sum.inr)

end Pos

end Adcs.Obs
