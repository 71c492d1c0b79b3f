import Verif.Model.SimQuat
import Verif.Model.Structure
import Verif.Model.Observers
import Mathlib.LinearAlgebra.Matrix.PosDef
import Mathlib.Data.Matrix.ColumnRowPartitioned

set_option autoImplicit false

/-! # Model of `simulation/FlightSoftwareModule.py` and `simulation/ADCS_Discrete_State_Space_Calculator.py`

Messages of the Basilisk framework are arguments (taken to be written), and what is sent to the wheels is
the attribute `torque_vals`, of which only the first four entries are ever changed. Prints and the list
`error` (kept for plots) are left out, as is commented-out code. -/

namespace Adcs

open Obs
open scoped Matrix

/-- `self.mode`. -/
inductive Fsw.Mode | slew | precise
  deriving DecidableEq

/-- Attributes of a `FlightSoftware`, lines 10-57. -/
structure Fsw where
  Gpinv : Matrix (Fin 4) (Fin 3) ℝ
  rwInertia : ℝ
  updateTime : ℝ
  mode : Fsw.Mode
  qTarget : V4
  omegaTarget : V3
  maxTorque : ℝ
  maxSpeed : ℝ
  K : Matrix (Fin 3) I6 ℝ
  torqueVals : Fin 4 → ℝ
  signFlipped : ℕ

/-- `FlightSoftware.__init__`, lines 10-57. `pinv` is `np.linalg.pinv(G_matrix)`, `K` the gain matrix of
line 42 (`self.K = self.fast_gain`); `macros.RPM` is `2 pi / 60`. -/
noncomputable def Fsw.init (pinv : Matrix (Fin 4) (Fin 3) ℝ) (updateTime rwInertia : ℝ)
    (K : Matrix (Fin 3) I6 ℝ) : Fsw :=
  { Gpinv := -pinv, rwInertia := rwInertia, updateTime := updateTime, mode := .slew,
    qTarget := ![0, 0, 0, 1], omegaTarget := 0, maxTorque := 0.01,
    maxSpeed := 10000 * (2 * Real.pi / 60), K := K, torqueVals := 0, signFlipped := 0 }

/-- `check_hemi`, lines 62-70. -/
noncomputable def Fsw.checkHemi (f : Fsw) (q : V4) : V4 × Fsw :=
  if 0 ≤ q 3 then (q, { f with signFlipped := 0 }) else (-q, { f with signFlipped := 1 })

/-- `max(-self.maxTorque, min(x, self.maxTorque))`, lines 170, 172 and 177. -/
noncomputable def Fsw.clamp (f : Fsw) (x : ℝ) : ℝ := max (-f.maxTorque) (min x f.maxTorque)

/-- One pass of the loop of `check_torque_vals`, lines 162-172. -/
noncomputable def Fsw.checkTorque (f : Fsw) (torque speed : ℝ) : Py ℝ :=
  match npDiv torque f.rwInertia with
  | .error e => .error e
  | .ok a =>
    let projected := speed + a * f.updateTime
    if |projected| > f.maxSpeed then
      let sign := if speed ≠ 0 then npSign speed else npSign torque
      match npDiv ((sign * f.maxSpeed - speed) * f.rwInertia) f.updateTime with
      | .error e => .error e
      | .ok required => .ok (f.clamp required)
    else .ok (f.clamp torque)

/-- `check_torque_vals`, lines 159-172. -/
noncomputable def Fsw.checkTorqueVals (f : Fsw) (torque speeds : Fin 4 → ℝ) : Py Fsw :=
  match Str.pyForall fun i => f.checkTorque (torque i) (speeds i) with
  | .error e => .error e
  | .ok v => .ok { f with torqueVals := v }

/-- `zero_wheel_speeds`, lines 174-179; Python floats, so that a zero time step raises. -/
noncomputable def Fsw.zeroWheelSpeeds (f : Fsw) (speeds : Fin 4 → ℝ) : Py Fsw :=
  if f.updateTime = 0 then .error .zeroDivision
  else .ok { f with torqueVals := fun i => f.clamp (-f.rwInertia * speeds i / f.updateTime) }

/-- `mode_check`, lines 181-187. -/
noncomputable def Fsw.modeCheck (f : Fsw) (errorAngle : ℝ) : Fsw :=
  if errorAngle < 30 ∧ f.mode = .slew then { f with mode := .precise }
  else if errorAngle > 40 ∧ f.mode = .precise then { f with mode := .slew }
  else f

/-- `quaternion_controller`, lines 189-193. -/
noncomputable def Fsw.quaternionController (f : Fsw) (qError : V4) (omega : V3) : V3 :=
  let qv : V3 := fun i => ![qError 0, qError 1, qError 2] i * (-1) ^ f.signFlipped
  Matrix.mulVec (-f.K) (Sum.elim qv (omega - f.omegaTarget))

/-- `convert_torque_to_wheels`, lines 154-157. -/
def Fsw.convertTorque (f : Fsw) (torque : V3) : Fin 4 → ℝ := f.Gpinv *ᵥ torque

/-- `UpdateState`, lines 72-123, from the start time of the controller on: `reading` is
`qInrtl2Case`, scalar first. -/
noncomputable def Fsw.updateState (f : Fsw) (reading : V4) (omega : V3) (speeds : Fin 4 → ℝ) :
    Py Unit × Fsw :=
  match Sim.normalize (Sim.toScalarLast reading) with
  | .error e => (.error e, f)
  | .ok q =>
    match Sim.axisAngle ![0, 1, 0] 90 with
    | .error e => (.error e, f)
    | .ok qInit =>
      match Sim.quatError f.qTarget q with
      | .error e => (.error e, f)
      | .ok err =>
        let (err, f) := f.checkHemi err
        match Sim.axisAngle ![0, 1, 0] 180 with
        | .error e => (.error e, f)
        | .ok qRot =>
          match Sim.quatMult qRot qInit with
          | .error e => (.error e, f)
          | .ok t2 =>
            match Sim.errorAngle err with
            | .error e => (.error e, f)
            | .ok angle =>
              let f := if angle = 0 ∧ omega = 0 then { f with qTarget := t2 } else f
              match f.checkTorqueVals (f.convertTorque (f.quaternionController err omega)) speeds with
              | .error e => (.error e, f)
              | .ok f => (.ok (), f)

end Adcs

namespace Adcs.Lqr

open Adcs Obs
open scoped Matrix

/-- `add_integrators(A, B, C)`, ADCS_Discrete_State_Space_Calculator.py lines 5-43, for matrices of matching shapes. -/
def addIntegrators {n m p : Type} (A : Matrix n n ℝ) (B : Matrix n p ℝ) (C : Matrix m n ℝ) :
    Matrix (n ⊕ m) (n ⊕ m) ℝ × Matrix (n ⊕ m) p ℝ :=
  (Matrix.fromBlocks A 0 (-C) 0, Matrix.fromRows B 0)

/-- `Q[:6, :6]`, ADCS_Discrete_State_Space_Calculator.py line 54. -/
noncomputable def Q (maxError maxRate : ℝ) : M6 :=
  Matrix.diagonal (Sum.elim (fun _ => 1 / maxError ^ 2) fun _ => 1 / maxRate ^ 2)

/-- `R`, ADCS_Discrete_State_Space_Calculator.py line 55 (`max_input = 0.04`, line 52). -/
noncomputable def R : M3 := Matrix.diagonal fun _ => 1 / 0.04 ^ 2

/-- `A`, ADCS_Discrete_State_Space_Calculator.py line 58: `0.5 * np.eye(6, 6, 3)`. -/
noncomputable def A : M6 := Matrix.fromBlocks 0 ((0.5 : ℝ) • 1) 0 0

/-- `B`, ADCS_Discrete_State_Space_Calculator.py line 59, for the inverse of the inertia. -/
def B (Jinv : M3) : Matrix I6 (Fin 3) ℝ := Matrix.fromRows 0 Jinv

/-- `Ad` of `cont2discrete((A, B, C, D), Ts)`, ADCS_Discrete_State_Space_Calculator.py line 76: the matrix
exponential of `Ts * A` (zero-order
hold), which ends after two terms because `A` squares to zero. -/
noncomputable def Ad (Ts : ℝ) : M6 := 1 + Ts • A

/-- `Bd` of ADCS_Discrete_State_Space_Calculator.py line 76: the integral of `exp(t A) B` over the step. -/
noncomputable def Bd (Jinv : M3) (Ts : ℝ) : Matrix I6 (Fin 3) ℝ :=
  Ts • B Jinv + (Ts ^ 2 / 2) • (A * B Jinv)

/-- What `solve_discrete_are(a, b, q, r)` of scipy solves, for a symmetric positive semidefinite `P`. -/
structure IsDare {n p : Type} [Fintype n] [Fintype p] [DecidableEq p] (a : Matrix n n ℝ) (b : Matrix n p ℝ)
    (q : Matrix n n ℝ) (r : Matrix p p ℝ) (P : Matrix n n ℝ) : Prop where
  psd : P.PosSemidef
  eq : aᵀ * P * a - P - aᵀ * P * b * (r + bᵀ * P * b)⁻¹ * (bᵀ * P * a) + q = 0

/-- `K`, ADCS_Discrete_State_Space_Calculator.py lines 71 and 78: the gain for a solution `P`. -/
noncomputable def gain {n p : Type} [Fintype n] [Fintype p] [DecidableEq p] (a : Matrix n n ℝ)
    (b : Matrix n p ℝ) (r : Matrix p p ℝ) (P : Matrix n n ℝ) : Py (Matrix p n ℝ) :=
  match npInv' (r + bᵀ * P * b) with
  | .error e => .error e
  | .ok i => .ok (i * bᵀ * P * a)
where
  /-- `np.linalg.inv`. -/
  npInv' (M : Matrix p p ℝ) : Py (Matrix p p ℝ) := if M.det = 0 then .error .linAlg else .ok M⁻¹

/-- `get_gain_matrix(J, Ts, max_error, max_rate, False)`, ADCS_Discrete_State_Space_Calculator.py lines 45-61, 73-78
and 88, returns `K`. Zero for `max_error` or `max_rate` is a `ZeroDivisionError` on line 54, a singular inertia a
`LinAlgError` on line 59. The eigenvalues of lines 80-86 are only printed. -/
def GetGain (J : M3) (Ts maxError maxRate : ℝ) (K : Matrix (Fin 3) I6 ℝ) : Prop :=
  maxError ≠ 0 ∧ maxRate ≠ 0 ∧ ∃ Jinv P, npInv J = .ok Jinv ∧
    IsDare (Ad Ts) (Bd Jinv Ts) (Q maxError maxRate) R P ∧ gain (Ad Ts) (Bd Jinv Ts) R P = .ok K

/-- `C_aug`, ADCS_Discrete_State_Space_Calculator.py line 61: `np.eye(3, 6)`. -/
def cAug : Matrix (Fin 3) I6 ℝ := Matrix.fromCols 1 0

/-- Index of the state with integrators. -/
abbrev I9 := I6 ⊕ Fin 3

/-- `A_aug`, ADCS_Discrete_State_Space_Calculator.py line 65. -/
noncomputable def AI (Jinv : M3) : Matrix I9 I9 ℝ := (addIntegrators A (B Jinv) cAug).1

/-- `B_aug`, ADCS_Discrete_State_Space_Calculator.py line 65. -/
noncomputable def BI (Jinv : M3) : Matrix I9 (Fin 3) ℝ := (addIntegrators A (B Jinv) cAug).2

/-- `Q`, ADCS_Discrete_State_Space_Calculator.py line 54 (`max_integrator = 0.1`, line 51). -/
noncomputable def QI (maxError maxRate : ℝ) : Matrix I9 I9 ℝ :=
  Matrix.diagonal (Sum.elim (Sum.elim (fun _ => 1 / maxError ^ 2) fun _ => 1 / maxRate ^ 2) fun _ => 1 / 0.1 ^ 2)

/-- `Ad` of `cont2discrete((A_aug, B_aug, C_aug, D_aug), Ts)`, ADCS_Discrete_State_Space_Calculator.py line 69: the
matrix exponential, which ends after three terms because `A_aug` is nilpotent. `C_aug` has six columns for nine states;
the zero-order hold passes it through without looking at it. -/
noncomputable def AdI (Jinv : M3) (Ts : ℝ) : Matrix I9 I9 ℝ := 1 + Ts • AI Jinv + (Ts ^ 2 / 2) • (AI Jinv * AI Jinv)

/-- `Bd` of ADCS_Discrete_State_Space_Calculator.py line 69. -/
noncomputable def BdI (Jinv : M3) (Ts : ℝ) : Matrix I9 (Fin 3) ℝ :=
  Ts • BI Jinv + (Ts ^ 2 / 2) • (AI Jinv * BI Jinv) + (Ts ^ 3 / 6) • (AI Jinv * (AI Jinv * BI Jinv))

/-- `get_gain_matrix(J, Ts, max_error, max_rate, True)`, ADCS_Discrete_State_Space_Calculator.py lines 45-71 and 88,
returns `K`. -/
def GetGainI (J : M3) (Ts maxError maxRate : ℝ) (K : Matrix (Fin 3) I9 ℝ) : Prop :=
  maxError ≠ 0 ∧ maxRate ≠ 0 ∧ ∃ Jinv P, npInv J = .ok Jinv ∧
    IsDare (AdI Jinv Ts) (BdI Jinv Ts) (QI maxError maxRate) R P ∧ gain (AdI Jinv Ts) (BdI Jinv Ts) R P = .ok K

/-- The numerator `num` of the transfer function of one axis in `axis_margins(J, K)`, simulation/Stability
Analysis.py lines 5-24: the coefficients of `s` and of `1`; the denominator of line 24 is `s^2`. Without a delay
(lines 29-32); the margins of lines 35-41 are computed from this function by the `control` package, which is not
modelled. -/
noncomputable def axisLoop (J : M3) (K : Matrix (Fin 3) I6 ℝ) (i : Fin 3) : Py (ℝ × ℝ) :=
  match npInv J with
  | .error e => .error e
  | .ok Jinv => .ok (Jinv i i * K i (.inr i), 0.5 * Jinv i i * K i (.inl i))

end Adcs.Lqr
