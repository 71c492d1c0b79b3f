import Verif.Model.SimQuat

set_option autoImplicit false

/-! # Model of the curve of errors that `sim_main` draws, `simulation/ADCS_Simulation_Basilisk.py` lines 268-274

Times are in nanoseconds. The framework is taken to run a task of period `p` at the times 0, `p`, 2 `p` and so on up to
the stop time (lines 116-117 and 259), and a recorder without a period once in every run of its task. -/

namespace Adcs.Sim

open Adcs

/-- `rwSpeedLog.times()`, line 268, for a task of period `p` and the stop time `stop`: the recorder of lines 229-230. -/
def taskTimes (stop p : ℕ) : List ℕ := (List.range (stop / p + 1)).map (· * p)

/-- `fsw.error` after a run: one error quaternion for each update of the flight software (FlightSoftwareModule.py
line 102), of period `p`; `e j` is that of update number `j`. -/
def errorLog (stop p : ℕ) (e : ℕ → V4) : List V4 := (List.range (stop / p + 1)).map e

/-- A list comprehension that stops at the first exception. -/
def mapPy {α β : Type} (f : α → Py β) : List α → Py (List β)
  | [] => .ok []
  | a :: l =>
    match f a with
    | .error e => .error e
    | .ok b =>
      match mapPy f l with
      | .error e => .error e
      | .ok l' => .ok (b :: l')

/-- `error_expanded`, lines 270-272: `np.repeat` of all angles but the last, ten times each, and the last one.
`fsw.error[-1]` of an empty list is an `IndexError`. -/
noncomputable def errorExpanded (log : List V4) : Py (List ℝ) :=
  match mapPy errorAngle log.dropLast with
  | .error e => .error e
  | .ok angles =>
    match log.getLast? with
    | none => .error .indexError
    | some q =>
      match errorAngle q with
      | .error e => .error e
      | .ok last => .ok (angles.flatMap (List.replicate 10) ++ [last])

/-- `ax2.plot(timeData, errorArray, ...)`, line 37 of `plot_rw_speeds` (lines 21-46): the points of the curve. Matplotlib
raises `ValueError` for arrays of different lengths. -/
def curve (times : List ℕ) (values : List ℝ) : Py (List (ℕ × ℝ)) :=
  if times.length = values.length then .ok (times.zip values) else .error .valueError

/-- Lines 268-274 of `sim_main`: the curve of errors of a run with the periods `dyn` of the dynamics and `fsw` of the
flight software. -/
noncomputable def errorCurve (stop dyn fsw : ℕ) (e : ℕ → V4) : Py (List (ℕ × ℝ)) :=
  match errorExpanded (errorLog stop fsw e) with
  | .error x => .error x
  | .ok values => curve (taskTimes stop dyn) values

end Adcs.Sim
