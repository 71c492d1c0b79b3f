import Verif.Model.FlightSoftware
import Mathlib.Data.Complex.Basic

set_option autoImplicit false

/-! # The delay in simulation/Stability Analysis.py -/

namespace Adcs.Lqr

open Adcs Obs

/-- The coefficients that `ct.pade(T, n)` of the `control` package computes from the constant term on: the package runs
`c = T * c * (n - k + 1) / (n + n - k + 1) / k` from `c = 1`. The denominator has `c`, the numerator `(-1)^k * c`
(afterwards both are divided by the leading coefficient of the denominator, which does not change the quotient). -/
noncomputable def padeCoef (T : ℝ) (n : ℕ) : ℕ → ℝ
  | 0 => 1
  | k + 1 => T * padeCoef T n k * ((n : ℝ) - (k + 1) + 1) / (n + n - (k + 1) + 1) / (k + 1)

/-- The value at `s` of `ct.tf(*ct.pade(T, n))`, simulation/Stability Analysis.py lines 30-31. -/
noncomputable def padeAt (T : ℝ) (n : ℕ) (s : ℂ) : ℂ :=
  (∑ k ∈ Finset.range (n + 1), ((-1) ^ k * padeCoef T n k : ℝ) * s ^ k) /
    ∑ k ∈ Finset.range (n + 1), (padeCoef T n k : ℂ) * s ^ k

/-- The value at `s` of the function `L` of one axis in `axis_margins(J, K, delay_s)`, simulation/Stability Analysis.py
lines 11-32. -/
noncomputable def axisLoopAt (J : M3) (K : Matrix (Fin 3) I6 ℝ) (delay : Option ℝ) (i : Fin 3) (s : ℂ) : Py ℂ :=
  match axisLoop J K i with
  | .error e => .error e
  | .ok n =>
    let L := ((n.1 : ℂ) * s + n.2) / s ^ 2
    match delay with
    | none => .ok L
    | some t => if 0 < t then .ok (L * padeAt t 4 s) else .ok L

end Adcs.Lqr
