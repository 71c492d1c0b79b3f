import Verif.Model.Quaternion
import Mathlib.LinearAlgebra.Matrix.Determinant.Basic

set_option autoImplicit false

/-! # Model of `src/oresat_adcs/functions/attitude_estimation.py` -/

namespace Adcs.AttEst

open Adcs Vec

/-- Python `x is y` where `y` is an object freshly created by the expression on the right
(`np.zeros(3)`, `-r1`): never the same object. Used at attitude_estimation.py lines 26 and 28. -/
def isFreshObject (_x _fresh : V3) : Bool := false

/-- `triad_algorithm(r1, r2, b1, b2)`, attitude_estimation.py lines 10-49.
`.ok none` is the Python value `False`. -/
noncomputable def triad (r1 r2 b1 b2 : V3) : Py (Option V4) :=
  let r3 := npCross r1 r2
  let b3 := npCross b1 b2
  if isFreshObject r3 0 || isFreshObject b3 0 then .ok none
  else if isFreshObject b1 (-r1) then .ok none
  else
    let dotTerm := 1 + npDot b1 r1
    let mu := dotTerm * npDot b3 r3 - npDot b1 r3 * npDot r1 b3
    let sumTerm := b1 + r1
    let nu := npDot sumTerm (npCross b3 r3)
    let rho := Real.sqrt (mu ^ 2 + nu ^ 2)
    if mu ≥ 0 then
      let rhoplusmu := rho + mu
      let rhomudot := rhoplusmu * dotTerm
      match npSqrt (rho * rhomudot) with
      | .error e => .error e
      | .ok sq =>
        match npDiv (0.5 * 1) sq with
        | .error e => .error e
        | .ok mult =>
          let v := rhoplusmu • npCross b1 r1 + nu • sumTerm
          .ok (some (mult • ![rhomudot, v 0, v 1, v 2]))
    else
      let rhominmu := rho - mu
      match npSqrt (rho * rhominmu * dotTerm) with
      | .error e => .error e
      | .ok sq =>
        match npDiv (0.5 * 1) sq with
        | .error e => .error e
        | .ok mult =>
          let v := nu • npCross b1 r1 + rhominmu • sumTerm
          .ok (some (mult • ![nu * dotTerm, v 0, v 1, v 2]))

/-- `sum_across(a, r, b, n, i, j)`, lines 54-55; `a`, `r`, `b` of common length, as a list of
triples. -/
noncomputable def sumAcross (l : List (ℝ × V3 × V3)) (i j : Fin 3) : ℝ :=
  (l.map fun t => t.1 * t.2.1 i * t.2.2 j).sum

/-- Lines 63-64: both vector lists are normalised. -/
noncomputable def hats (l : List (ℝ × V3 × V3)) : List (ℝ × V3 × V3) :=
  l.map fun t => (t.1, normalizeV t.2.1, normalizeV t.2.2)

/-- `Hx`, `Hy`, `Hz`, lines 67-69: row `i` is the array for coordinate `i` of the reference. -/
noncomputable def hMat (l : List (ℝ × V3 × V3)) (i : Fin 3) : V3 := fun j => sumAcross (hats l) i j

/-- `W`, lines 71-74, from the three arrays. -/
def wMat (Hx Hy Hz : V3) : Matrix (Fin 4) (Fin 4) ℝ :=
  !![Hx 0 + Hy 1 + Hz 2, -Hy 2 + Hz 1, -Hz 0 + Hx 2, -Hx 1 + Hy 0;
     -Hy 2 + Hz 1, Hx 0 - Hy 1 - Hz 2, Hx 1 + Hy 0, Hx 2 + Hz 0;
     -Hz 0 + Hx 2, Hx 1 + Hy 0, Hy 1 - Hx 0 - Hz 2, Hy 2 + Hz 1;
     -Hx 1 + Hy 0, Hx 2 + Hz 0, Hy 2 + Hz 1, Hz 2 - Hy 1 - Hx 0]

/-- `tau1`, line 76. -/
def tau1 (Hx Hy Hz : V3) : ℝ := -2 * (npDot Hx Hx + npDot Hy Hy + npDot Hz Hz)
/-- `tau2`, line 77. -/
def tau2 (Hx Hy Hz : V3) : ℝ := 8 * npDot Hx (npCross Hz Hy)
/-- `tau3`, line 79. -/
noncomputable def tau3 (Hx Hy Hz : V3) : ℝ := (wMat Hx Hy Hz).det

/-- `f(x, t1, t2, t3)`, lines 57-58. -/
def quartic (x t1 t2 t3 : ℝ) : ℝ := x ^ 4 + t1 * x ^ 2 + t2 * x + t3
/-- `f_p(x, t1, t2, t3)`, lines 60-61. -/
def quarticDeriv (x t1 t2 _t3 : ℝ) : ℝ := 4 * x ^ 3 + 2 * t1 * x + t2

/-- `scipy.optimize.newton` with a derivative (external library, documented algorithm), as called
on line 81: at most `fuel` iterations; stop when `f` is zero or the step is within
`tol + rtol * |p0|`; a zero derivative or running out of iterations raises `RuntimeError`
(here `valueError`). -/
noncomputable def newton (f f' : ℝ → ℝ) (tol rtol : ℝ) : ℕ → ℝ → Py ℝ
  | 0, _ => .error .valueError
  | fuel + 1, p0 =>
    if f p0 = 0 then .ok p0
    else if f' p0 = 0 then .error .valueError
    else
      let p := p0 - f p0 / f' p0
      if |p - p0| ≤ tol + rtol * |p0| then .ok p
      else newton f f' tol rtol fuel p

/-- `N[k] /= pivot` for the row `k`, then `N[j] -= N[j][k] * N[k]` for the rows listed, lines
108-124.  A zero pivot gives inf/nan. -/
noncomputable def pivotStep (N : Fin 4 → V4) (k : Fin 4) : Py (Fin 4 → V4) :=
  if N k k = 0 then .error .nonFinite
  else
    let row : V4 := fun c => N k c / N k k
    .ok fun j => if j = k then row else fun c => N j c - N j k * row c

/-- `N = W - np.eye(4) * lam`, line 106, as a list of rows. -/
def charRows (W : Matrix (Fin 4) (Fin 4) ℝ) (lam : ℝ) : Fin 4 → V4 :=
  fun i j => W i j - (if i = j then lam else 0)

/-- Lines 106-127 for a given root `lam`: three Gauss-Jordan steps and the normalised null vector
with last component `-1`. -/
noncomputable def nullVector (W : Matrix (Fin 4) (Fin 4) ℝ) (lam : ℝ) : Py V4 := do
  let N1 ← pivotStep (charRows W lam) 0
  let N2 ← pivotStep N1 1
  let N3 ← pivotStep N2 2
  return normalizeV ![N3 0 3, N3 1 3, N3 2 3, -1]

/-- `flae(a, r, b)`, lines 51-127. -/
noncomputable def flae (l : List (ℝ × V3 × V3)) : Py V4 := do
  let Hx := hMat l 0
  let Hy := hMat l 1
  let Hz := hMat l 2
  let W := wMat Hx Hy Hz
  let t1 := tau1 Hx Hy Hz
  let t2 := tau2 Hx Hy Hz
  let t3 := tau3 Hx Hy Hz
  let lam ← newton (fun x => quartic x t1 t2 t3) (fun x => quarticDeriv x t1 t2 t3)
    1.48e-8 0.00001 4 1
  nullVector W lam

end Adcs.AttEst
