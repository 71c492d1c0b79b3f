import Verif.Model.IeeeFilter

set_option autoImplicit false

/-! # The position filter on the values of floats

`DiscretePositionKalman`, observers.py lines 180-328, once more on the values an IEEE 754 float can take; see
`Model/Ieee.lean` for the simplifications. What `np.linalg.inv` returns and what `self.state.update()` returns or
raises are parameters; an integer power is a product. -/

namespace Adcs.Ieee

open Adcs Obs
open scoped NNReal

/-- The attributes of a filter that change, observers.py lines 203 and 214, and `self.environment.MU`. -/
structure PosF where
  P : I6 → I6 → F
  x : I6 → F
  mu : F

/-- `self.R`, observers.py lines 191-202. -/
noncomputable def rF (rnd : ℝ≥0 → ℝ≥0) (i j : I6) : F := F.ofReal rnd (Pos.R i j)

/-- `self.Q`, observers.py lines 193-197. -/
noncomputable def qF (rnd : ℝ≥0 → ℝ≥0) (i j : I6) : F := F.ofReal rnd (Pos.Q i j)

/-- `F_continuous`, observers.py lines 240-262. -/
noncomputable def PosF.fContinuous (rnd : ℝ≥0 → ℝ≥0) (f : PosF) : I6 → I6 → F :=
  let mul := F.mul rnd
  let add := F.add rnd
  let mu := f.mu.neg
  let r := normF rnd fun i => f.x (.inl i)
  let r3term := F.div rnd (F.ofReal rnd (-1)) (mul (mul r r) r)
  let r5term := F.div rnd (F.ofReal rnd 3) (mul (mul (mul (mul r r) r) r) r)
  let x := f.x (.inl 0)
  let y := f.x (.inl 1)
  let z := f.x (.inl 2)
  let g1 : Fin 3 → F := ![mul mu (add r3term (mul r5term (mul x x))), mul mu (mul (mul r5term x) y),
    mul mu (mul (mul r5term x) z)]
  let g2 : Fin 3 → F := ![g1 1, mul mu (add r3term (mul r5term (mul y y))), mul (mul (mul mu r5term) z) y]
  let g3 : Fin 3 → F := ![g1 2, g2 2, mul mu (add r3term (mul r5term (mul z z)))]
  fun i j => match i, j with
    | .inl _, .inl _ => .fin false 0
    | .inl i, .inr j => eyeF i j
    | .inr i, .inl j => (![g1, g2, g3] : Fin 3 → Fin 3 → F) i j
    | .inr i, .inr j => mul (eyeF i j) (F.ofReal rnd Pos.b)

/-- `F_discrete` of `state_transition`, observers.py lines 276-280. -/
noncomputable def PosF.fDiscrete (rnd : ℝ≥0 → ℝ≥0) (f : PosF) (dt : F) : I6 → I6 → F :=
  let Fc := f.fContinuous rnd
  fun i j => F.add rnd (F.add rnd (eyeF i j) (F.mul rnd (Fc i j) dt))
    (F.mul rnd (F.mul rnd (F.ofReal rnd 0.5) (mul6 rnd Fc Fc i j)) (F.mul rnd dt dt))

/-- `A_discrete` of `state_transition`, observers.py lines 282-287. -/
noncomputable def aDiscreteF (rnd : ℝ≥0 → ℝ≥0) (dt : F) : I6 → I6 → F :=
  let mul := F.mul rnd
  let sub := F.sub rnd
  let lit := F.ofReal rnd
  let t2 := mul dt dt
  let A11 := sub (lit 1) (mul (mul (lit 0.5) (lit Pos.a)) t2)
  let A12 := sub (sub dt (mul (mul (lit 0.5) (lit Pos.b)) t2)) (mul (mul (mul (lit 0.1666) (lit Pos.a)) dt) t2)
  let A21 := mul (lit Pos.a).neg dt
  let A22 := sub A11 (mul (lit Pos.b) dt)
  fun i j => match i, j with
    | .inl i, .inl j => mul A11 (eyeF i j)
    | .inl i, .inr j => mul A12 (eyeF i j)
    | .inr i, .inl j => mul A21 (eyeF i j)
    | .inr i, .inr j => mul A22 (eyeF i j)

/-- `update`, observers.py lines 292-307: what is returned or raised, and the filter afterwards. Covariance and
estimate are assigned before `self.state.update()` is called. -/
noncomputable def PosF.update (rnd : ℝ≥0 → ℝ≥0) (inv : (I6 → I6 → F) → Py (I6 → I6 → F)) (upd : (I6 → F) → Py Unit)
    (f : PosF) (xRef vRef : Fin 3 → F) : Py Unit × PosF :=
  let y : I6 → F := Sum.elim xRef vRef
  match inv fun i j => F.add rnd (f.P i j) (rF rnd i j) with
  | .error e => (.error e, f)
  | .ok m =>
    let K := mul6 rnd f.P m
    let x : I6 → F := fun i => F.add rnd (f.x i) (dot6 rnd (K i) fun j => F.sub rnd (y j) (f.x j))
    (upd x, { f with P := mul6 rnd (fun i j => F.sub rnd (eyeF i j) (K i j)) f.P, x := x })

/-- `propagate`, observers.py lines 310-318. -/
noncomputable def PosF.propagate (rnd : ℝ≥0 → ℝ≥0) (f : PosF) (dt : F) : PosF :=
  let Fd := f.fDiscrete rnd dt
  { f with
    P := fun i j => F.add rnd (mul6 rnd Fd (mul6 rnd f.P fun i j => Fd j i) i j) (qF rnd i j)
    x := fun i => dot6 rnd (aDiscreteF rnd dt i) f.x }

end Adcs.Ieee
