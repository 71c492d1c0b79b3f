import Verif.Model.IeeeFsw
import Verif.Model.Observers

set_option autoImplicit false

/-! # The attitude filter on the values of floats

`DiscreteAttitudeStartrackerKalman`, observers.py lines 10-171, once more on the values an IEEE 754 float can
take; see `Model/Ieee.lean` for the simplifications. What `np.linalg.inv` returns is a parameter. -/

namespace Adcs.Ieee

open Adcs Obs
open scoped NNReal

/-- `np.sin`. -/
noncomputable def F.sin (rnd : ℝ≥0 → ℝ≥0) : F → F
  | .fin s m => F.ofReal rnd (Real.sin (if s then -(m : ℝ) else m))
  | _ => .nan

/-- `np.cos`. -/
noncomputable def F.cos (rnd : ℝ≥0 → ℝ≥0) : F → F
  | .fin s m => F.ofReal rnd (Real.cos (if s then -(m : ℝ) else m))
  | _ => .nan

/-- An entry of `np.eye`. -/
def eyeF {α : Type} [DecidableEq α] (i j : α) : F := if i = j then .fin false 1 else .fin false 0

/-- `vector.cross(v)`, vector.py lines 25-41. -/
def crossF (v : Fin 3 → F) : Fin 3 → Fin 3 → F :=
  ![![.fin false 0, (v 2).neg, v 1], ![v 2, .fin false 0, (v 0).neg], ![(v 1).neg, v 0, .fin false 0]]

/-- `np.linalg.norm` of a vector. -/
noncomputable def normF {n : ℕ} (rnd : ℝ≥0 → ℝ≥0) (v : Fin n → F) : F := F.sqrt rnd (dotN rnd v v)

/-- `vector.normalize(q)`, vector.py lines 43-61. -/
noncomputable def normalizeV {n : ℕ} (rnd : ℝ≥0 → ℝ≥0) (q : Fin n → F) : Fin n → F :=
  if F.eq (normF rnd q) (.fin false 0) then q else fun i => F.div rnd (q i) (normF rnd q)

/-- A sum of six products. -/
noncomputable def dot6 (rnd : ℝ≥0 → ℝ≥0) (a b : I6 → F) : F :=
  ([.inl 0, .inl 1, .inl 2, .inr 0, .inr 1, .inr 2].map fun k => F.mul rnd (a k) (b k)).foldl (F.add rnd)
    (.fin false 0)

/-- `np.dot` of two 6×6 matrices. -/
noncomputable def mul6 (rnd : ℝ≥0 → ℝ≥0) (A B : I6 → I6 → F) : I6 → I6 → F := fun i j => dot6 rnd (A i) fun k => B k j

/-- `np.dot` of two 3×3 matrices. -/
noncomputable def mul3 (rnd : ℝ≥0 → ℝ≥0) (A B : Fin 3 → Fin 3 → F) : Fin 3 → Fin 3 → F := fun i j =>
  dotN rnd (A i) fun k => B k j

/-- `quaternion.product(a, b)`, quaternion.py lines 57-77. -/
noncomputable def productF (rnd : ℝ≥0 → ℝ≥0) (a b : Fin 4 → F) : Fin 4 → F :=
  let mul := F.mul rnd
  let add := F.add rnd
  let c := cross rnd ![a 1, a 2, a 3] ![b 1, b 2, b 3]
  ![F.sub rnd (mul (a 0) (b 0)) (dot rnd ![a 1, a 2, a 3] ![b 1, b 2, b 3]),
    add (add (mul (b 0) (a 1)) (mul (a 0) (b 1))) (c 0),
    add (add (mul (b 0) (a 2)) (mul (a 0) (b 2))) (c 1),
    add (add (mul (b 0) (a 3)) (mul (a 0) (b 3))) (c 2)]

/-- `quaternion.error_quat(q, q_ref)`, quaternion.py lines 117-132, with `conjugate` of lines 42-55. -/
noncomputable def errorQuatF (rnd : ℝ≥0 → ℝ≥0) (q qRef : Fin 4 → F) : Fin 4 → F :=
  productF rnd ![qRef 0, (qRef 1).neg, (qRef 2).neg, (qRef 3).neg] q

/-- `quaternion.xi(q)`, quaternion.py lines 25-40. -/
noncomputable def xiF (rnd : ℝ≥0 → ℝ≥0) (q : Fin 4 → F) : Fin 4 → Fin 3 → F :=
  let m := fun i j => F.add rnd (F.mul rnd (q 0) (eyeF i j)) (crossF ![q 1, q 2, q 3] i j)
  ![![(q 1).neg, (q 2).neg, (q 3).neg], m 0, m 1, m 2]

/-- The attributes of a filter, observers.py lines 33-40. -/
structure FilterF where
  dq : Fin 3 → F
  db : Fin 3 → F
  P : I6 → I6 → F
  q : Fin 4 → F
  b : Fin 3 → F

/-- `reset`, observers.py lines 66-73. -/
noncomputable def FilterF.reset (rnd : ℝ≥0 → ℝ≥0) (f : FilterF) : FilterF :=
  { f with
    q := normalizeV rnd fun i => F.add rnd (f.q i) (F.mul rnd (dotN rnd (xiF rnd f.q i) f.dq) (F.ofReal rnd 0.5))
    dq := fun _ => .fin false 0
    b := fun i => F.add rnd (f.b i) (f.db i)
    db := fun _ => .fin false 0 }

/-- `measurement`, observers.py lines 48-64: what is returned or raised, and the filter afterwards. -/
noncomputable def FilterF.measurement (rnd : ℝ≥0 → ℝ≥0) (inv : (Fin 3 → Fin 3 → F) → Py (Fin 3 → Fin 3 → F))
    (f : FilterF) (qRef : Fin 4 → F) : Py Unit × FilterF :=
  match inv fun i j => F.add rnd (if i = j then F.ofReal rnd (Att.sensorSigma ^ 2) else .fin false 0)
      (f.P (.inl i) (.inl j)) with
  | .error e => (.error e, f)
  | .ok m =>
    let K : I6 → Fin 3 → F := fun i j => dotN rnd (fun l => f.P i (.inl l)) fun l => m l j
    let temp : I6 → I6 → F := fun i j => F.sub rnd (eyeF i j) (Sum.elim (K i) (fun _ => .fin false 0) j)
    let e := errorQuatF rnd qRef f.q
    let d : Fin 3 → F := ![F.sub rnd (e 1) (f.dq 0), F.sub rnd (e 2) (f.dq 1), F.sub rnd (e 3) (f.dq 2)]
    let dx : I6 → F := fun i => dotN rnd (K i) d
    (.ok (), FilterF.reset rnd { f with P := mul6 rnd temp f.P, dq := fun i => dx (.inl i), db := fun i => dx (.inr i) })

/-- The process noise of `state_transition`, observers.py lines 94-99. -/
noncomputable def noiseF (rnd : ℝ≥0 → ℝ≥0) (dt : F) : I6 → I6 → F :=
  let mul := F.mul rnd
  let lit := F.ofReal rnd
  let q11 := F.add rnd (mul (lit Att.gyroVar) dt)
    (mul (mul (lit 0.3333333) (lit Att.driftVar)) (mul (mul dt dt) dt))
  let q12 := mul (mul (lit 0.5).neg (lit Att.driftVar)) (mul dt dt)
  let q22 := mul (lit Att.driftVar) dt
  fun i j => match i, j with
    | .inl i, .inl j => mul q11 (eyeF i j)
    | .inl i, .inr j => mul q12 (eyeF i j)
    | .inr i, .inl j => mul q12 (eyeF i j)
    | .inr i, .inr j => mul q22 (eyeF i j)

/-- `self.G`, observers.py line 43. -/
def gF (i j : I6) : F := if i = j then .fin i.isLeft 1 else .fin false 0

/-- `phi` of `state_transition`, observers.py lines 101-126. -/
noncomputable def phiF (rnd : ℝ≥0 → ℝ≥0) (w : Fin 3 → F) (dt : F) : I6 → I6 → F :=
  let mul := F.mul rnd
  let add := F.add rnd
  let sub := F.sub rnd
  let div := F.div rnd
  let wX := crossF w
  let wX2 := mul3 rnd wX wX
  let n := normF rnd w
  let n2 := mul n n
  let n3 := mul (mul n n) n
  let s := F.sin rnd (mul n dt)
  let c := F.cos rnd (mul n dt)
  let c1 := sub (F.ofReal rnd 1) c
  let phi11 : Fin 3 → Fin 3 → F := fun i j =>
    if !(F.eq n2 (.fin false 0)) then
      add (sub (eyeF i j) (mul (div s n) (wX i j))) (mul (div c1 n2) (wX2 i j))
    else if !(F.eq n (.fin false 0)) then sub (eyeF i j) (mul (div s n) (wX i j)) else eyeF i j
  let phi12 : Fin 3 → Fin 3 → F := fun i j =>
    let d := mul (eyeF i j).neg dt
    if !(F.eq n2 (.fin false 0)) then
      if !(F.eq n3 (.fin false 0)) then
        sub (add d (mul (div c1 n2) (wX i j))) (mul (div (sub (mul n dt) s) n3) (wX2 i j))
      else add d (mul (div c1 n2) (wX i j))
    else d
  fun i j => match i, j with
    | .inl i, .inl j => phi11 i j
    | .inl i, .inr j => phi12 i j
    | .inr _, .inl _ => .fin false 0
    | .inr i, .inr j => eyeF i j

/-- `psi` of `state_transition`, observers.py lines 128-134. -/
noncomputable def psiF (rnd : ℝ≥0 → ℝ≥0) (w : Fin 3 → F) (dt : F) : Fin 3 → F := fun i =>
  let n := normF rnd w
  if !(F.eq n (.fin false 0)) then
    F.mul rnd (F.div rnd (F.sin rnd (F.mul rnd (F.mul rnd n dt) (F.ofReal rnd 0.5))) n) (w i)
  else .fin false 0

/-- `omega` of `state_transition`, observers.py lines 136-139. -/
noncomputable def omegaF (rnd : ℝ≥0 → ℝ≥0) (w : Fin 3 → F) (dt : F) : Fin 4 → Fin 4 → F :=
  let c := F.cos rnd (F.mul rnd (F.mul rnd (normF rnd w) dt) (F.ofReal rnd 0.5))
  let p := psiF rnd w dt
  let B := fun i j => F.sub rnd (eyeF i j) (crossF p i j)
  ![![c, (p 0).neg, (p 1).neg, (p 2).neg],
    ![p 0, B 0 0, B 0 1, B 0 2],
    ![p 1, B 1 0, B 1 1, B 1 2],
    ![p 2, B 2 0, B 2 1, B 2 2]]

/-- `propagate`, observers.py lines 143-158. -/
noncomputable def FilterF.propagate (rnd : ℝ≥0 → ℝ≥0) (f : FilterF) (wSensor : Fin 3 → F) (dt : F) : FilterF :=
  let w := fun i => F.sub rnd (wSensor i) (f.b i)
  let phi := phiF rnd w dt
  let om := omegaF rnd w dt
  let noise := mul6 rnd gF (mul6 rnd (noiseF rnd dt) fun i j => gF j i)
  { f with
    P := fun i j => F.add rnd (mul6 rnd phi (mul6 rnd f.P fun i j => phi j i) i j) (noise i j)
    q := fun i => dotN rnd (om i) f.q }

end Adcs.Ieee
