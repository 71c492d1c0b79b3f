import Verif.Model.Vector

set_option autoImplicit false

/-! # Model of `src/oresat_adcs/configuration/structure.py` -/

namespace Adcs.Str

open Adcs
open scoped Matrix

/-! ## Sensitive instruments -/

/-- Attributes of a `SensitiveInstrument`, lines 24-35.  `obj_ids`, `sigma`, ... are parallel lists in
the code; here functions of the object index, with `objIds` the list of indices that matter and
`nBounds` the length of the lists. -/
structure Instrument where
  boresight : V3
  nBounds : ℕ
  sign : Fin nBounds → ℝ
  bounds : Fin nBounds → ℝ
  cosPsi : Fin nBounds → ℝ
  objIds : List ℕ
  sigma : Fin nBounds → ℝ
  iota : Fin nBounds → ℝ
  gains : Fin nBounds → ℝ
  push : Fin nBounds → ℝ

/-- `SensitiveInstrument.__init__` (lines 24-29) followed by `set_gains` (lines 31-35); bounds in
degrees, `stop` in radians. `gains` is taken to have as many entries as `bounds`. -/
noncomputable def Instrument.mk' (boresight : V3) (n : ℕ) (bounds : Fin n → ℝ) (forbidden : Fin n → Bool)
    (objIds : List ℕ) (stop : ℝ) (gains : Fin n → ℝ) : Instrument :=
  let sign : Fin n → ℝ := fun j => if forbidden j then -1 else 1
  let b : Fin n → ℝ := fun j => npRadians (bounds j)
  let cosPsi : Fin n → ℝ := fun j => Real.cos (b j)
  let sigma : Fin n → ℝ := fun j => 0.5 * |Real.cos (b j - sign j * stop) - cosPsi j|
  { boresight := boresight, nBounds := n, sign := sign, bounds := b, cosPsi := cosPsi,
    objIds := objIds, sigma := sigma, iota := fun j => 0.25 * sigma j, gains := gains,
    push := fun j => gains j * 0.5 }

/-- `SensitiveInstrument.cares_about(i, psi)`, lines 37-38: `and` evaluates `self.sigma[i]` only for an
`i` in `obj_ids`, and raises `IndexError` when the list is too short. -/
noncomputable def Instrument.caresAbout (s : Instrument) (i : ℕ) (psi : ℝ) : Py Bool :=
  if i ∈ s.objIds then
    if h : i < s.nBounds then .ok (psi < s.sigma ⟨i, h⟩) else .error .indexError
  else .ok false

/-! ## Magnetorquers -/

/-- `Magnetorquer.actuate`, lines 69-93, for the type and axis of the object; an unknown type leaves
`m` unassigned. -/
noncomputable def mtActuate (mtType : String) (axis : V3) (I : ℝ) : Py V3 :=
  if mtType = "Square" then .ok fun i => axis i * I * 1.584
  else if mtType = "Rod" then .ok fun i => axis i * (2.36 * |I| - 1.1 * I ^ 2) * npSign I
  else if mtType = "LinearRod" then .ok fun i => axis i * (1.87 * I)
  else .error .unboundLocal

/-- Attributes of a `Magnetorquer`, lines 54-67. -/
structure Magnetorquer where
  mtType : String
  axis : V3
  maxA : ℝ
  maxM : ℝ
  R : Option ℝ

/-- `Magnetorquer.__init__`, lines 54-67. -/
noncomputable def Magnetorquer.init (mtType : String) (axis : V3) (maxA : ℝ) : Py Magnetorquer :=
  let R : Option ℝ :=
    if mtType = "Square" then some 14.9
    else if mtType = "Rod" then some 6.28
    else if mtType = "LinearRod" then some 6.28
    else none
  match mtActuate mtType axis maxA with
  | .error e => .error e
  | .ok m => .ok { mtType := mtType, axis := axis, maxA := maxA, maxM := npNorm m, R := R }

/-- `Magnetorquer.actuate`, lines 69-93. -/
noncomputable def Magnetorquer.actuate (t : Magnetorquer) (I : ℝ) : Py V3 := mtActuate t.mtType t.axis I

/-- `Magnetorquer.getCurrent`, lines 95-116 (called with one component of the moment). -/
noncomputable def Magnetorquer.getCurrent (t : Magnetorquer) (m : ℝ) : Py ℝ :=
  if t.mtType = "Square" then .ok (m * 0.631313)
  else if t.mtType = "Rod" then
    match npSqrt (3481 - 2750 * |m|) with
    | .error e => .error e
    | .ok s => .ok (npSign m * 0.0181818 * (59 - s))
  else if t.mtType = "LinearRod" then .ok (m * 0.5347593)
  else .error .unboundLocal

/-- `Magnetorquer.power`, lines 118-132. -/
noncomputable def Magnetorquer.power (t : Magnetorquer) (I : ℝ) : Py ℝ :=
  match t.R with
  | none => .error .attributeError
  | some R => .ok (R * I ^ 2)

/-- `[f(x) for ...]`: stops at the first exception. -/
def pyForall {n : ℕ} {α : Type} (f : Fin n → Py α) : Py (Fin n → α) :=
  match n, f with
  | 0, _ => .ok fun i => i.elim0
  | _ + 1, f =>
    match f 0 with
    | .error e => .error e
    | .ok a =>
      match pyForall (fun i => f i.succ) with
      | .error e => .error e
      | .ok g => .ok (Fin.cons a g)

/-- `torquer.max_m / m[index]` on line 172. Numpy gives `inf` for a positive number over zero, which
`min` and `<` treat as larger than every number; zero over zero is nan. Simplification: a negative zero,
which gives `-inf`, is not modelled here but in `Verif/Model/Ieee.lean`. -/
noncomputable def ratio (maxM m : ℝ) : Py (WithTop ℝ) :=
  if m = 0 then (if maxM = 0 then .error .nonFinite else .ok ⊤) else .ok ((maxM / m : ℝ) : WithTop ℝ)

/-- `MagnetorquerSystem.distribute`, lines 150-176, lines 172-174: the moment after scaling; `torquers` is what
`__init__` (lines 147-148) keeps. `min` of an
empty list raises `ValueError`. The moment is taken to have as many components as there are torquers. -/
noncomputable def scaleMoment {n : ℕ} (torquers : Fin n → Magnetorquer) (m : Fin n → ℝ) :
    Py (Fin n → ℝ) :=
  match pyForall fun i => ratio (torquers i).maxM (m i) with
  | .error e => .error e
  | .ok r =>
    if h : (Finset.univ : Finset (Fin n)).Nonempty then
      let factor := Finset.univ.inf' h r
      .ok (if factor < 1 then fun i => m i * factor.untopD 0 else m)
    else .error .valueError

/-- `MagnetorquerSystem.distribute`, lines 150-176. -/
noncomputable def distribute {n : ℕ} (torquers : Fin n → Magnetorquer) (m : Fin n → ℝ) :
    Py (Fin n → ℝ) :=
  match scaleMoment torquers m with
  | .error e => .error e
  | .ok m => pyForall fun i => (torquers i).getCurrent (m i)

/-- `MagnetorquerSystem.actuate`, lines 178-192. -/
noncomputable def sysActuate {n : ℕ} (torquers : Fin n → Magnetorquer) (I : Fin n → ℝ) : Py V3 :=
  match pyForall fun i => (torquers i).actuate (I i) with
  | .error e => .error e
  | .ok ms => .ok fun k => ∑ i, ms i k

/-- `MagnetorquerSystem.power`, lines 194-208. -/
noncomputable def sysPower {n : ℕ} (torquers : Fin n → Magnetorquer) (I : Fin n → ℝ) : Py ℝ :=
  match pyForall fun i => (torquers i).power (I i) with
  | .error e => .error e
  | .ok ps => .ok (∑ i, ps i)

/-! ## Reaction wheels -/

/-- `np.outer`. -/
def npOuter (a b : V3) : M3 := Matrix.of fun i j => a i * b j

/-- Attributes of a `Wheel`, lines 227-234. -/
structure Wheel where
  axis : V3
  parScalar : ℝ
  orthScalar : ℝ
  parallelMoment : M3
  orthogonalMoment : M3

/-- `Wheel.__init__`, lines 227-234. -/
def Wheel.init (axis : V3) (par orth : ℝ) : Wheel :=
  let outer := npOuter axis axis
  { axis := axis, parScalar := par, orthScalar := orth, parallelMoment := par • outer,
    orthogonalMoment := orth • (1 - outer) }

/-- `Wheel.acceleration`, lines 237-253. -/
noncomputable def Wheel.acceleration (w : Wheel) (T : ℝ) : Py ℝ := npDiv T w.parScalar

/-- `Wheel.momentum`, lines 255-271. -/
def Wheel.momentum (w : Wheel) (velocity : ℝ) : V3 := fun i => w.axis i * velocity * w.parScalar

/-- `Wheel.torque`, lines 273-289. -/
def Wheel.torque (w : Wheel) (accl : ℝ) : V3 := fun i => w.axis i * accl * w.parScalar

/-- `np.linalg.pinv` of a matrix of full row rank. (For other matrices the formula is not the
pseudo-inverse, but then `inv(parallel_moment)` on line 327 raises: `rwInit_spans`.) -/
noncomputable def npPinv {n : ℕ} (A : Matrix (Fin 3) (Fin n) ℝ) : Matrix (Fin n) (Fin 3) ℝ :=
  Aᵀ * (A * Aᵀ)⁻¹

/-- Attributes of a `ReactionWheelSystem`, lines 311-327. -/
structure RWSystem where
  n : ℕ
  wheels : Fin n → Wheel
  maxT : ℝ
  torqueLimited : Bool
  axes : Matrix (Fin 3) (Fin n) ℝ
  distribution : Matrix (Fin n) (Fin 3) ℝ
  parallelMoment : M3
  orthogonalMoment : M3
  invParMoment : M3

/-- `ReactionWheelSystem.__init__`, lines 311-327. Without wheels the sums are the number `0` and the
constructor raises `LinAlgError`. -/
noncomputable def RWSystem.init {n : ℕ} (wheels : Fin n → Wheel) (maxT : ℝ) (torqueLimited : Bool) :
    Py RWSystem :=
  let axes : Matrix (Fin 3) (Fin n) ℝ := Matrix.of fun i j => (wheels j).axis i
  let par : M3 := ∑ i, (wheels i).parallelMoment
  match npInv par with
  | .error e => .error e
  | .ok inv =>
    .ok { n := n, wheels := wheels, maxT := maxT, torqueLimited := torqueLimited, axes := axes,
          distribution := npPinv axes, parallelMoment := par,
          orthogonalMoment := ∑ i, (wheels i).orthogonalMoment, invParMoment := inv }

/-- `ReactionWheelSystem.accelerations`, lines 331-350, up to line 348: the torque of each wheel. -/
noncomputable def RWSystem.wheelTorques (s : RWSystem) (cmd : V3) : Py (Fin s.n → ℝ) :=
  let T := s.distribution *ᵥ cmd
  if s.torqueLimited then Vec.saturation T s.maxT else .ok T

/-- `ReactionWheelSystem.accelerations`, lines 331-350. -/
noncomputable def RWSystem.accelerations (s : RWSystem) (cmd : V3) : Py (Fin s.n → ℝ) :=
  match s.wheelTorques cmd with
  | .error e => .error e
  | .ok T => pyForall fun i => (s.wheels i).acceleration (T i)

/-- `ReactionWheelSystem.momentum`, lines 352-368. -/
def RWSystem.momentum (s : RWSystem) (velocities : Fin s.n → ℝ) : V3 :=
  ∑ i, (s.wheels i).momentum (velocities i)

/-- `ReactionWheelSystem.torque`, lines 370-391. -/
def RWSystem.torque (s : RWSystem) (accls : Fin s.n → ℝ) : V3 :=
  ∑ i, (s.wheels i).torque (accls i)

/-! ## Walls -/

/-- Attributes of a `Wall`, lines 409-417. -/
structure Wall where
  distance : ℝ
  normal : V3
  length : ℝ
  width : ℝ
  area : ℝ
  centroid : V3
  absorption : ℝ
  reflection : ℝ

/-- `Wall.__init__`, lines 409-417. -/
def Wall.init (distance : ℝ) (normal : V3) (length width absorption : ℝ) : Wall :=
  { distance := distance, normal := normal, length := length, width := width,
    area := length * width, centroid := fun i => normal i * distance, absorption := absorption,
    reflection := 1 - absorption }

/-- `Wall.projected_area`, lines 419-435. -/
noncomputable def Wall.projectedArea (w : Wall) (v : V3) : ℝ :=
  let cBeta := max 0 (npDot w.normal v)
  cBeta * w.area

/-- `Wall.center_of_pressure`, lines 437-453. -/
noncomputable def Wall.centerOfPressure (w : Wall) (v : V3) : ℝ × V3 :=
  let A := w.projectedArea v
  (A, A • w.centroid)

/-- A force and a torque. -/
structure FT where
  F : V3
  T : V3

/-- `Wall.srp_force`, lines 455-475. -/
noncomputable def Wall.srpForce (w : Wall) (SRP : ℝ) (S : V3) : FT :=
  let cBeta := npDot w.normal S
  let (A, cp) := w.centerOfPressure S
  let F : V3 := fun i => - SRP * A * (2 * w.reflection * cBeta * w.normal i + w.absorption * S i)
  { F := F, T := npCross cp F }

/-- `Wall.drag_force`, lines 477-497. -/
noncomputable def Wall.dragForce (w : Wall) (pressure : ℝ) (v : V3) : FT :=
  let (A, cp) := w.centerOfPressure v
  let F : V3 := fun i => pressure * A * v i
  { F := F, T := npCross cp F }

/-! ## Satellite -/

/-- The walls on lines 519-524. -/
noncomputable def boxWalls (length width height absorption : ℝ) : List Wall :=
  [Wall.init (length / 2) ![1, 0, 0] width height absorption,
   Wall.init (length / 2) ![-1, 0, 0] width height absorption,
   Wall.init (width / 2) ![0, 1, 0] length height absorption,
   Wall.init (width / 2) ![0, -1, 0] length height absorption,
   Wall.init (height / 2) ![0, 0, 1] width length absorption,
   Wall.init (height / 2) ![0, 0, -1] width length absorption]

/-- Attributes of a `Satellite`, lines 513-554 (the sensors are modelled with the dynamics). -/
structure Satellite where
  walls : List Wall
  dragCoeff : ℝ
  mass : ℝ
  rw : RWSystem
  nMt : ℕ
  mt : Fin nMt → Magnetorquer
  instruments : List Instrument
  wheelMoment : M3
  reducedMoment : M3
  totalMoment : M3
  invRedMoment : M3
  invTotMoment : M3

/-- Line 544: the matrix built from `product_moments[i + j - 1]` (inner index `i`, outer `j`). The
comprehension indexes a list of at least three entries. -/
def productMatrix (p : V3) : M3 :=
  Matrix.of fun j i => if i = j then 0 else
    match (i : ℕ) + j - 1 with
    | 0 => p 0
    | 1 => p 1
    | _ => p 2

/-- `Satellite.__init__`, lines 513-554. -/
noncomputable def Satellite.init (mass : ℝ) (dims : V3) (absorption dragCoeff : ℝ) (principal products : V3)
    (reduced : Bool) (rw : RWSystem) {nMt : ℕ} (mt : Fin nMt → Magnetorquer)
    (instruments : List Instrument) : Py Satellite :=
  let wheelMoment := rw.parallelMoment
  let red0 : M3 := Matrix.diagonal principal + rw.orthogonalMoment
  let red : M3 := if reduced then red0 + productMatrix products else red0
  let tot : M3 := red + wheelMoment
  match npInv red with
  | .error e => .error e
  | .ok ir =>
    match npInv tot with
    | .error e => .error e
    | .ok it =>
      .ok { walls := boxWalls (dims 0) (dims 1) (dims 2) absorption, dragCoeff := dragCoeff,
            mass := mass, rw := rw, nMt := nMt, mt := mt, instruments := instruments,
            wheelMoment := wheelMoment, reducedMoment := red, totalMoment := tot,
            invRedMoment := ir, invTotMoment := it }

end Adcs.Str
