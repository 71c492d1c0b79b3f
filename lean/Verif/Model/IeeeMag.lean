import Verif.Model.IeeeFsw

set_option autoImplicit false

/-! # The magnetorquer controller on the values of floats, bang-bang mode and wheel momenta included

Completes `Model/Ieee.lean`: what `MagnetorquerController` (controller.py lines 58-152) does with readings that
are nan. -/

namespace Adcs.Ieee

open Adcs Str
open scoped NNReal

/-- `<=`. -/
noncomputable def F.le (a b : F) : Bool := F.lt a b || F.eq a b

/-- `MayhewTrigger`, controller.py lines 5-23. -/
structure TriggerF where
  memory : F
  halfWidth : F

/-- `MayhewTrigger.step`, controller.py lines 25-38. -/
noncomputable def TriggerF.step (rnd : ℝ≥0 → ℝ≥0) (t : TriggerF) (x : F) : TriggerF :=
  if F.le (F.mul rnd x t.memory) t.halfWidth.neg then
    { t with memory := if F.eq x.sign (.fin false 0) then t.memory else x.sign }
  else t

/-- `MayhewTrigger.sign`, controller.py lines 40-55: the answer and the object afterwards. -/
noncomputable def TriggerF.sign (rnd : ℝ≥0 → ℝ≥0) (t : TriggerF) (x : F) : F × TriggerF :=
  ((t.step rnd x).memory, t.step rnd x)

/-- The magnetic moment of `MagnetorquerController.actuator_commands`, controller.py line 109. -/
noncomputable def moment (rnd : ℝ≥0 → ℝ≥0) (B torque : Fin 3 → F) : Fin 3 → F := fun i =>
  F.div rnd (cross rnd B torque i) (dot rnd B B)

/-- `MagnetorquerController.actuator_commands`, controller.py lines 93-117, of a bang-bang controller: the
currents and the triggers afterwards. -/
noncomputable def bangBangCommands (rnd : ℝ≥0 → ℝ≥0) (torquers : Fin 3 → Magnetorquer) (triggers : Fin 3 → TriggerF)
    (B torque : Fin 3 → F) : Py (Fin 3 → F) × (Fin 3 → TriggerF) :=
  let m := moment rnd B torque
  (distribute rnd torquers fun i => F.mul rnd ((triggers i).sign rnd (m i)).1 (F.ofReal rnd (torquers 2).maxM),
    fun i => ((triggers i).sign rnd (m i)).2)

/-- `ReactionWheelSystem.momentum`, structure.py lines 352-368, with `Wheel.momentum` of lines 255-271; `sum` starts
at zero. -/
noncomputable def wheelMomentum (rnd : ℝ≥0 → ℝ≥0) {n : ℕ} (axis : Fin n → Fin 3 → F) (inertia : Fin n → F)
    (velocities : Fin n → F) : Fin 3 → F := fun k =>
  (List.ofFn fun i => F.mul rnd (F.mul rnd (axis i k) (velocities i)) (inertia i)).foldl (F.add rnd) (.fin false 0)

/-- The torque that `MagnetorquerController.detumble` asks for, controller.py line 149. -/
noncomputable def detumbleTorque (rnd : ℝ≥0 → ℝ≥0) (J : Fin 3 → Fin 3 → F) (gyro : Fin 3 → F) : Fin 3 → F := fun i =>
  F.mul rnd (F.ofReal rnd Ctl.kBbq).neg (dot rnd (J i) gyro)

/-- The torque that `MagnetorquerController.desaturate` asks for, controller.py lines 120-122. -/
noncomputable def desaturateTorque (rnd : ℝ≥0 → ℝ≥0) {n : ℕ} (axis : Fin n → Fin 3 → F) (inertia : Fin n → F)
    (velocities ref : Fin n → F) : Fin 3 → F := fun i =>
  F.mul rnd (F.ofReal rnd Ctl.kBbq).neg
    (F.sub rnd (wheelMomentum rnd axis inertia velocities i) (wheelMomentum rnd axis inertia ref i))

end Adcs.Ieee
