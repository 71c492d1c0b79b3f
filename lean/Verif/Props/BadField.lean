import Verif.Model.IeeeMag
import Verif.Props.NotANumber

set_option autoImplicit false

/-! # C194: readings that are no measurements, on the way to the magnetorquers -/

namespace Adcs

open Adcs.Ieee Str
open scoped NNReal

/-- A reading of the magnetometer that is no field: all zeros, or a component is nan. -/
def Spec.NoField (B : Fin 3 → F) : Prop := (∀ i, IsZeroFloat (B i)) ∨ ∃ i, B i = .nan

theorem fsub_nan (rnd : ℝ≥0 → ℝ≥0) (x : F) : F.sub rnd x .nan = .nan := by cases x <;> rfl

theorem dot_nan_right (rnd : ℝ≥0 → ℝ≥0) (a b : Fin 3 → F) (i : Fin 3) (h : b i = .nan) : dot rnd a b = .nan := by
  fin_cases i
  · simp [dot, show b 0 = .nan from h, fmul_nan, nan_fadd]
  · simp [dot, show b 1 = .nan from h, fmul_nan, nan_fadd, fadd_nan]
  · simp [dot, show b 2 = .nan from h, fmul_nan, fadd_nan]

/-- A zero times anything is a zero or nan. -/
theorem zero_fmul (rnd : ℝ≥0 → ℝ≥0) (h0 : rnd 0 = 0) {x : F} (hx : IsZeroFloat x) (y : F) :
    IsZeroFloat (F.mul rnd x y) ∨ F.mul rnd x y = .nan := by
  obtain ⟨s, rfl⟩ := hx
  rcases y with _ | t | ⟨t, n⟩
  · exact .inr rfl
  · exact .inr (by simp [F.mul])
  · exact .inl ⟨s ^^ t, by simp [F.mul, h0]⟩

theorem zero_fsub (rnd : ℝ≥0 → ℝ≥0) (h0 : rnd 0 = 0) {x y : F} (hx : IsZeroFloat x ∨ x = .nan)
    (hy : IsZeroFloat y ∨ y = .nan) : IsZeroFloat (F.sub rnd x y) ∨ F.sub rnd x y = .nan := by
  rcases hx with ⟨s, rfl⟩ | rfl
  · rcases hy with ⟨t, rfl⟩ | rfl
    · left
      simp only [F.sub, F.neg, F.add, F.addFin, add_zero, h0]
      split_ifs <;> first | exact ⟨_, rfl⟩ | (rename_i h; exact absurd rfl h)
    · exact .inr (fsub_nan rnd _)
  · exact .inr (nan_fsub rnd _)

/-- Without a field the moment is nan, whatever torque is asked for. -/
theorem moment_noField (rnd : ℝ≥0 → ℝ≥0) (h0 : rnd 0 = 0) (B : Fin 3 → F) (h : Spec.NoField B) (T : Fin 3 → F)
    (i : Fin 3) : moment rnd B T i = .nan := by
  rcases h with h | ⟨k, h⟩
  · have hd : IsZeroFloat (dot rnd B B) := by
      obtain ⟨a, ha⟩ := h 0
      obtain ⟨b, hb⟩ := h 1
      obtain ⟨c, hc⟩ := h 2
      refine ⟨false, ?_⟩
      simp [dot, ha, hb, hc, F.mul, F.add, F.addFin, h0]
    have hc : IsZeroFloat (cross rnd B T i) ∨ cross rnd B T i = .nan := by
      fin_cases i <;> exact zero_fsub rnd h0 (zero_fmul rnd h0 (h _) _) (zero_fmul rnd h0 (h _) _)
    obtain ⟨s, hd⟩ := hd
    rw [moment, hd]
    rcases hc with ⟨t, hc⟩ | hc
    · rw [hc]
      simp [F.div]
    · rw [hc, nan_fdiv]
  · rw [moment, dot_nan_right rnd B B k h, fdiv_nan]

/-- A torque of nan makes the moment nan, whatever the field is. -/
theorem moment_nan (rnd : ℝ≥0 → ℝ≥0) (B T : Fin 3 → F) (h : ∀ i, T i = .nan) (i : Fin 3) : moment rnd B T i = .nan := by
  rw [moment]
  have : cross rnd B T i = .nan := by
    fin_cases i <;> simp [cross, h, fmul_nan, nan_fsub]
  rw [this, nan_fdiv]

theorem detumbleTorque_nan (rnd : ℝ≥0 → ℝ≥0) (J : Fin 3 → Fin 3 → F) (w : Fin 3 → F) (h : Spec.NoRate w) (i : Fin 3) :
    detumbleTorque rnd J w i = .nan := by
  obtain ⟨k, h⟩ := h
  rw [detumbleTorque, dot_nan_right rnd _ _ k h, fmul_nan]

theorem wheelMomentum_nan (rnd : ℝ≥0 → ℝ≥0) {n : ℕ} (axis : Fin n → Fin 3 → F) (inertia v : Fin n → F) (i : Fin n)
    (h : v i = .nan) (k : Fin 3) : wheelMomentum rnd axis inertia v k = .nan := by
  refine foldl_mem_nan rnd _ ?_ _
  rw [List.mem_ofFn]
  exact ⟨i, by simp only [h, fmul_nan, nan_fmul]⟩

theorem desaturateTorque_nan (rnd : ℝ≥0 → ℝ≥0) {n : ℕ} (axis : Fin n → Fin 3 → F) (inertia v ref : Fin n → F)
    (h : ∃ i, v i = .nan) (k : Fin 3) : desaturateTorque rnd axis inertia v ref k = .nan := by
  obtain ⟨i, h⟩ := h
  rw [desaturateTorque, wheelMomentum_nan rnd _ _ _ i h, nan_fsub, fmul_nan]

/-- The readings of a call of `detumble` or `desaturate` and the torque it asks for: no measurement among those
that are used. -/
inductive Spec.BadCall (rnd : ℝ≥0 → ℝ≥0) : (Fin 3 → F) → (Fin 3 → F) → Prop
  | field (B T) : Spec.NoField B → Spec.BadCall rnd B T
  | rate (B J w) : Spec.NoRate w → Spec.BadCall rnd B (detumbleTorque rnd J w)
  | speed (B) {n : ℕ} (axis : Fin n → Fin 3 → F) (inertia v ref : Fin n → F) :
      (∃ i, v i = .nan) → Spec.BadCall rnd B (desaturateTorque rnd axis inertia v ref)

theorem moment_bad (rnd : ℝ≥0 → ℝ≥0) (h0 : rnd 0 = 0) {B T : Fin 3 → F} (h : Spec.BadCall rnd B T) (i : Fin 3) :
    moment rnd B T i = .nan := by
  rcases h with ⟨_, h⟩ | ⟨J, w, h⟩ | ⟨axis, inertia, v, ref, h⟩
  · exact moment_noField rnd h0 _ h _ i
  · exact moment_nan rnd _ _ (detumbleTorque_nan rnd J w h) i
  · exact moment_nan rnd _ _ (desaturateTorque_nan rnd axis inertia v ref h) i

theorem flt_nan (x : F) : F.lt x .nan = false := by cases x <;> rfl

theorem nan_flt (x : F) : F.lt .nan x = false := by cases x <;> rfl

/-- **C194** (the part that holds). A controller that is not bang-bang sends nan to all three torquers when a
reading it uses is no measurement. -/
theorem C194_modulated_partial (rnd : ℝ≥0 → ℝ≥0) (h0 : rnd 0 = 0) (T : Fin 3 → Magnetorquer)
    (hT : ∀ i, KnownTorquer (T i)) (B torque : Fin 3 → F) (h : Spec.BadCall rnd B torque) :
    actuatorCommands rnd T B torque = .ok fun _ => .nan := by
  have hm : (fun i => F.div rnd (cross rnd B torque i) (dot rnd B B)) = fun _ => .nan :=
    funext fun i => moment_bad rnd h0 h i
  rw [actuatorCommands, hm, Ieee.distribute]
  refine ieee_pyForall_ok _ _ fun i => ?_
  have hs : scale rnd T (fun _ => F.nan) i = .nan := by
    rw [scale]
    split_ifs
    · exact nan_fmul rnd _
    · rfl
  rw [hs, getCurrent_nan rnd _ (hT i)]

/-- What `detumble` and `desaturate` send is what `actuator_commands` makes of the torques above. -/
theorem C194_calls_partial (rnd : ℝ≥0 → ℝ≥0) (T : Fin 3 → Magnetorquer) (B : Fin 3 → F) :
    (∀ J w, detumble rnd T J B w = actuatorCommands rnd T B (detumbleTorque rnd J w)) ∧
      ∀ {n : ℕ} (axis : Fin n → Fin 3 → F) (inertia v ref : Fin n → F),
        desaturate rnd T B (wheelMomentum rnd axis inertia v) (wheelMomentum rnd axis inertia ref) =
          actuatorCommands rnd T B (desaturateTorque rnd axis inertia v ref) :=
  ⟨fun _ _ => rfl, fun _ _ _ _ => rfl⟩

/-- **C194** (what happens instead). A bang-bang controller goes on with the greatest moments in the directions
it remembers, and remembers the same directions afterwards. -/
theorem C194_bang_bang_partial (rnd : ℝ≥0 → ℝ≥0) (h0 : rnd 0 = 0) (T : Fin 3 → Magnetorquer)
    (triggers : Fin 3 → TriggerF) (B torque : Fin 3 → F) (h : Spec.BadCall rnd B torque) :
    bangBangCommands rnd T triggers B torque =
      (distribute rnd T fun i => F.mul rnd (triggers i).memory (F.ofReal rnd (T 2).maxM), triggers) := by
  have hs : ∀ t : TriggerF, t.step rnd .nan = t := by
    intro t
    have : F.le (F.mul rnd .nan t.memory) t.halfWidth.neg = false := by
      rw [nan_fmul, F.le, nan_flt]
      cases t.halfWidth.neg <;> rfl
    rw [TriggerF.step, this]
    rfl
  simp only [bangBangCommands, moment_bad rnd h0 h, TriggerF.sign, hs]

/-- **C194** (what happens instead). A moment whose first component is nan is not scaled: the other torquers get
the currents of their components, however far these are beyond the greatest moments. -/
theorem C194_no_limit_partial (rnd : ℝ≥0 → ℝ≥0) (T : Fin 3 → Magnetorquer) (m : Fin 3 → F) (h : m 0 = .nan) :
    distribute rnd T m = pyForall fun i => getCurrent rnd (T i) (m i) := by
  have hf : factor rnd T m = .nan := by
    simp [factor, h, fdiv_nan, pyMin, flt_nan]
  have hs : scale rnd T m = m := by
    rw [scale, hf, nan_flt]
    rfl
  rw [Ieee.distribute, hs]

/-- Bang-bang calls one after the other: the triggers after `n` of them. -/
noncomputable def Spec.bangs (rnd : ℝ≥0 → ℝ≥0) (T : Fin 3 → Magnetorquer) (triggers : Fin 3 → TriggerF)
    (B torque : ℕ → Fin 3 → F) : ℕ → Fin 3 → TriggerF
  | 0 => triggers
  | n + 1 => (bangBangCommands rnd T (Spec.bangs rnd T triggers B torque n) (B n) (torque n)).2

/-- **C194** (what happens instead). For as long as the readings are no measurements, a bang-bang controller
repeats one command. -/
theorem C194_stuck_partial (rnd : ℝ≥0 → ℝ≥0) (h0 : rnd 0 = 0) (T : Fin 3 → Magnetorquer) (triggers : Fin 3 → TriggerF)
    (B torque : ℕ → Fin 3 → F) (h : ∀ n, Spec.BadCall rnd (B n) (torque n)) (n : ℕ) :
    (bangBangCommands rnd T (Spec.bangs rnd T triggers B torque n) (B n) (torque n)).1 =
      distribute rnd T fun i => F.mul rnd (triggers i).memory (F.ofReal rnd (T 2).maxM) := by
  have ht : Spec.bangs rnd T triggers B torque n = triggers := by
    induction n with
    | zero => rfl
    | succ n ih => rw [Spec.bangs, C194_bang_bang_partial rnd h0 _ _ _ _ (h n), ih]
  rw [C194_bang_bang_partial rnd h0 _ _ _ _ (h n), ht]

/-- **C194** in full: without a measurement no torquer gets a current, whether the controller is bang-bang or
not. -/
def C194_claim : Prop :=
  ∀ (rnd : ℝ≥0 → ℝ≥0), rnd 0 = 0 → ∀ (T : Fin 3 → Magnetorquer), (∀ i, KnownTorquer (T i)) →
    ∀ (triggers : Fin 3 → TriggerF) (B torque : Fin 3 → F), Spec.BadCall rnd B torque →
      ∀ c, (actuatorCommands rnd T B torque = .ok c ∨ (bangBangCommands rnd T triggers B torque).1 = .ok c) →
        ∀ i r, IsReal (c i) r → r = 0

/-- **C194** does not hold: three coils, triggers as they are made (memory 1, half-width 0.3), and a magnetometer
that reports zeros. -/
theorem C194_fails : ¬ C194_claim := by
  intro h
  let T : Fin 3 → Magnetorquer := fun _ => signedTorquer "Square"
  have hb : Spec.BadCall (fun x => x) (fun _ => .fin false 0) (fun _ => .fin false 0) :=
    .field _ _ (.inl fun _ => ⟨false, rfl⟩)
  have hK : ∀ i, KnownTorquer (T i) := fun _ => .inl rfl
  have hc : (bangBangCommands (fun x => x) T (fun _ => ⟨.fin false 1, .fin false 0.3⟩) (fun _ => .fin false 0)
      (fun _ => .fin false 0)).1 = .ok fun _ => F.mul (fun x => x) (F.mul (fun x => x) (.fin false 1)
        (F.ofReal (fun x => x) (T 2).maxM)) (F.ofReal (fun x => x) 0.631313) := by
    rw [C194_bang_bang_partial (fun x => x) rfl T _ _ _ hb, Ieee.distribute]
    dsimp only
    refine ieee_pyForall_ok _ _ fun i => ?_
    have h10 : ¬ (1 : ℝ) < 0 := by norm_num
    have hs : ∀ m : Fin 3 → F, (∀ k, m k = .fin false 1) → scale (fun x => x) T m = m := by
      intro m hm
      simp [scale, factor, hm, T, signedTorquer, F.ofReal, F.div, pyMin, F.lt, h10]
    have h1 : F.mul (fun x => x) (.fin false 1) (F.ofReal (fun x => x) (T 2).maxM) = .fin false 1 := by
      simp [T, signedTorquer, F.ofReal, F.mul, h10]
    simp only [h1]
    rw [hs _ fun _ => rfl, getCurrent_square _ _ rfl]
  have := h (fun x => x) rfl T hK _ _ _ hb _ (.inr hc) 0 ((1 : ℝ) * (T 2).maxM * 0.631313)
    (((IsReal.mul (by simp [isReal_fin]) (isReal_ofReal _))).mul (isReal_ofReal _))
  norm_num [T, signedTorquer] at this

/-- The hypotheses of the theorems above are met. -/
example : Spec.BadCall (fun x => x) ![.fin false 1, .fin true 0, .fin false 2]
    (detumbleTorque (fun x => x) (fun _ _ => .fin false 1) ![.fin false 0, .fin false 0, .nan]) :=
  .rate _ _ _ ⟨2, rfl⟩

end Adcs
