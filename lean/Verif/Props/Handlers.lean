import Verif.Props.Reach

set_option autoImplicit false

/-! # C152: the transition methods called on a member of `State` -/

namespace Adcs

open SM

namespace Spec

/-- What the documentation of the states asks for, given whether the mission has started and is over and whether
the satellite is aligned, its torquers idle and its wheels slow. -/
def Wanted (env : Env) (started over : Bool) (c : ℝ) : State → State → Prop
  | .SAFE, n => n = if started then .POINT else .SAFE
  | .POINT, n => n = if over then .UNSAFE else .POINT
  | .DETUMBLE, n => (n = .POINT ↔ started = true) ∧
      (n = .DETUMBLE ↔ started = false ∧ 0.05 ≤ npNorm env.bodyAngVel) ∧
      (n = .BBQ ↔ started = false ∧ npNorm env.bodyAngVel < 0.05)
  | .BBQ, n => (n = .POINT ↔ started = true) ∧
      (n = .SAFE ↔ started = false ∧ c < 1e-4 ∧ npNorm env.curCmd < 1e-4 ∧ npNorm env.wheelMomentum < 30) ∧
      (n = .BBQ ↔ started = false ∧ ¬ (c < 1e-4 ∧ npNorm env.curCmd < 1e-4 ∧ npNorm env.wheelMomentum < 30))
  | .SPINDOWN, n => (n = .SLEEP ↔ npNorm env.whlAccl < 0.00001 ∧ npNorm env.wheelVel < 0.01) ∧
      (n = .SPINDOWN ↔ ¬ (npNorm env.whlAccl < 0.00001 ∧ npNorm env.wheelVel < 0.01))
  | s, n => n = s

end Spec

open Spec

/-- The full claim: called on a member of `State`, its method returns, what it returns is what is wanted, and
`change_state` accepts it. -/
def C152_claim : Prop :=
  ∀ (m : Machine) (s : State) (env : Env) (mis : Mission) (started over : Bool) (c : ℝ), m.current = .st s →
    m.locked = false → env.isAfter mis.start = .ok started → env.isAfter mis.stop = .ok over → env.check = .ok c →
    ∃ n, dispatch false s env (some mis) = .ok n ∧ (s ≠ .UNSAFE → Wanted env started over c s n) ∧
      (changeState m (.st n)).1 = .ret true

/-- For every state but UNSAFE the method called on a member decides as wanted, and `change_state` accepts the
answer, except that of BBQ when the mission has started. In UNSAFE the method answers POINT when the mission has
started. Missing: UNSAFE otherwise (`C152_unsafe`), and the acceptance of POINT in BBQ (`C152_bbq`). -/
theorem C152_handlers_partial (m : Machine) (s : State) (env : Env) (mis : Mission) (started over : Bool) (c : ℝ)
    (hs : m.current = .st s) (hl : m.locked = false) (h1 : env.isAfter mis.start = .ok started)
    (h2 : env.isAfter mis.stop = .ok over) (h3 : env.check = .ok c) (hU : s = .UNSAFE → started = true) :
    ∃ n, dispatch false s env (some mis) = .ok n ∧ (s ≠ .UNSAFE → Wanted env started over c s n) ∧
      (s = .UNSAFE → n = .POINT) ∧
      ((changeState m (.st n)).1 = .ret true ↔ ¬ (s = .BBQ ∧ started = true)) := by
  simp only [changeState_sound hs hl]
  cases s with
  | FAILED => exact ⟨.FAILED, rfl, fun _ => rfl, by simp, by simp [documented]⟩
  | SLEEP => exact ⟨.SLEEP, rfl, fun _ => rfl, by simp, by simp [documented]⟩
  | MANUAL => exact ⟨.MANUAL, rfl, fun _ => rfl, by simp, by simp [documented]⟩
  | UNSAFE =>
    obtain rfl := hU rfl
    exact ⟨.POINT, by simp [dispatch, unsafeTransition, pyCall, boundArgs, safeTransition, h1], by simp, by simp,
      by simp [documented]⟩
  | SAFE =>
    cases started
    · exact ⟨.SAFE, by simp [dispatch, safeTransition, h1], by simp [Wanted], by simp, by simp [documented]⟩
    · exact ⟨.POINT, by simp [dispatch, safeTransition, h1], by simp [Wanted], by simp, by simp [documented]⟩
  | POINT =>
    cases over
    · exact ⟨.POINT, by simp [dispatch, pointTransition, h2], by simp [Wanted], by simp, by simp [documented]⟩
    · exact ⟨.UNSAFE, by simp [dispatch, pointTransition, h2], by simp [Wanted], by simp, by simp [documented]⟩
  | SPINDOWN =>
    by_cases h : npNorm env.whlAccl < 0.00001 ∧ npNorm env.wheelVel < 0.01
    · exact ⟨.SLEEP, by simp only [dispatch, spindownTransition, if_pos h], by simp [Wanted, h.1, h.2], by simp,
        by simp [documented]⟩
    · exact ⟨.SPINDOWN, by simp only [dispatch, spindownTransition, if_neg h],
        fun _ => by simp only [Wanted]; tauto, by simp, by simp [documented]⟩
  | DETUMBLE =>
    cases started
    · by_cases h : npNorm env.bodyAngVel ≥ 0.05
      · refine ⟨.DETUMBLE, ?_, fun _ => ?_, by simp, by simp [documented]⟩
        · simp [dispatch, detumbleTransition, pyCall, boundArgs, safeTransition, h1, h]
        · simp only [Wanted]
          exact ⟨by simp, by simpa using h, by simpa using h⟩
      · refine ⟨.BBQ, ?_, fun _ => ?_, by simp, by simp [documented]⟩
        · simp [dispatch, detumbleTransition, pyCall, boundArgs, safeTransition, h1, h]
        · rw [ge_iff_le, not_le] at h
          simp only [Wanted]
          exact ⟨by simp, by simpa using h, by simpa using h⟩
    · exact ⟨.POINT, by simp [dispatch, detumbleTransition, pyCall, boundArgs, safeTransition, h1],
        by simp [Wanted], by simp, by simp [documented]⟩
  | BBQ =>
    cases started
    · by_cases h : c < 1e-4 ∧ npNorm env.curCmd < 1e-4 ∧ npNorm env.wheelMomentum < 30
      · refine ⟨.SAFE, ?_, fun _ => ?_, by simp, by simp [documented]⟩
        · simp only [dispatch, bbqTransition, pyCall, boundArgs, safeTransition, h1, h3, if_pos h]; rfl
        · simp only [Wanted]; tauto
      · refine ⟨.BBQ, ?_, fun _ => ?_, by simp, by simp [documented]⟩
        · simp only [dispatch, bbqTransition, pyCall, boundArgs, safeTransition, h1, h3, if_neg h]; rfl
        · simp only [Wanted]; tauto
    · exact ⟨.POINT, by simp [dispatch, bbqTransition, pyCall, boundArgs, safeTransition, h1],
        by simp [Wanted], by simp, by simp [documented]⟩

/-- In UNSAFE, before the mission has started, the method always raises `TypeError`: it passes one argument too few
to the methods of DETUMBLE and BBQ. -/
theorem C152_unsafe (env : Env) (mis : Mission) (h : env.isAfter mis.start = .ok false) :
    dispatch false .UNSAFE env (some mis) = .error .typeError := by
  simp [dispatch, unsafeTransition, pyCall, boundArgs, safeTransition, h]

/-- In BBQ, when the mission has started, the method answers POINT, and a request for it sends the machine to
FAILED. -/
theorem C152_bbq (m : Machine) (hs : m.current = .st .BBQ) (hl : m.locked = false) (env : Env) (mis : Mission)
    (h : env.isAfter mis.start = .ok true) :
    dispatch false .BBQ env (some mis) = .ok .POINT ∧
      changeState m (.st .POINT) = (.ret false, { m with current := .st .FAILED }) := by
  constructor
  · simp [dispatch, bbqTransition, pyCall, boundArgs, safeTransition, h]
  · rw [changeState_sound hs hl]; simp [documented]

/-- The claim is false. -/
theorem C152_handlers_fails : ¬ C152_claim := by
  intro H
  obtain ⟨n, h1, -, h2⟩ := H ⟨.st .BBQ, some reachMission, false⟩ .BBQ ⟨fun _ => .ok true, .ok 0, 0, 0, 0, 0, 0, 0⟩
    reachMission true true 0 rfl rfl rfl rfl rfl
  obtain ⟨h3, h4⟩ := C152_bbq ⟨.st .BBQ, some reachMission, false⟩ rfl rfl
    ⟨fun _ => .ok true, .ok 0, 0, 0, 0, 0, 0, 0⟩ reachMission rfl
  rw [h3] at h1
  obtain rfl := Except.ok.inj h1
  rw [h4] at h2
  simp at h2

/-- A satellite that turns at 0.1 rad/s before its mission stays in DETUMBLE; slower, it goes on to BBQ. -/
example : ∃ e1 e2 : Env, npNorm e1.bodyAngVel = 0.1 ∧ dispatch false .DETUMBLE e1 (some reachMission) = .ok .DETUMBLE ∧
    npNorm e2.bodyAngVel = 0 ∧ dispatch false .DETUMBLE e2 (some reachMission) = .ok .BBQ := by
  have h1 : npNorm (![0.1, 0, 0] : V3) = 0.1 := by
    rw [npNorm]; simp [Fin.sum_univ_three]; exact Real.sqrt_sq (by norm_num)
  have h2 : npNorm (0 : V3) = 0 := by simp [npNorm]
  refine ⟨⟨fun _ => .ok false, .ok 0, ![0.1, 0, 0], 0, 0, 0, 0, 0⟩, ⟨fun _ => .ok false, .ok 0, 0, 0, 0, 0, 0, 0⟩, h1,
    ?_, h2, ?_⟩
  · simp [dispatch, detumbleTransition, pyCall, boundArgs, safeTransition, h1]; norm_num
  · simp [dispatch, detumbleTransition, pyCall, boundArgs, safeTransition, h2]; norm_num

end Adcs
