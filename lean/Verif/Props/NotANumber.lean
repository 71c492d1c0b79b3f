import Verif.Model.IeeeFsw
import Verif.Props.Signed
import Verif.Props.Torquers
import Verif.Props.FlightSoftware
import Mathlib.Algebra.BigOperators.Fin
import Mathlib.Algebra.Order.Archimedean.Basic
import Mathlib.Tactic.FieldSimp
import Mathlib.Tactic.Linarith

set_option autoImplicit false

/-! # C193: readings that are no measurements, on the way to the wheels -/

namespace Adcs

open Adcs.Ieee Obs
open scoped NNReal

/-- A reading of the star tracker that is no attitude: all zeros, or a component is nan or an infinity. -/
def Spec.NoAttitude (q : Fin 4 → F) : Prop := (∀ i, IsZeroFloat (q i)) ∨ ∃ i, ¬ IsNumberFloat (q i)

/-- A reading of the gyro that is no rate: a component is nan. -/
def Spec.NoRate (w : Fin 3 → F) : Prop := ∃ i, w i = .nan

theorem fadd_nan (rnd : ℝ≥0 → ℝ≥0) (x : F) : F.add rnd x .nan = .nan := by cases x <;> rfl
theorem nan_fadd (rnd : ℝ≥0 → ℝ≥0) (x : F) : F.add rnd .nan x = .nan := by cases x <;> rfl
theorem fmul_nan (rnd : ℝ≥0 → ℝ≥0) (x : F) : F.mul rnd x .nan = .nan := by cases x <;> rfl
theorem nan_fmul (rnd : ℝ≥0 → ℝ≥0) (x : F) : F.mul rnd .nan x = .nan := by cases x <;> rfl
theorem fdiv_nan (rnd : ℝ≥0 → ℝ≥0) (x : F) : F.div rnd x .nan = .nan := by cases x <;> rfl
theorem nan_fdiv (rnd : ℝ≥0 → ℝ≥0) (x : F) : F.div rnd .nan x = .nan := by cases x <;> rfl
theorem nan_fsub (rnd : ℝ≥0 → ℝ≥0) (x : F) : F.sub rnd .nan x = .nan := nan_fadd rnd _

theorem foldl_nan (rnd : ℝ≥0 → ℝ≥0) (l : List F) : l.foldl (F.add rnd) .nan = .nan := by
  induction l with
  | nil => rfl
  | cons a l ih => rw [List.foldl_cons, nan_fadd, ih]

theorem foldl_mem_nan (rnd : ℝ≥0 → ℝ≥0) (l : List F) (h : F.nan ∈ l) (a : F) : l.foldl (F.add rnd) a = .nan := by
  induction l generalizing a with
  | nil => simp at h
  | cons b l ih =>
    rw [List.foldl_cons]
    rcases List.mem_cons.mp h with h | h
    · rw [← h, fadd_nan, foldl_nan]
    · exact ih h _

theorem dotN_nan {n : ℕ} (rnd : ℝ≥0 → ℝ≥0) (a b : Fin n → F) (i : Fin n) (h : b i = .nan) : dotN rnd a b = .nan := by
  refine foldl_mem_nan rnd _ ?_ _
  rw [List.mem_ofFn]
  exact ⟨i, by rw [h, fmul_nan]⟩

theorem normalize_nan (rnd : ℝ≥0 → ℝ≥0) (q : Fin 4 → F) (i : Fin 4) (h : q i = .nan) (k : Fin 4) :
    Ieee.normalize rnd q k = .nan := by
  rw [Ieee.normalize, dotN_nan rnd q q i h, F.sqrt, fdiv_nan]

/-- The sum of squares of zeros. -/
theorem dotN_zero {n : ℕ} (rnd : ℝ≥0 → ℝ≥0) (h0 : rnd 0 = 0) (q : Fin n → F) (h : ∀ i, IsZeroFloat (q i)) :
    dotN rnd q q = .fin false 0 := by
  have : ∀ l : List F, (∀ x ∈ l, x = .fin false 0) → l.foldl (F.add rnd) (.fin false 0) = .fin false 0 := by
    intro l hl
    induction l with
    | nil => rfl
    | cons a l ih =>
      rw [List.foldl_cons, hl a (by simp)]
      have : F.add rnd (.fin false 0) (.fin false 0) = .fin false 0 := by simp [F.add, F.addFin, h0]
      rw [this]
      exact ih fun x hx => hl x (by simp [hx])
  refine this _ fun x hx => ?_
  obtain ⟨i, rfl⟩ := (List.mem_ofFn' _ _).mp hx
  obtain ⟨s, hs⟩ := h i
  simp [hs, F.mul, h0]

/-- A float that is nan, the positive infinity or a number with positive sign bit. -/
def PosFloat (x : F) : Prop := x = .nan ∨ x = .inf false ∨ ∃ m, x = .fin false m

theorem posFloat_square (rnd : ℝ≥0 → ℝ≥0) (x : F) : PosFloat (F.mul rnd x x) := by
  rcases x with _ | s | ⟨s, m⟩
  · exact .inl rfl
  · exact .inr (.inl (by simp [F.mul]))
  · exact .inr (.inr ⟨_, by simp [F.mul]; rfl⟩)

theorem posFloat_add (rnd : ℝ≥0 → ℝ≥0) {x y : F} (hx : PosFloat x) (hy : PosFloat y) :
    PosFloat (F.add rnd x y) ∧ ((¬ IsNumberFloat x ∨ ¬ IsNumberFloat y) → ¬ IsNumberFloat (F.add rnd x y)) := by
  rcases hx with rfl | rfl | ⟨m, rfl⟩ <;> rcases hy with rfl | rfl | ⟨n, rfl⟩ <;>
    simp [F.add, F.addFin, PosFloat, IsNumberFloat]

/-- A sum of squares with one that is no number is no number. -/
theorem foldl_notNumber (rnd : ℝ≥0 → ℝ≥0) (l : List F) (hl : ∀ x ∈ l, PosFloat x) (a : F) (ha : PosFloat a)
    (h : ¬ IsNumberFloat a ∨ ∃ x ∈ l, ¬ IsNumberFloat x) :
    PosFloat (l.foldl (F.add rnd) a) ∧ ¬ IsNumberFloat (l.foldl (F.add rnd) a) := by
  induction l generalizing a with
  | nil =>
    rcases h with h | ⟨x, hx, _⟩
    · exact ⟨ha, h⟩
    · simp at hx
  | cons b l ih =>
    obtain ⟨h1, h2⟩ := posFloat_add rnd ha (hl b (by simp))
    refine ih (fun x hx => hl x (by simp [hx])) _ h1 ?_
    rcases h with h | ⟨x, hx, hn⟩
    · exact .inl (h2 (.inl h))
    · rcases List.mem_cons.mp hx with rfl | hx
      · exact .inl (h2 (.inr hn))
      · exact .inr ⟨x, hx, hn⟩

/-- What is no attitude has nan in the normalised quaternion. -/
theorem normalize_noAttitude (rnd : ℝ≥0 → ℝ≥0) (h0 : rnd 0 = 0) (q : Fin 4 → F) (h : Spec.NoAttitude q) :
    ∃ i, Ieee.normalize rnd q i = .nan := by
  rcases h with h | ⟨i, hi⟩
  · refine ⟨0, ?_⟩
    obtain ⟨s, hs⟩ := h 0
    rw [Ieee.normalize, dotN_zero rnd h0 q h, hs]
    simp [F.sqrt, F.div, h0]
  · by_cases hn : q i = .nan
    · exact ⟨i, normalize_nan rnd q i hn i⟩
    · refine ⟨i, ?_⟩
      obtain ⟨s, hs⟩ : ∃ s, q i = .inf s := by
        rcases hq : q i with _ | s | ⟨s, m⟩
        · exact absurd hq hn
        · exact ⟨s, rfl⟩
        · exact absurd ⟨s, m, hq⟩ hi
      obtain ⟨h1, h2⟩ : PosFloat (dotN rnd q q) ∧ ¬ IsNumberFloat (dotN rnd q q) := by
        refine foldl_notNumber rnd _ (fun x hx => ?_) _ (.inr (.inr ⟨0, rfl⟩)) (.inr ⟨F.mul rnd (q i) (q i), ?_, ?_⟩)
        · obtain ⟨k, rfl⟩ := (List.mem_ofFn' _ _).mp hx
          exact posFloat_square rnd _
        · exact (List.mem_ofFn' _ _).mpr ⟨i, rfl⟩
        · rw [hs]
          simp [F.mul, IsNumberFloat]
      rw [Ieee.normalize]
      rcases h1 with h1 | h1 | ⟨m, h1⟩
      · rw [h1, F.sqrt, fdiv_nan]
      · rw [h1, hs]
        simp [F.sqrt, F.div]
      · exact absurd ⟨_, _, h1⟩ h2

theorem quatError_nan (rnd : ℝ≥0 → ℝ≥0) (t q : Fin 4 → F) (i : Fin 4) (h : q i = .nan) (k : Fin 4) :
    Ieee.quatError rnd t q k = .nan := by
  have hc : ∃ j, (![(q 0).neg, (q 1).neg, (q 2).neg, q 3] : Fin 4 → F) j = .nan := by
    refine ⟨i, ?_⟩
    fin_cases i <;> simp at h ⊢ <;> rw [h] <;> rfl
  obtain ⟨j, hj⟩ := hc
  have hn := normalize_nan rnd _ j hj
  rw [Ieee.quatError, Ieee.quatMult]
  refine normalize_nan rnd _ 0 ?_ k
  simp only [hn, Matrix.cons_val_zero, fmul_nan, nan_fadd, nan_fsub]

theorem controller_nan (rnd : ℝ≥0 → ℝ≥0) (f : FlightF) (e : Fin 4 → F) (w : Fin 3 → F)
    (h : e 0 = .nan ∨ Spec.NoRate w) (k : Fin 3) : f.quaternionController rnd e w k = .nan := by
  rcases h with h | ⟨i, h⟩
  · refine dotN_nan rnd _ _ 0 ?_
    simp [h, nan_fmul]
  · fin_cases i
    · refine dotN_nan rnd _ _ 3 ?_
      simpa [Matrix.cons_val_succ] using by rw [show w 0 = .nan from h, nan_fsub]
    · refine dotN_nan rnd _ _ 4 ?_
      simpa using by rw [show w 1 = .nan from h, nan_fsub]
    · refine dotN_nan rnd _ _ 5 ?_
      simpa using by rw [show w 2 = .nan from h, nan_fsub]

/-- The limit of the torque turns nan into the greatest torque in the negative direction. -/
theorem clamp_nan (f : FlightF) : f.clamp .nan = f.maxTorque.neg := by
  have h1 : ∀ x, F.lt x .nan = false := by intro x; cases x <;> rfl
  simp [FlightF.clamp, pyMin, pyMax, h1]

theorem checkTorque_nan (rnd : ℝ≥0 → ℝ≥0) (f : FlightF) (speed : F) :
    f.checkTorque rnd .nan speed = f.maxTorque.neg := by
  have h1 : ∀ x, F.lt x .nan = false := by intro x; cases x <;> rfl
  simp [FlightF.checkTorque, nan_fdiv, nan_fmul, fadd_nan, F.abs, h1, clamp_nan]

/-- The limits are attributes that `UpdateState` does not change. -/
theorem updateState_limits (rnd : ℝ≥0 → ℝ≥0) (f : FlightF) (q : Fin 4 → F) (w : Fin 3 → F) (v : Fin 4 → F) :
    (f.updateState rnd q w v).maxTorque = f.maxTorque ∧ (f.updateState rnd q w v).maxSpeed = f.maxSpeed := by
  simp only [FlightF.updateState, FlightF.checkHemi]
  split_ifs <;> exact ⟨rfl, rfl⟩

/-- **C193** (what happens instead). A reading that is no attitude, or a gyro reading with nan, makes every
wheel get the greatest torque in its negative direction, whatever the attitude, the rate and the speeds of the
wheels are. -/
theorem C193_full_torque_partial (rnd : ℝ≥0 → ℝ≥0) (h0 : rnd 0 = 0) (f : FlightF) (q : Fin 4 → F) (w : Fin 3 → F)
    (v : Fin 4 → F) (h : Spec.NoAttitude q ∨ Spec.NoRate w) (i : Fin 4) :
    (f.updateState rnd q w v).torqueVals i = f.maxTorque.neg := by
  have hswap : Spec.NoAttitude q → Spec.NoAttitude ![q 1, q 2, q 3, q 0] := by
    rintro (h | ⟨j, h⟩)
    · refine .inl fun j => ?_
      fin_cases j <;> exact h _
    · refine .inr ?_
      fin_cases j
      · exact ⟨3, h⟩
      · exact ⟨0, h⟩
      · exact ⟨1, h⟩
      · exact ⟨2, h⟩
  have key : ∀ (g : FlightF) (e : Fin 4 → F), g.maxTorque = f.maxTorque → (e 0 = .nan ∨ Spec.NoRate w) →
      g.checkTorque rnd (g.convertTorque rnd (g.quaternionController rnd e w) i) (v i) = f.maxTorque.neg := by
    intro g e hg he
    rw [FlightF.convertTorque, dotN_nan rnd _ _ 0 (controller_nan rnd g e w he 0), checkTorque_nan, hg]
  have herr : (f.checkHemi (Ieee.quatError rnd f.qTarget (Ieee.normalize rnd ![q 1, q 2, q 3, q 0]))).1 0 = .nan ∨
      Spec.NoRate w := by
    rcases h with h | h
    · left
      obtain ⟨j, hj⟩ := normalize_noAttitude rnd h0 _ (hswap h)
      have hq := quatError_nan rnd f.qTarget _ j hj
      rw [FlightF.checkHemi]
      split_ifs
      · exact hq 0
      · simp only [hq 0, F.neg]
    · exact .inr h
  have hmax : (f.checkHemi (Ieee.quatError rnd f.qTarget (Ieee.normalize rnd ![q 1, q 2, q 3, q 0]))).2.maxTorque =
      f.maxTorque := by
    rw [FlightF.checkHemi]
    split_ifs <;> rfl
  simp only [FlightF.updateState]
  split_ifs
  · exact key _ _ hmax herr
  · exact key _ _ hmax herr

theorem clamp_bound (f : FlightF) (M : ℝ≥0) (hM : f.maxTorque = .fin false M) (x : F) :
    ∃ r, IsReal (f.clamp x) r ∧ |r| ≤ M := by
  have hM0 : (0 : ℝ) ≤ M := M.coe_nonneg
  have hmin : pyMin x [f.maxTorque] = .nan ∨ pyMin x [f.maxTorque] = .inf true ∨
      ∃ r : ℝ, IsReal (pyMin x [f.maxTorque]) r ∧ r ≤ M := by
    rw [hM]
    rcases x with _ | s | ⟨s, m⟩
    · simp [pyMin, F.lt]
    · cases s
      · right; right
        exact ⟨M, by simp [pyMin, F.lt, isReal_fin], le_refl _⟩
      · simp [pyMin, F.lt]
    · right; right
      have hx : IsReal (.fin s m) (if s then -(m : ℝ) else m) := isReal_fin.mpr rfl
      have hm : IsReal (.fin false M) (M : ℝ) := by simp [isReal_fin]
      simp only [pyMin, List.foldl]
      by_cases hl : (M : ℝ) < if s then -(m : ℝ) else m
      · rw [if_pos ((hm.lt hx).mpr hl)]
        exact ⟨M, hm, le_refl _⟩
      · rw [if_neg fun hh => hl ((hm.lt hx).mp hh)]
        exact ⟨_, hx, not_lt.mp hl⟩
  have hneg : f.maxTorque.neg = .fin true M := by rw [hM]; rfl
  rw [FlightF.clamp, hneg]
  rcases hmin with h | h | ⟨r, h, hr⟩
  · rw [h]
    exact ⟨-M, by simp [pyMax, F.lt, isReal_fin], by simp⟩
  · rw [h]
    exact ⟨-M, by simp [pyMax, F.lt, isReal_fin], by simp⟩
  · have hl : IsReal (.fin true M) (-M : ℝ) := by simp [isReal_fin]
    simp only [pyMax, List.foldl]
    by_cases hlt : -(M : ℝ) < r
    · rw [if_pos ((hl.lt h).mpr hlt)]
      exact ⟨r, h, abs_le.mpr ⟨hlt.le, hr⟩⟩
    · rw [if_neg fun hh => hlt ((hl.lt h).mp hh)]
      exact ⟨-M, hl, by simp⟩

/-- **C193** (the part that holds). Whatever the messages contain, nan and infinities included, every wheel gets
a number within the limit of the torque. -/
theorem C193_within_limit_partial (rnd : ℝ≥0 → ℝ≥0) (f : FlightF) (M : ℝ≥0) (hM : f.maxTorque = .fin false M)
    (q : Fin 4 → F) (w : Fin 3 → F) (v : Fin 4 → F) (i : Fin 4) :
    ∃ r, IsReal ((f.updateState rnd q w v).torqueVals i) r ∧ |r| ≤ M := by
  have key : ∀ (g : FlightF) (t : F), g.maxTorque = .fin false M →
      ∃ r, IsReal (g.checkTorque rnd t (v i)) r ∧ |r| ≤ M := by
    intro g t hg
    simp only [FlightF.checkTorque]
    split_ifs <;> exact clamp_bound g M hg _
  simp only [FlightF.updateState, FlightF.checkHemi]
  split_ifs <;> exact key _ _ hM

/-- **C193** (what happens instead). A wheel whose speed is reported as nan gets the torque asked for, within the
limit of the torque: the limit of the speed is not looked at. -/
theorem C193_unknown_speed_partial (rnd : ℝ≥0 → ℝ≥0) (f : FlightF) (torque : F) :
    f.checkTorque rnd torque .nan = f.clamp torque := by
  have h1 : ∀ x, F.lt x .nan = false := by intro x; cases x <;> rfl
  simp [FlightF.checkTorque, nan_fadd, F.abs, h1]

/-- Calls of `UpdateState` with the readings of a history. -/
noncomputable def Spec.flown (rnd : ℝ≥0 → ℝ≥0) (f : FlightF) (q : ℕ → Fin 4 → F) (w : ℕ → Fin 3 → F)
    (v : ℕ → Fin 4 → F) : ℕ → FlightF
  | 0 => f
  | n + 1 => (Spec.flown rnd f q w v n).updateState rnd (q n) (w n) (v n)

theorem flown_maxTorque (rnd : ℝ≥0 → ℝ≥0) (f : FlightF) (q : ℕ → Fin 4 → F) (w : ℕ → Fin 3 → F)
    (v : ℕ → Fin 4 → F) (n : ℕ) : (Spec.flown rnd f q w v n).maxTorque = f.maxTorque := by
  induction n with
  | zero => rfl
  | succ n ih => rw [Spec.flown, (updateState_limits rnd _ _ _ _).1, ih]

/-- **C193** (what happens instead). As long as the readings are no measurements every wheel is accelerated
steadily, past every speed: the limit of the speed, which is computed from the torque asked for, does not stop it. -/
theorem C193_overspeed_partial (rnd : ℝ≥0 → ℝ≥0) (h0 : rnd 0 = 0) (f : FlightF) (M : ℝ≥0) (hM : M ≠ 0)
    (hmax : f.maxTorque = .fin false M) (q : ℕ → Fin 4 → F) (w : ℕ → Fin 3 → F) (v : ℕ → Fin 4 → F)
    (h : ∀ n, Spec.NoAttitude (q n) ∨ Spec.NoRate (w n)) (inertia step : ℝ) (hI : 0 < inertia) (hs : 0 < step)
    (i : Fin 4) (speed torque : ℕ → ℝ)
    (htorque : ∀ n, IsReal ((Spec.flown rnd f q w v (n + 1)).torqueVals i) (torque n))
    (hspeed : ∀ n, speed (n + 1) = speed n + torque n / inertia * step) :
    (∀ n, speed n = speed 0 - n * (M / inertia * step)) ∧ ∀ limit : ℝ, ∃ n, speed n < -limit := by
  have ht : ∀ n, torque n = -M := by
    intro n
    have h1 := htorque n
    rw [Spec.flown, C193_full_torque_partial rnd h0 _ _ _ _ (h n), flown_maxTorque, hmax] at h1
    simpa [IsReal, F.neg, F.real?, eq_comm] using h1
  have hlin : ∀ n : ℕ, speed n = speed 0 - n * (M / inertia * step) := by
    intro n
    induction n with
    | zero => simp
    | succ n ih =>
      rw [hspeed, ih, ht]
      push_cast
      ring
  refine ⟨hlin, fun limit => ?_⟩
  have hMp : (0 : ℝ) < M := by exact_mod_cast pos_iff_ne_zero.mpr hM
  have hp : 0 < M / inertia * step := by positivity
  obtain ⟨n, hn⟩ := exists_nat_gt ((speed 0 + limit) / (M / inertia * step))
  refine ⟨n, ?_⟩
  rw [div_lt_iff₀ hp] at hn
  rw [hlin]
  linarith

/-- **C193** in full: a reading that is no attitude, or no rate, does not drive the wheels. -/
def C193_claim : Prop :=
  ∀ (rnd : ℝ≥0 → ℝ≥0), rnd 0 = 0 → ∀ (f : FlightF) (M : ℝ≥0), f.maxTorque = .fin false M → M ≠ 0 →
    ∀ (q : Fin 4 → F) (w : Fin 3 → F) (v : Fin 4 → F), Spec.NoAttitude q ∨ Spec.NoRate w → ∀ i r,
      IsReal ((f.updateState rnd q w v).torqueVals i) r → r = 0

/-- The flight software of `__init__`, some gains. -/
noncomputable def exampleFlight : FlightF where
  Gpinv := fun _ _ => .fin true 1
  rwInertia := .fin false 1
  updateTime := .fin false 1
  qTarget := ![.fin false 0, .fin false 0, .fin false 0, .fin false 1]
  t2 := ![.fin false 0, .fin false 1, .fin false 0, .fin false 0]
  omegaTarget := fun _ => .fin false 0
  maxTorque := .fin false (1 / 100)
  maxSpeed := .fin false 1047
  Kq := fun _ _ => .fin false 1
  Kw := fun _ _ => .fin false 1
  torqueVals := fun _ => .fin false 0
  signFlipped := false

/-- **C193** does not hold: a satellite at rest with wheels at rest, and a star tracker that reports zeros. -/
theorem C193_fails : ¬ C193_claim := by
  intro h
  have hz : Spec.NoAttitude (fun _ => .fin false 0) := .inl fun _ => ⟨false, rfl⟩
  have h1 := h (fun x => x) rfl exampleFlight (1 / 100) rfl (by norm_num) (fun _ => .fin false 0)
    (fun _ => .fin false 0) (fun _ => .fin false 0) (.inl hz) 0 (-(1 / 100)) (by
      rw [C193_full_torque_partial (fun x => x) rfl _ _ _ _ (.inl hz)]
      simp [exampleFlight, IsReal, F.neg, F.real?])
  norm_num at h1

/-! ### The two models of the flight software agree on numbers -/

theorem IsReal.div {x y : F} {a b : ℝ} (hx : IsReal x a) (hy : IsReal y b) (hb : b ≠ 0) :
    IsReal (F.div (fun z => z) x y) (a / b) := by
  obtain ⟨s, m, rfl, rfl⟩ := hx.exists
  obtain ⟨t, n, rfl, rfl⟩ := hy.exists
  have hn : n ≠ 0 := by
    rintro rfl
    simp at hb
  rw [F.div, if_neg hn, isReal_fin]
  cases s <;> cases t <;> simp [neg_div, div_neg]

theorem IsReal.eq {x y : F} {a b : ℝ} (hx : IsReal x a) (hy : IsReal y b) : F.eq x y = true ↔ a = b := by
  obtain ⟨s, m, rfl, rfl⟩ := hx.exists
  obtain ⟨t, n, rfl, rfl⟩ := hy.exists
  simp [F.eq]

theorem IsReal.acos {x : F} {a : ℝ} (hx : IsReal x a) (h : |a| ≤ 1) : IsReal (F.acos (fun z => z) x) (Real.arccos a) := by
  obtain ⟨s, m, rfl, rfl⟩ := hx.exists
  have : m ≤ 1 := by
    have : (m : ℝ) ≤ 1 := by cases s <;> simpa using h
    exact_mod_cast this
  rw [F.acos, if_pos this]
  exact isReal_ofReal _

theorem isReal_foldl (l : List F) (m : List ℝ) (h : List.Forall₂ IsReal l m) (x : F) (a : ℝ) (hx : IsReal x a) :
    IsReal (l.foldl (F.add fun z => z) x) (a + m.sum) := by
  induction h generalizing x a with
  | nil => simpa using hx
  | cons h1 _ ih =>
    rw [List.foldl_cons, List.sum_cons, ← add_assoc]
    exact ih _ _ (hx.add h1)

theorem isReal_dotN {n : ℕ} {x y : Fin n → F} {a b : Fin n → ℝ} (hx : ∀ i, IsReal (x i) (a i))
    (hy : ∀ i, IsReal (y i) (b i)) : IsReal (dotN (fun z => z) x y) (∑ i, a i * b i) := by
  have h := isReal_foldl (List.ofFn fun i => F.mul (fun z => z) (x i) (y i)) (List.ofFn fun i => a i * b i) ?_
    (.fin false 0) 0 (by simp [isReal_fin])
  · rw [zero_add, List.sum_ofFn] at h
    exact h
  · rw [List.forall₂_iff_get]
    refine ⟨by simp, fun i h1 h2 => ?_⟩
    simp only [List.get_eq_getElem, List.getElem_ofFn]
    exact (hx _).mul (hy _)

theorem isReal_normalize {q : Fin 4 → F} {r p : V4} (h : ∀ i, IsReal (q i) (r i)) (hp : Sim.normalize r = .ok p) (i : Fin 4) :
    IsReal (Ieee.normalize (fun z => z) q i) (p i) := by
  unfold Sim.normalize npVDiv at hp
  split_ifs at hp with h0
  injection hp with hp
  subst hp
  refine (h i).div ?_ h0
  have h1 : (∑ k, r k ^ 2) = ∑ k, r k * r k := Finset.sum_congr rfl fun k _ => by ring
  rw [npNorm, h1]
  exact (isReal_dotN h h).sqrt_ok (Finset.sum_nonneg fun k _ => mul_self_nonneg _)

theorem isReal_quatMult {a b : Fin 4 → F} {p q e : V4} (ha : ∀ i, IsReal (a i) (p i)) (hb : ∀ i, IsReal (b i) (q i))
    (he : Sim.quatMult p q = .ok e) (i : Fin 4) : IsReal (Ieee.quatMult (fun z => z) a b i) (e i) := by
  unfold Sim.quatMult at he
  rcases h1 : Sim.normalize p with e1 | p'
  · simp [h1] at he
  · rcases h2 : Sim.normalize q with e2 | q'
    · simp [h1, h2] at he
    · simp only [h1, h2] at he
      have k1 := isReal_normalize ha h1
      have k2 := isReal_normalize hb h2
      refine isReal_normalize (fun j => ?_) he i
      fin_cases j
      · exact ((((k1 3).mul (k2 0)).add ((k1 0).mul (k2 3))).add ((k1 1).mul (k2 2))).sub ((k1 2).mul (k2 1))
      · exact ((((k1 3).mul (k2 1)).sub ((k1 0).mul (k2 2))).add ((k1 1).mul (k2 3))).add ((k1 2).mul (k2 0))
      · exact ((((k1 3).mul (k2 2)).add ((k1 0).mul (k2 1))).sub ((k1 1).mul (k2 0))).add ((k1 2).mul (k2 3))
      · exact ((((k1 3).mul (k2 3)).sub ((k1 0).mul (k2 0))).sub ((k1 1).mul (k2 1))).sub ((k1 2).mul (k2 2))

theorem isReal_quatError {a b : Fin 4 → F} {p q e : V4} (ha : ∀ i, IsReal (a i) (p i)) (hb : ∀ i, IsReal (b i) (q i))
    (he : Sim.quatError p q = .ok e) (i : Fin 4) : IsReal (Ieee.quatError (fun z => z) a b i) (e i) := by
  refine isReal_quatMult ha (fun j => ?_) he i
  fin_cases j
  · exact (hb 0).neg
  · exact (hb 1).neg
  · exact (hb 2).neg
  · exact hb 3

theorem isReal_errorAngle {a : Fin 4 → F} {p : V4} {e : ℝ} (ha : ∀ i, IsReal (a i) (p i)) (he : Sim.errorAngle p = .ok e) :
    IsReal (Ieee.errorAngle (fun z => z) a) e := by
  unfold Sim.errorAngle at he
  split_ifs at he with h
  injection he with he
  subst he
  exact (((isReal_ofReal 2).mul ((ha 3).abs.acos (by rwa [abs_abs]))).mul (isReal_ofReal 180)).div
    (isReal_ofReal _) Real.pi_ne_zero

/-- The attributes of the two models stand for the same numbers. -/
structure SameFlight (f : FlightF) (g : Fsw) : Prop where
  Gpinv : ∀ i k, IsReal (f.Gpinv i k) (g.Gpinv i k)
  rwInertia : IsReal f.rwInertia g.rwInertia
  updateTime : IsReal f.updateTime g.updateTime
  qTarget : ∀ i, IsReal (f.qTarget i) (g.qTarget i)
  omegaTarget : ∀ i, IsReal (f.omegaTarget i) (g.omegaTarget i)
  maxTorque : IsReal f.maxTorque g.maxTorque
  maxSpeed : IsReal f.maxSpeed g.maxSpeed
  Kq : ∀ i k, IsReal (f.Kq i k) (g.K i (.inl k))
  Kw : ∀ i k, IsReal (f.Kw i k) (g.K i (.inr k))
  torqueVals : ∀ i, IsReal (f.torqueVals i) (g.torqueVals i)
  signFlipped : g.signFlipped = if f.signFlipped then 1 else 0

theorem isReal_clamp {f : FlightF} {g : Fsw} (h : SameFlight f g) {x : F} {a : ℝ} (hx : IsReal x a) :
    IsReal (f.clamp x) (g.clamp a) := by
  have h1 : IsReal (pyMin x [f.maxTorque]) (min a g.maxTorque) := by
    simp only [pyMin, List.foldl]
    by_cases hl : g.maxTorque < a
    · rw [if_pos ((h.maxTorque.lt hx).mpr hl), min_eq_right hl.le]
      exact h.maxTorque
    · rw [if_neg fun hh => hl ((h.maxTorque.lt hx).mp hh), min_eq_left (not_lt.mp hl)]
      exact hx
  simp only [FlightF.clamp, Fsw.clamp, pyMax, List.foldl]
  by_cases hl : -g.maxTorque < min a g.maxTorque
  · rw [if_pos ((h.maxTorque.neg.lt h1).mpr hl), max_eq_right hl.le]
    exact h1
  · rw [if_neg fun hh => hl ((h.maxTorque.neg.lt h1).mp hh), max_eq_left (not_lt.mp hl)]
    exact h.maxTorque.neg

theorem isReal_checkTorque {f : FlightF} {g : Fsw} (h : SameFlight f g) {t v : F} {a b c : ℝ} (ht : IsReal t a)
    (hv : IsReal v b) (hc : g.checkTorque a b = .ok c) : IsReal (f.checkTorque (fun z => z) t v) c := by
  have h00 : IsReal (.fin false 0) 0 := by simp [isReal_fin]
  unfold Fsw.checkTorque npDiv at hc
  by_cases hI : g.rwInertia = 0
  · simp [hI] at hc
  · simp only [if_neg hI] at hc
    have hp := hv.add ((ht.div h.rwInertia hI).mul h.updateTime)
    rw [FlightF.checkTorque]
    by_cases hl : g.maxSpeed < |b + a / g.rwInertia * g.updateTime|
    · rw [if_pos ((h.maxSpeed.lt hp.abs).mpr hl)]
      rw [if_pos hl] at hc
      by_cases hu : g.updateTime = 0
      · simp [hu] at hc
      · simp only [if_neg hu] at hc
        injection hc with hc
        subst hc
        refine isReal_clamp h (((IsReal.mul (IsReal.sub (IsReal.mul ?_ h.maxSpeed) hv) h.rwInertia)).div h.updateTime hu)
        by_cases hb : b = 0
        · rw [if_pos ((hv.eq h00).mpr hb), if_neg (by simpa using hb)]
          exact ht.sign
        · rw [if_neg fun hh => hb ((hv.eq h00).mp hh), if_pos hb]
          exact hv.sign
    · rw [if_neg fun hh => hl ((h.maxSpeed.lt hp.abs).mp hh)]
      rw [if_neg hl] at hc
      injection hc with hc
      subst hc
      exact isReal_clamp h ht

theorem isReal_controller {f : FlightF} {g : Fsw} (h : SameFlight f g) {e : Fin 4 → F} {d : V4} {w : Fin 3 → F} {o : V3}
    (he : ∀ i, IsReal (e i) (d i)) (hw : ∀ i, IsReal (w i) (o i)) (k : Fin 3) :
    IsReal (f.quaternionController (fun z => z) e w k) (g.quaternionController d o k) := by
  have hs : IsReal (F.ofReal (fun z => z) (if f.signFlipped then -1 else 1)) ((-1) ^ g.signFlipped) := by
    rw [h.signFlipped]
    cases f.signFlipped <;> simpa using isReal_ofReal _
  have hsum := isReal_dotN (n := 6)
    (x := ![(f.Kq k 0).neg, (f.Kq k 1).neg, (f.Kq k 2).neg, (f.Kw k 0).neg, (f.Kw k 1).neg, (f.Kw k 2).neg])
    (a := ![-g.K k (.inl 0), -g.K k (.inl 1), -g.K k (.inl 2), -g.K k (.inr 0), -g.K k (.inr 1), -g.K k (.inr 2)])
    (y := ![F.mul (fun z => z) (e 0) (F.ofReal (fun z => z) (if f.signFlipped then -1 else 1)),
      F.mul (fun z => z) (e 1) (F.ofReal (fun z => z) (if f.signFlipped then -1 else 1)),
      F.mul (fun z => z) (e 2) (F.ofReal (fun z => z) (if f.signFlipped then -1 else 1)),
      F.sub (fun z => z) (w 0) (f.omegaTarget 0), F.sub (fun z => z) (w 1) (f.omegaTarget 1),
      F.sub (fun z => z) (w 2) (f.omegaTarget 2)])
    (b := ![d 0 * (-1) ^ g.signFlipped, d 1 * (-1) ^ g.signFlipped, d 2 * (-1) ^ g.signFlipped,
      o 0 - g.omegaTarget 0, o 1 - g.omegaTarget 1, o 2 - g.omegaTarget 2]) ?_ ?_
  · have : g.quaternionController d o k = ∑ i : Fin 6,
        (![-g.K k (.inl 0), -g.K k (.inl 1), -g.K k (.inl 2), -g.K k (.inr 0), -g.K k (.inr 1), -g.K k (.inr 2)] : Fin 6 → ℝ) i *
        (![d 0 * (-1) ^ g.signFlipped, d 1 * (-1) ^ g.signFlipped, d 2 * (-1) ^ g.signFlipped,
          o 0 - g.omegaTarget 0, o 1 - g.omegaTarget 1, o 2 - g.omegaTarget 2] : Fin 6 → ℝ) i := by
      simp only [Fsw.quaternionController, Matrix.mulVec, dotProduct, Fintype.sum_sum_type, Sum.elim_inl, Sum.elim_inr,
        Fin.sum_univ_three, Fin.sum_univ_six, Matrix.neg_apply, Pi.sub_apply]
      simp
      ring
    rw [this]
    exact hsum
  · intro i
    fin_cases i
    · exact (h.Kq k 0).neg
    · exact (h.Kq k 1).neg
    · exact (h.Kq k 2).neg
    · exact (h.Kw k 0).neg
    · exact (h.Kw k 1).neg
    · exact (h.Kw k 2).neg
  · intro i
    fin_cases i
    · exact (he 0).mul hs
    · exact (he 1).mul hs
    · exact (he 2).mul hs
    · exact (hw 0).sub (h.omegaTarget 0)
    · exact (hw 1).sub (h.omegaTarget 1)
    · exact (hw 2).sub (h.omegaTarget 2)

theorem isReal_checkHemi {f : FlightF} {g : Fsw} (h : SameFlight f g) {e : Fin 4 → F} {d : V4}
    (he : ∀ i, IsReal (e i) (d i)) :
    (∀ i, IsReal ((f.checkHemi e).1 i) ((g.checkHemi d).1 i)) ∧ SameFlight (f.checkHemi e).2 (g.checkHemi d).2 ∧
      (f.checkHemi e).2.t2 = f.t2 := by
  have h00 : IsReal (.fin false 0) 0 := by simp [isReal_fin]
  by_cases hd : 0 ≤ d 3
  · have hc : (F.lt (.fin false 0) (e 3) || F.eq (e 3) (.fin false 0)) = true := by
      rw [Bool.or_eq_true, h00.lt (he 3), (he 3).eq h00]
      exact hd.lt_or_eq.imp id Eq.symm
    rw [FlightF.checkHemi, Fsw.checkHemi, if_pos hc, if_pos hd]
    exact ⟨he, { h with signFlipped := rfl }, rfl⟩
  · have hc : ¬ (F.lt (.fin false 0) (e 3) || F.eq (e 3) (.fin false 0)) = true := by
      rw [Bool.or_eq_true, h00.lt (he 3), (he 3).eq h00]
      rintro (h | h)
      · exact hd h.le
      · exact hd h.ge
    rw [FlightF.checkHemi, Fsw.checkHemi, if_neg hc, if_neg hd]
    exact ⟨fun i => (he i).neg, { h with signFlipped := rfl }, rfl⟩

theorem updateState_refines (f : FlightF) (g g' : Fsw) (h : SameFlight f g) (p : V4)
    (hp : ∃ a b, Sim.axisAngle ![0, 1, 0] 90 = .ok a ∧ Sim.axisAngle ![0, 1, 0] 180 = .ok b ∧ Sim.quatMult b a = .ok p)
    (ht2 : ∀ i, IsReal (f.t2 i) (p i)) (q : Fin 4 → F) (r : V4) (hq : ∀ i, IsReal (q i) (r i))
    (w : Fin 3 → F) (o : V3) (hw : ∀ i, IsReal (w i) (o i)) (v : Fin 4 → F) (s : Fin 4 → ℝ)
    (hv : ∀ i, IsReal (v i) (s i)) (hg : g.updateState r o s = (.ok (), g')) :
    SameFlight (f.updateState (fun z => z) q w v) g' := by
  obtain ⟨a90, a180, h90, h180, hmult⟩ := hp
  unfold Fsw.updateState at hg
  rcases h1 : Sim.normalize (Sim.toScalarLast r) with e1 | n
  · simp [h1] at hg
  · rcases h2 : Sim.quatError g.qTarget n with e2 | d
    · simp [h1, h90, h2] at hg
    · rcases h3 : Sim.errorAngle (g.checkHemi d).1 with e3 | ang
      · simp [h1, h90, h2, h180, hmult, h3] at hg
      · simp only [h1, h90, h2, h180, hmult, h3] at hg
        have k1 : ∀ i, IsReal (Ieee.normalize (fun z => z) ![q 1, q 2, q 3, q 0] i) (n i) := by
          refine isReal_normalize (fun i => ?_) h1
          fin_cases i
          · exact hq 1
          · exact hq 2
          · exact hq 3
          · exact hq 0
        have k2 := isReal_quatError h.qTarget k1 h2
        obtain ⟨k3, k4, k5⟩ := isReal_checkHemi h k2
        have k6 := isReal_errorAngle k3 h3
        have h00 : IsReal (.fin false 0) 0 := by simp [isReal_fin]
        rw [FlightF.updateState]
        generalize hfe : f.checkHemi (Ieee.quatError (fun z => z) f.qTarget
          (Ieee.normalize (fun z => z) ![q 1, q 2, q 3, q 0])) = fe at k3 k4 k5 k6
        generalize hge : g.checkHemi d = ge at hg k3 k4 k6
        obtain ⟨e, f1⟩ := fe
        obtain ⟨d1, g1⟩ := ge
        have hcond : ((Ieee.errorAngle (fun z => z) e).eq (F.fin false 0) &&
            ((w 0).eq (F.fin false 0) && (w 1).eq (F.fin false 0) && (w 2).eq (F.fin false 0))) = true ↔ ang = 0 ∧ o = 0 := by
          rw [Bool.and_eq_true, Bool.and_eq_true, Bool.and_eq_true, k6.eq h00, (hw 0).eq h00, (hw 1).eq h00, (hw 2).eq h00]
          refine and_congr_right fun _ => ⟨fun hh => ?_, fun hh => by simp [hh]⟩
          funext i
          fin_cases i
          · exact hh.1.1
          · exact hh.1.2
          · exact hh.2
        have fin : ∀ (f2 : FlightF) (g2 : Fsw), SameFlight f2 g2 →
            (match g2.checkTorqueVals (g2.convertTorque (g2.quaternionController d1 o)) s with
              | .error e => (.error e, g2)
              | .ok f => (.ok (), f) : Py Unit × Fsw) = (.ok (), g') →
            SameFlight { f2 with
              torqueVals := fun i => f2.checkTorque (fun z => z)
                (f2.convertTorque (fun z => z) (f2.quaternionController (fun z => z) e w) i) (v i) } g' := by
          intro f2 g2 hs hh
          unfold Fsw.checkTorqueVals at hh
          rcases h4 : Str.pyForall fun i => g2.checkTorque (g2.convertTorque (g2.quaternionController d1 o) i) (s i) with e4 | t
          · simp [h4] at hh
          · simp only [h4, Prod.mk.injEq, true_and] at hh
            subst hh
            refine { hs with torqueVals := fun i => ?_ }
            refine isReal_checkTorque hs ?_ (hv i) (pyForall_ok.mp h4 i)
            exact isReal_dotN (hs.Gpinv i) (isReal_controller hs k3 hw)
        by_cases hc : ang = 0 ∧ o = 0
        · rw [if_pos hc] at hg
          simp only [if_pos (hcond.mpr hc)]
          refine fin { f1 with qTarget := f1.t2 } { g1 with qTarget := p } { k4 with qTarget := fun i => ?_ } hg
          rw [show f1.t2 = f.t2 from k5]
          exact ht2 i
        · rw [if_neg hc] at hg
          simp only [if_neg fun hh => hc (hcond.mp hh)]
          exact fin _ _ k4 hg

/-- **C193** (the two models). For readings that are numbers, not all zero, and without rounding, what the floats
compute is what `Fsw.updateState` computes. -/
theorem C193_refines_partial (f : FlightF) (g : Fsw) (h : SameFlight f g) (ht2 : ∀ i, IsReal (f.t2 i) (secondTarget i))
    (hI : g.rwInertia ≠ 0) (ht : g.updateTime ≠ 0) (hq0 : g.qTarget ≠ 0) (q : Fin 4 → F) (r : V4)
    (hq : ∀ i, IsReal (q i) (r i)) (hr : r ≠ 0) (w : Fin 3 → F) (o : V3) (hw : ∀ i, IsReal (w i) (o i))
    (v : Fin 4 → F) (s : Fin 4 → ℝ) (hv : ∀ i, IsReal (v i) (s i)) :
    ∃ g', g.updateState r o s = (.ok (), g') ∧ SameFlight (f.updateState (fun z => z) q w v) g' := by
  obtain ⟨_, g', _, _, hg, _⟩ := updateState_step hI ht hq0 hr o s
  refine ⟨g', hg, updateState_refines f g g' h secondTarget ?_ ht2 q r hq w o hw v s hv hg⟩
  exact ⟨_, _, axisAngle_unit yAxis_norm _, axisAngle_unit yAxis_norm _,
    quatMult_unit (aaq_norm yAxis_norm _) (aaq_norm yAxis_norm _)⟩

/-- **C193** (the same for `zero_wheel_speeds`). Whatever speeds are reported, every wheel gets a number within the limit
of the torque; but a wheel whose speed is reported as nan gets the greatest torque in its negative direction, also if it
stands. -/
theorem C193_zero_speeds_partial (rnd : ℝ≥0 → ℝ≥0) (f : FlightF) (M : ℝ≥0) (hM : f.maxTorque = .fin false M)
    (v : Fin 4 → F) (i : Fin 4) :
    (∃ r, IsReal ((f.zeroWheelSpeeds rnd v).torqueVals i) r ∧ |r| ≤ M) ∧
    (v i = .nan → IsReal ((f.zeroWheelSpeeds rnd v).torqueVals i) (-M)) := by
  refine ⟨clamp_bound f M hM _, fun h => ?_⟩
  have e : (f.zeroWheelSpeeds rnd v).torqueVals i = f.clamp .nan := by
    simp only [FlightF.zeroWheelSpeeds, h, fmul_nan, nan_fdiv]
  rw [e, clamp_nan, hM]
  simp [F.neg, isReal_fin]

/-- **C193** (the two models of `zero_wheel_speeds`). For speeds that are numbers, and without rounding, what the floats
compute is what `Fsw.zeroWheelSpeeds` computes. -/
theorem C193_zero_refines_partial (f : FlightF) (g : Fsw) (h : SameFlight f g) (ht : g.updateTime ≠ 0) (v : Fin 4 → F)
    (s : Fin 4 → ℝ) (hv : ∀ i, IsReal (v i) (s i)) :
    ∃ g', g.zeroWheelSpeeds s = .ok g' ∧ SameFlight (f.zeroWheelSpeeds (fun z => z) v) g' := by
  refine ⟨_, by rw [Fsw.zeroWheelSpeeds, if_neg ht], ?_⟩
  exact { h with torqueVals := fun i => isReal_clamp h ((h.rwInertia.neg.mul (hv i)).div h.updateTime ht) }

/-- Attributes that are floats, for every flight software. -/
example (g : Fsw) (h : g.signFlipped = 0) : SameFlight
    { Gpinv := fun i k => F.ofReal (fun z => z) (g.Gpinv i k), rwInertia := F.ofReal (fun z => z) g.rwInertia,
      updateTime := F.ofReal (fun z => z) g.updateTime, qTarget := fun i => F.ofReal (fun z => z) (g.qTarget i),
      t2 := fun i => F.ofReal (fun z => z) (secondTarget i),
      omegaTarget := fun i => F.ofReal (fun z => z) (g.omegaTarget i), maxTorque := F.ofReal (fun z => z) g.maxTorque,
      maxSpeed := F.ofReal (fun z => z) g.maxSpeed, Kq := fun i k => F.ofReal (fun z => z) (g.K i (.inl k)),
      Kw := fun i k => F.ofReal (fun z => z) (g.K i (.inr k)),
      torqueVals := fun i => F.ofReal (fun z => z) (g.torqueVals i), signFlipped := false } g :=
  ⟨fun _ _ => isReal_ofReal _, isReal_ofReal _, isReal_ofReal _, fun _ => isReal_ofReal _, fun _ => isReal_ofReal _,
    isReal_ofReal _, isReal_ofReal _, fun _ _ => isReal_ofReal _, fun _ _ => isReal_ofReal _, fun _ => isReal_ofReal _, h⟩

/-- The hypotheses of the theorems above are met: zeros, a nan, and a history of both. -/
example : Spec.NoAttitude (fun _ => .fin true 0) ∧ Spec.NoAttitude ![.fin false 1, .inf true, .fin false 0, .fin false 0] ∧
    Spec.NoRate ![.fin false 0, .nan, .fin false 0] ∧ exampleFlight.maxTorque = .fin false (1 / 100) := by
  refine ⟨.inl fun _ => ⟨true, rfl⟩, .inr ⟨1, ?_⟩, ⟨1, rfl⟩, rfl⟩
  rintro ⟨s, m, h⟩
  simp at h

end Adcs
