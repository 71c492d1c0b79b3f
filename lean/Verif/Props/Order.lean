import Verif.Props.Integrator
import Mathlib.Analysis.Calculus.Taylor
import Mathlib.Analysis.SpecialFunctions.Integrals.Basic

set_option autoImplicit false

/-! # C135: order of the integration step -/

namespace Adcs

open JDay Dyn Sens

/-- The clock of every state at which a step evaluates the field is the one at the start of the step: two
fields that agree on states with that clock give the same step. -/
theorem C135_frozen {n : ℕ} {f f' : SatState n → Py (Raw n)} {dt : ℝ} {s : SatState n}
    (h : ∀ s' : SatState n, s'.clock = s.clock → f s' = f' s') : rk4Step f dt s = rk4Step f' dt s := by
  unfold rk4Step
  rw [← h s rfl]
  cases h1 : f s with
  | error e => rfl
  | ok k1 =>
  simp only
  cases h2 : s.add ((dt / 2) • k1) with
  | error e => rfl
  | ok s2 =>
  simp only
  rw [← h s2 (add_ok h2).2.1]
  cases h3 : f s2 with
  | error e => rfl
  | ok k2 =>
  simp only
  cases h4 : s.add ((dt / 2) • k2) with
  | error e => rfl
  | ok s3 =>
  simp only
  rw [← h s3 (add_ok h4).2.1]
  cases h5 : f s3 with
  | error e => rfl
  | ok k3 =>
  simp only
  cases h6 : s.add (dt • k3) with
  | error e => rfl
  | ok s4 =>
  simp only
  rw [← h s4 (add_ok h6).2.1]

/-- So for a field that depends on the time only, a step is one step of Euler's method. -/
theorem C135_euler {n : ℕ} {F : Option JClock → Raw n} {dt : ℝ} {s s' : SatState n}
    (h : rk4Step (fun s => .ok (F s.clock)) dt s = .ok s') : s'.arr = s.arr + dt • F s.clock := by
  obtain ⟨k1, k2, k3, k4, s2, s3, s4, a1, b1, a2, b2, a3, b3, a4, h6⟩ := rk4_ok h
  simp only [Except.ok.injEq] at a1 a2 a3 a4
  rw [(add_ok b1).2.1] at a2
  rw [(add_ok b2).2.1] at a3
  rw [(add_ok b3).2.1] at a4
  rw [(add_ok h6).1, ← a1, ← a2, ← a3, ← a4]
  apply Raw.ext <;> funext i <;>
    simp only [add_pos', smul_pos', add_vel, smul_vel, add_att, smul_att, add_rate, smul_rate, add_whl,
      smul_whl, Pi.add_apply, Pi.smul_apply, smul_eq_mul] <;> ring

/-- Seconds from one clock reading to another. -/
noncomputable def secondsSince (c : JClock) : Option JClock → ℝ
  | none => 0
  | some c' => ((c'.datetime - c.datetime : ℤ) : ℝ) / 1000000

/-- The full claim ("Error is on the order of dt^5"), for a force that depends on the time only, as a
polynomial in the seconds since the start: the error of the velocity after one step is at most a constant
times the fifth power of the step. -/
def C135_claim : Prop := ∀ (n : ℕ) (s : SatState n) (c : JClock) (p : Polynomial ℝ), s.clock = some c →
  ∃ C : ℝ, ∀ (dt : ℝ) (s' : SatState n), 0 < dt → dt ≤ 1 →
    rk4Step (fun s => .ok ⟨0, ![p.eval (secondsSince c s.clock), 0, 0], 0, 0, 0⟩) dt s = .ok s' →
    |s'.arr.vel 0 - (s.arr.vel 0 + ∫ t in (0 : ℝ)..dt, p.eval t)| ≤ C * dt ^ 5

/-- C135 fails: a force that grows with the time has no effect in the first step. -/
theorem C135_order_fails : ¬ C135_claim := by
  intro H
  obtain ⟨s, hs, -⟩ := exState 4
  obtain ⟨-, ha, hc⟩ := C80_new hs
  obtain ⟨C, hC⟩ := H 4 s exClock Polynomial.X hc
  have hstep : ∀ dt : ℝ, ∃ s', rk4Step (fun s : SatState 4 => .ok ⟨0, ![Polynomial.X.eval (secondsSince exClock s.clock), 0, 0],
      0, 0, 0⟩) dt s = .ok s' ∧ s'.arr.vel 0 = s.arr.vel 0 := by
    intro dt
    have hadd : ∀ o : Raw 4, o.pos = 0 → ∃ s', s.add o = .ok s' := by
      intro o ho
      unfold SatState.add
      rw [hc]
      exact exMk _ _ (by rw [add_pos', ho, add_zero, ha])
    have hz : ∀ s' : SatState 4, s'.clock = s.clock → (⟨0, ![Polynomial.X.eval (secondsSince exClock s'.clock), 0, 0],
        0, 0, 0⟩ : Raw 4) = ⟨0, 0, 0, 0, 0⟩ := by
      intro s' h
      rw [h, hc]
      simp only [secondsSince, sub_self, Int.cast_zero, zero_div, Polynomial.eval_X]
      congr 1
      apply vec3_ext <;> simp
    obtain ⟨s2, e2⟩ := hadd ((dt / 2) • (⟨0, 0, 0, 0, 0⟩ : Raw 4)) (by simp)
    obtain ⟨s4, e4⟩ := hadd (dt • (⟨0, 0, 0, 0, 0⟩ : Raw 4)) (by simp)
    obtain ⟨s5, e5⟩ := hadd (dt • ((1 / 6 : ℝ) • ((⟨0, 0, 0, 0, 0⟩ : Raw 4) + (2 : ℝ) • ⟨0, 0, 0, 0, 0⟩ +
      (2 : ℝ) • ⟨0, 0, 0, 0, 0⟩ + ⟨0, 0, 0, 0, 0⟩))) (by simp)
    refine ⟨s5, ?_, ?_⟩
    · rw [C135_frozen (f' := fun _ => .ok ⟨0, 0, 0, 0, 0⟩) (fun s' h => by rw [hz s' h])]
      unfold rk4Step; simp only [e2, e4, e5]
    · rw [(add_ok e5).1]; simp
  have hb : ∀ dt : ℝ, 0 < dt → dt ≤ 1 → 1 / 2 ≤ C * dt ^ 3 := by
    intro dt h0 h1
    obtain ⟨s', e, ev⟩ := hstep dt
    have := hC dt s' h0 h1 e
    rw [ev] at this
    simp only [Polynomial.eval_X, integral_id] at this
    rw [show s.arr.vel 0 - (s.arr.vel 0 + (dt ^ 2 - 0 ^ 2) / 2) = -(dt ^ 2 / 2) by ring, abs_neg,
      abs_of_nonneg (by positivity)] at this
    have h2 : (1 / 2) * dt ^ 2 ≤ (C * dt ^ 3) * dt ^ 2 := by nlinarith
    exact le_of_mul_le_mul_right h2 (by positivity)
  have hC0 : 0 < C := by have := hb 1 one_pos le_rfl; linarith
  set d : ℝ := 1 / (1 + 4 * C) with hd
  have hd0 : 0 < d := by positivity
  have hd1 : d ≤ 1 := by rw [hd, div_le_one (by linarith)]; linarith
  have h3 := hb d hd0 hd1
  have h4 : C * d ≤ 1 / 4 := by
    rw [hd, mul_one_div, div_le_div_iff₀ (by linarith) (by norm_num)]; linarith
  have h5 : d ^ 2 ≤ 1 := by nlinarith
  have : C * d ^ 3 ≤ 1 / 4 := by
    have : C * d ^ 3 = (C * d) * d ^ 2 := by ring
    rw [this]
    have hp : 0 ≤ C * d := by positivity
    nlinarith
  linarith

/-- A real number that depends linearly on the contents of a state, such as one of its entries. -/
structure Linear {n : ℕ} (φ : Raw n → ℝ) : Prop where
  add : ∀ x y, φ (x + y) = φ x + φ y
  smul : ∀ (c : ℝ) x, φ (c • x) = c * φ x

/-- C135 partial: for a linear field that does not depend on the time, the error of every entry of the state
after one step is of fifth order. `y` is the exact solution from the same start. Missing: fields that depend
on the time (`C135_order_fails`); nonlinear ones are in `C135_analytic_partial`. -/
theorem C135_linear_partial {n : ℕ} {f : SatState n → Py (Raw n)} {A : Raw n → Raw n}
    (hadd : ∀ x y, A (x + y) = A x + A y) (hsmul : ∀ (c : ℝ) x, A (c • x) = c • A x)
    (hf : ∀ s, f s = .ok (A s.arr)) {s : SatState n} {y : ℝ → Raw n} (h0 : y 0 = s.arr)
    (hy : ∀ φ : Raw n → ℝ, Linear φ → ∀ t, HasDerivAt (fun t => φ (y t)) (φ (A (y t))) t)
    {φ : Raw n → ℝ} (hφ : Linear φ) :
    ∃ C : ℝ, ∀ (dt : ℝ) (s' : SatState n), 0 < dt → dt ≤ 1 → rk4Step f dt s = .ok s' →
      |φ s'.arr - φ (y dt)| ≤ C * dt ^ 5 := by
  have hlin : ∀ k, Linear fun x => φ (A^[k] x) := by
    intro k
    induction k with
    | zero => exact hφ
    | succ k ih =>
      constructor
      · intro x y; simp only [Function.iterate_succ, Function.comp, hadd]; exact ih.add _ _
      · intro c x; simp only [Function.iterate_succ, Function.comp, hsmul]; exact ih.smul _ _
  set g : ℕ → ℝ → ℝ := fun k t => φ (A^[k] (y t)) with hg
  have hd : ∀ k t, HasDerivAt (g k) (g (k + 1) t) t := by
    intro k t
    have := hy _ (hlin k) t
    refine this.congr_deriv ?_
    simp only [hg, Function.iterate_succ, Function.comp]
  have hiter : ∀ k, iteratedDeriv k (g 0) = g k := by
    intro k
    induction k with
    | zero => simp
    | succ k ih =>
      rw [iteratedDeriv_succ, ih]
      funext t; exact (hd k t).deriv
  have hcont : ∀ m : ℕ, ContDiff ℝ m (g 0) := by
    intro m
    apply contDiff_of_differentiable_iteratedDeriv
    intro k _
    rw [hiter]; exact fun t => (hd k t).differentiableAt
  have hc5 : Continuous (g 5) := continuous_iff_continuousAt.2 fun t => (hd 5 t).continuousAt
  obtain ⟨M, hM⟩ := (isCompact_Icc (a := (0 : ℝ)) (b := 1)).exists_bound_of_continuousOn hc5.continuousOn
  refine ⟨M / 120, fun dt s' hdt hdt1 hstep => ?_⟩
  obtain ⟨ξ, hξ, e⟩ := taylor_mean_remainder_lagrange_iteratedDeriv (n := 4) (f := g 0) (x₀ := 0) (x := dt) hdt.ne
    ((hcont 5).contDiffOn)
  rw [Set.uIcc_of_le hdt.le] at e
  rw [Set.uIoo_of_le hdt.le] at hξ
  have hT : taylorWithinEval (g 0) 4 (Set.Icc 0 dt) 0 dt = φ s'.arr := by
    have hu : UniqueDiffOn ℝ (Set.Icc 0 dt) := uniqueDiffOn_Icc hdt
    have hw : ∀ k ≤ 4, iteratedDerivWithin k (g 0) (Set.Icc 0 dt) 0 = g k 0 := by
      intro k hk
      rw [iteratedDerivWithin_eq_iteratedDeriv hu ((hcont k).contDiffAt) (Set.left_mem_Icc.2 hdt.le), hiter]
    rw [C74_linear hadd hsmul hf hstep]
    simp only [taylorWithinEval_succ, taylor_within_zero_eval]
    rw [hw 1 (by norm_num), hw 2 (by norm_num), hw 3 (by norm_num), hw 4 (by norm_num)]
    simp only [hg, h0, hφ.add, hφ.smul, Function.iterate_succ, Function.iterate_zero, Function.comp, id,
      smul_eq_mul, sub_zero]
    norm_num [Nat.factorial]
    ring
  rw [hT, hiter] at e
  have h1 : φ s'.arr - φ (y dt) = -(g 5 ξ * dt ^ 5 / 120) := by
    have : g 0 dt = φ (y dt) := rfl
    rw [← this]
    have e' : g 0 dt - φ s'.arr = g 5 ξ * dt ^ 5 / 120 := by
      rw [e]; norm_num [Nat.factorial]
    linarith
  rw [h1, abs_neg, abs_div, abs_mul, abs_of_pos (pow_pos hdt 5), abs_of_pos (by norm_num : (0 : ℝ) < 120)]
  have := hM ξ ⟨hξ.1.le, hξ.2.le.trans hdt1⟩
  rw [Real.norm_eq_abs] at this
  have hp : 0 < dt ^ 5 := pow_pos hdt 5
  rw [div_mul_eq_mul_div]
  gcongr

/-- A velocity that grows in proportion to itself, from a state in orbit. -/
example : ∃ (s : SatState 4) (A : Raw 4 → Raw 4) (y : ℝ → Raw 4), (∀ x y, A (x + y) = A x + A y) ∧
    (∀ (c : ℝ) x, A (c • x) = c • A x) ∧ y 0 = s.arr ∧
    (∀ φ : Raw 4 → ℝ, Linear φ → ∀ t, HasDerivAt (fun t => φ (y t)) (φ (A (y t))) t) ∧
    Linear (fun x : Raw 4 => x.vel 1) ∧ (A s.arr).vel 1 ≠ 0 ∧
    ∃ s', rk4Step (fun s => .ok (A s.arr)) 0.5 s = .ok s' := by
  obtain ⟨s, hs, -⟩ := exState 4
  obtain ⟨-, ha, hc⟩ := C80_new hs
  set v : Raw 4 := ⟨0, s.arr.vel, 0, 0, 0⟩ with hv
  set b : Raw 4 := ⟨s.arr.pos, 0, s.arr.att, s.arr.rate, s.arr.whl⟩ with hb
  refine ⟨s, fun x => ⟨0, x.vel, 0, 0, 0⟩, fun t => b + Real.exp t • v, ?_, ?_, ?_, ?_, ?_, ?_, ?_⟩
  · intro x y; apply Raw.ext <;> simp
  · intro c x; apply Raw.ext <;> simp
  · apply Raw.ext <;> simp [hb, hv]
  · intro φ hφ t
    have e : (⟨0, (b + Real.exp t • v).vel, 0, 0, 0⟩ : Raw 4) = Real.exp t • v := by
      apply Raw.ext <;> simp [hb, hv]
    simp only
    rw [e]
    simp only [hφ.add, hφ.smul]
    exact ((Real.hasDerivAt_exp t).mul_const (φ v)).const_add (φ b)
  · exact ⟨fun x y => by simp, fun c x => by simp⟩
  · rw [ha]; simp [exRaw]
  · have hadd : ∀ o : Raw 4, o.pos = 0 → ∃ s', s.add o = .ok s' := by
      intro o ho
      unfold SatState.add
      rw [hc]
      exact exMk _ _ (by rw [Dyn.add_pos', ho, add_zero, ha])
    unfold rk4Step
    obtain ⟨s2, e2⟩ := hadd (((0.5 : ℝ) / 2) • ⟨0, s.arr.vel, 0, 0, 0⟩) (by simp)
    simp only [e2]
    obtain ⟨s3, e3⟩ := hadd (((0.5 : ℝ) / 2) • ⟨0, s2.arr.vel, 0, 0, 0⟩) (by simp)
    simp only [e3]
    obtain ⟨s4, e4⟩ := hadd ((0.5 : ℝ) • ⟨0, s3.arr.vel, 0, 0, 0⟩) (by simp)
    simp only [e4]
    exact hadd _ (by simp)

end Adcs
