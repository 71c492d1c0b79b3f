import Verif.Props.Dynamics
import Verif.Props.JClock
import Mathlib.MeasureTheory.Integral.IntervalIntegral.FundThmCalculus

set_option autoImplicit false

/-! # C74, C75, C76: the integrator and the simulator interface -/

namespace Adcs

open Str Dyn Env Quat JDay Fr Sens
open scoped Matrix

/-! ## Specification of the number of steps -/

/-- `k` calls of `Integrator.update`, stopping at the first exception. -/
noncomputable def runs {n : ℕ} (f : SatState n → Py (Raw n)) : ℕ → Integ n → Py Unit × Integ n
  | 0, g => (.ok (), g)
  | k + 1, g =>
    match g.update f with
    | (.ok (), g') => runs f k g'
    | (.error e, g') => (.error e, g')

theorem update_dt {n : ℕ} {f : SatState n → Py (Raw n)} {g g' : Integ n} {r : Py Unit}
    (h : g.update f = (r, g')) : g'.dt = g.dt := by
  have : (g.update f).2.dt = g.dt := by
    unfold Integ.update
    split
    · rfl
    · dsimp only
      split
      · rfl
      · split
        · rfl
        · split
          · rfl
          · split
            · rfl
            · rfl
  rw [h] at this; exact this

theorem loopCond_iff (t d : ℝ) : loopCond t d ↔ t < d + 0.001 := by
  unfold loopCond
  constructor
  · rintro (h | h)
    · linarith
    · have := (abs_lt.1 h).2; linarith
  · intro h
    by_cases h1 : t < d
    · exact Or.inl h1
    · right; rw [abs_of_nonneg (by linarith)]; linarith

theorem loop_runs {n : ℕ} {f : SatState n → Py (Raw n)} {duration : ℝ} :
    ∀ (k : ℕ) (t : ℝ) (g : Integ n) (r : Py Unit × Integ n), 0 < g.dt →
      (∀ j : ℕ, j < k → t + j * g.dt < duration + 0.001) → duration + 0.001 ≤ t + k * g.dt →
      (Loop f duration t g r ↔ r = runs f k g) := by
  intro k
  induction k with
  | zero =>
    intro t g r hdt _ h2
    have hn : ¬ loopCond t duration := by rw [loopCond_iff]; push_cast at h2; linarith
    constructor
    · intro h
      cases h with
      | done _ => rfl
      | raise h' _ => exact absurd h' hn
      | step h' _ _ => exact absurd h' hn
    · rintro rfl; exact Loop.done hn
  | succ k ih =>
    intro t g r hdt h1 h2
    have hc : loopCond t duration := by
      rw [loopCond_iff]; have := h1 0 (by omega); simpa using this
    have hih : ∀ g' : Integ n, g'.dt = g.dt → ∀ r, Loop f duration (t + g.dt) g' r ↔ r = runs f k g' := by
      intro g' hg' r
      apply ih _ _ _ (by rw [hg']; exact hdt)
      · intro j hj
        have := h1 (j + 1) (by omega)
        push_cast at this
        rw [hg']; linarith
      · push_cast at h2; rw [hg']; linarith
    constructor
    · intro h
      cases h with
      | done h' => exact absurd hc h'
      | raise _ hu => simp only [runs, hu]
      | step _ hu hl =>
        simp only [runs, hu]
        exact (hih _ (update_dt hu) _).1 hl
    · rintro rfl
      rcases hu : g.update f with ⟨r, g'⟩
      cases r with
      | error e => simp only [runs, hu]; exact Loop.raise hc hu
      | ok u => simp only [runs, hu]; exact Loop.step hc hu ((hih _ (update_dt hu) _).2 rfl)

/-! ## C75: number of steps -/

/-- With a positive step, `integrate(duration)` performs `k` steps exactly when `k` steps are less than
the duration plus a millisecond, and `k + 1` are not. -/
theorem C75_steps {n : ℕ} (f : SatState n → Py (Raw n)) {duration : ℝ} {g : Integ n} {k : ℕ}
    (hdt : 0 < g.dt) (h1 : k = 0 ∨ k * g.dt < duration + 0.001) (h2 : duration + 0.001 ≤ (k + 1) * g.dt)
    (r : Py Unit × Integ n) : Integrates f duration g r ↔ r = runs f k g := by
  apply loop_runs k _ _ _ hdt
  · intro j hj
    rcases h1 with rfl | h1
    · omega
    · have : ((j : ℝ) + 1) ≤ k := by exact_mod_cast hj
      nlinarith
  · linarith

/-- A whole number of steps of at least a millisecond is done exactly. -/
theorem C75_whole {n : ℕ} (f : SatState n → Py (Raw n)) {g : Integ n} (hdt : 0.001 ≤ g.dt) (k : ℕ)
    (r : Py Unit × Integ n) : Integrates f (k * g.dt) g r ↔ r = runs f k g := by
  apply C75_steps f (by linarith)
  · exact Or.inr (by linarith)
  · linarith

/-- With a step of at least two milliseconds a duration up to a millisecond off does the same. -/
theorem C75_tolerance {n : ℕ} (f : SatState n → Py (Raw n)) {g : Integ n} (hdt : 0.002 ≤ g.dt) {k : ℕ}
    {duration : ℝ} (hd : |duration - k * g.dt| < 0.001) (r : Py Unit × Integ n) :
    Integrates f duration g r ↔ r = runs f k g := by
  have := abs_lt.1 hd
  apply C75_steps f (by linarith)
  · exact Or.inr (by linarith)
  · linarith

/-- With any positive step `integrate` ends, in exactly one way. -/
theorem C75_terminates {n : ℕ} (f : SatState n → Py (Raw n)) {g : Integ n} (hdt : 0 < g.dt)
    (duration : ℝ) : ∃ k, ∀ r, Integrates f duration g r ↔ r = runs f k g := by
  by_cases h : duration + 0.001 ≤ g.dt
  · exact ⟨0, C75_steps f hdt (Or.inl rfl) (by push_cast; linarith)⟩
  · push Not at h
    have hpos : 0 < (duration + 0.001) / g.dt := by
      apply div_pos (by linarith) hdt
    set m := ⌈(duration + 0.001) / g.dt⌉₊ with hm
    have hm0 : 0 < m := Nat.ceil_pos.2 hpos
    obtain ⟨k, hk⟩ : ∃ k, m = k + 1 := ⟨m - 1, by omega⟩
    refine ⟨k, C75_steps f hdt (Or.inr ?_) ?_⟩
    · have : ¬ (m ≤ k) := by omega
      rw [hm, Nat.ceil_le, not_le, lt_div_iff₀ hdt] at this
      exact this
    · have := Nat.le_ceil ((duration + 0.001) / g.dt)
      rw [← hm, hk, div_le_iff₀ hdt] at this
      push_cast at this; exact this

/-- A step shorter than a millisecond does more steps than asked for: half a millisecond, one more. -/
theorem C75_short_step {n : ℕ} (f : SatState n → Py (Raw n)) {g : Integ n} (hdt : g.dt = 0.0005) (k : ℕ)
    (r : Py Unit × Integ n) : Integrates f (k * g.dt) g r ↔ r = runs f (k + 1) g := by
  apply C75_steps f (by rw [hdt]; norm_num)
  · right; push_cast; rw [hdt]; linarith
  · push_cast; rw [hdt]; linarith

/-- With a step that is not positive, `integrate` of a non-negative duration raises. -/
theorem C75_bad_step {n : ℕ} (f : SatState n → Py (Raw n)) {g : Integ n} (hdt : g.dt ≤ 0) {duration : ℝ}
    (hd : 0 ≤ duration) : (∃ r, Integrates f duration g r) ∧
      ∀ r, Integrates f duration g r → r.1 ≠ .ok () := by
  have hc : loopCond g.dt duration := by rw [loopCond_iff]; linarith
  have hu : ∀ g', g.update f ≠ (.ok (), g') := by
    intro g' h
    obtain ⟨_, _, _, -, -, -, -, -, h⟩ := update_ok h
    unfold Gyro.propagate npSqrt at h
    rcases lt_or_eq_of_le hdt with h0 | h0
    · simp [h0] at h
    · simp [h0] at h
  rcases h : g.update f with ⟨r, g'⟩
  cases r with
  | ok u => exact absurd h (hu g')
  | error e =>
    refine ⟨⟨_, Loop.raise hc h⟩, ?_⟩
    intro r hr
    cases hr with
    | done h' => exact absurd hc h'
    | raise _ _ => simp
    | step _ h' _ => exact absurd h' (hu _)

theorem runs_add {n : ℕ} (f : SatState n → Py (Raw n)) (k m : ℕ) (g : Integ n) :
    runs f (k + m) g = match runs f k g with
      | (.ok (), g') => runs f m g'
      | (.error e, g') => (.error e, g') := by
  induction k generalizing g with
  | zero => simp [runs]
  | succ k ih =>
    rw [show k + 1 + m = (k + m) + 1 by omega]
    simp only [runs]
    rcases g.update f with ⟨r, g'⟩
    cases r with
    | ok u => exact ih g'
    | error e => rfl

theorem runs_dt {n : ℕ} (f : SatState n → Py (Raw n)) (k : ℕ) (g : Integ n) : (runs f k g).2.dt = g.dt := by
  induction k generalizing g with
  | zero => rfl
  | succ k ih =>
    simp only [runs]
    rcases h : g.update f with ⟨r, g'⟩
    cases r with
    | ok u => exact (ih g').trans (update_dt h)
    | error e => exact update_dt h

/-- Integrating `k` steps and then `m` more is integrating `k + m` steps. -/
theorem C75_compose {n : ℕ} (f : SatState n → Py (Raw n)) {g g' : Integ n} (hdt : 0.001 ≤ g.dt) (k m : ℕ)
    (h : Integrates f (k * g.dt) g (.ok (), g')) (r : Py Unit × Integ n) :
    Integrates f (m * g.dt) g' r ↔ Integrates f ((k + m) * g.dt) g r := by
  rw [C75_whole f hdt] at h
  have hg : g'.dt = g.dt := by have := runs_dt f k g; rw [← h] at this; exact this
  have e := C75_whole f hdt (k + m) r
  push_cast at e
  rw [e, runs_add, ← h, ← hg]
  exact C75_whole f (by rw [hg]; exact hdt) m r

/-- An exception in the first part is the exception of the whole. -/
theorem C75_compose_error {n : ℕ} (f : SatState n → Py (Raw n)) {g g' : Integ n} {e : Exc}
    (hdt : 0.001 ≤ g.dt) (k m : ℕ) (h : Integrates f (k * g.dt) g (.error e, g')) :
    Integrates f ((k + m) * g.dt) g (.error e, g') := by
  rw [C75_whole f hdt] at h
  have e := C75_whole f hdt (k + m) (.error e, g')
  push_cast at e
  rw [e, runs_add, ← h]

theorem rk4_ok {n : ℕ} {f : SatState n → Py (Raw n)} {dt : ℝ} {s s' : SatState n}
    (h : rk4Step f dt s = .ok s') : ∃ k1 k2 k3 k4 s2 s3 s4, f s = .ok k1 ∧
      s.add ((dt / 2) • k1) = .ok s2 ∧ f s2 = .ok k2 ∧ s.add ((dt / 2) • k2) = .ok s3 ∧ f s3 = .ok k3 ∧
      s.add (dt • k3) = .ok s4 ∧ f s4 = .ok k4 ∧
      s.add (dt • ((1 / 6 : ℝ) • (k1 + (2 : ℝ) • k2 + (2 : ℝ) • k3 + k4))) = .ok s' := by
  unfold rk4Step at h
  split at h
  · simp at h
  rename_i k1 h1
  split at h
  · simp at h
  rename_i s2 h2
  split at h
  · simp at h
  rename_i k2 h3
  split at h
  · simp at h
  rename_i s3 h4
  split at h
  · simp at h
  rename_i k3 h5
  split at h
  · simp at h
  rename_i s4 h6
  split at h
  · simp at h
  rename_i k4 h7
  exact ⟨k1, k2, k3, k4, s2, s3, s4, h1, h2, h3, h4, h5, h6, h7, h⟩

theorem add_ok {n : ℕ} {s s' : SatState n} {o : Raw n} (h : s.add o = .ok s') :
    s'.arr = s.arr + o ∧ s'.clock = s.clock ∧ s.clock ≠ none := by
  obtain ⟨-, h1, h2⟩ := mkState_consistent h
  obtain ⟨c, -, -, -, hc, -, -⟩ := mkState_ok.1 h
  exact ⟨h1, h2, by rw [hc]; simp⟩

/-- After `k` steps the clock has ticked `k` times by `dt`. -/
theorem C75_clock {n : ℕ} (f : SatState n → Py (Raw n)) {g g' : Integ n} {c : JClock} (k : ℕ)
    (hc : g.state.clock = some c) (h : runs f k g = (.ok (), g')) :
    ∃ c', g'.state.clock = some c' ∧ c.ticks (List.replicate k g.dt) = (.ok (), c') := by
  induction k generalizing g c with
  | zero =>
    obtain rfl : g = g' := by simpa [runs] using h
    exact ⟨c, hc, rfl⟩
  | succ k ih =>
    rcases hu : g.update f with ⟨r, g1⟩
    simp only [runs, hu] at h
    cases r with
    | error e => simp at h
    | ok u =>
      obtain ⟨next, c1, c2, h1, h2, h3, h4, h5, -⟩ := update_ok hu
      obtain ⟨k1, k2, k3, k4, s2, s3, s4, -, -, -, -, -, -, -, h6⟩ := rk4_ok h1
      have h7 := (add_ok h6).2.1
      rw [hc, h2] at h7
      obtain rfl := Option.some.inj h7
      have h8 : g1.state.clock = some c2 := (mkState_consistent h5).2.2
      obtain ⟨c', h9, h10⟩ := ih h8 h
      refine ⟨c', h9, ?_⟩
      rw [List.replicate_succ]
      simp only [JClock.ticks, h3]
      rw [← h4]; exact h10

/-- So with a step of whole microseconds the clock has advanced by the duration exactly. -/
theorem C75_time {n : ℕ} (f : SatState n → Py (Raw n)) {g g' : Integ n} {c : JClock} (k : ℕ) {us : ℤ}
    (hdt : 0.001 ≤ g.dt) (hus : g.dt * 1000000 = us) (hc : g.state.clock = some c)
    (h : Integrates f (k * g.dt) g (.ok (), g')) :
    ∃ c', g'.state.clock = some c' ∧ c'.datetime = c.datetime + k * us := by
  obtain ⟨c', h1, h2⟩ := C75_clock f k hc ((C75_whole f hdt k _).1 h).symm
  refine ⟨c', h1, ?_⟩
  clear h h1 hc
  induction k generalizing c with
  | zero =>
    obtain rfl : c = c' := by simpa [JClock.ticks] using h2
    simp
  | succ k ih =>
    rw [List.replicate_succ] at h2
    simp only [JClock.ticks] at h2
    rcases ht : c.tick g.dt with ⟨r, c1⟩
    rw [ht] at h2
    cases r with
    | error e => simp at h2
    | ok u =>
      rw [ih h2]
      unfold JClock.tick at ht
      rw [timedelta_whole hus] at ht
      simp only at ht
      split_ifs at ht
      · simp only [Prod.mk.injEq, true_and] at ht
        rw [← ht]
        push_cast; ring
      · simp at ht

/-! ## C74: what a step does -/

/-- With held commands the wheel speeds change by exactly `k dt` times the commanded acceleration in `k`
steps, whatever else happens. -/
theorem C74_wheels {hiFi : Bool} {sat : Satellite} {cur : Fin sat.nMt → ℝ} {accl : Fin sat.rw.n → ℝ}
    {g g' : Integ sat.rw.n} (k : ℕ)
    (h : runs (fun s => vectorField hiFi sat s cur accl) k g = (.ok (), g')) :
    g'.state.arr.whl = fun i => g.state.arr.whl i + k * g.dt * accl i := by
  induction k generalizing g with
  | zero =>
    obtain rfl : g = g' := by simpa [runs] using h
    funext i; simp
  | succ k ih =>
    rcases hu : g.update (fun s => vectorField hiFi sat s cur accl) with ⟨r, g1⟩
    simp only [runs, hu] at h
    cases r with
    | error e => simp at h
    | ok u =>
      obtain ⟨next, c1, c2, h1, -, -, h4, h5, -⟩ := update_ok hu
      obtain ⟨k1, k2, k3, k4, s2, s3, s4, a1, -, a2, -, a3, -, a4, h6⟩ := rk4_ok h1
      have w : ∀ {s d}, vectorField hiFi sat s cur accl = .ok d → d.whl = accl := by
        intro s d h
        obtain ⟨_, _, -, -, -, rfl⟩ := vectorField_eq h; rfl
      have e1 : g1.state.arr.whl = next.arr.whl := by rw [(mkState_consistent h5).2.1]
      rw [ih h, h4, e1, (add_ok h6).1]
      funext i
      simp only [add_whl, smul_whl, w a1, w a2, w a3, w a4, Pi.add_apply, Pi.smul_apply, smul_eq_mul]
      push_cast; ring

/-- For any linear equation of motion `x' = A x` a step is the fourth-order Taylor polynomial of the
solution. -/
theorem C74_linear {n : ℕ} {f : SatState n → Py (Raw n)} {A : Raw n → Raw n}
    (hadd : ∀ x y, A (x + y) = A x + A y) (hsmul : ∀ (c : ℝ) x, A (c • x) = c • A x)
    (hf : ∀ s, f s = .ok (A s.arr)) {dt : ℝ} {s s' : SatState n} (h : rk4Step f dt s = .ok s') :
    s'.arr = s.arr + dt • A s.arr + (dt ^ 2 / 2) • A (A s.arr) + (dt ^ 3 / 6) • A (A (A s.arr)) +
      (dt ^ 4 / 24) • A (A (A (A s.arr))) := by
  obtain ⟨k1, k2, k3, k4, s2, s3, s4, a1, b1, a2, b2, a3, b3, a4, h6⟩ := rk4_ok h
  rw [hf] at a1 a2 a3 a4
  obtain rfl := Except.ok.inj a1
  obtain rfl := Except.ok.inj a2
  obtain rfl := Except.ok.inj a3
  obtain rfl := Except.ok.inj a4
  rw [(add_ok h6).1, (add_ok b3).1, (add_ok b2).1, (add_ok b1).1]
  simp only [hadd, hsmul]
  apply Raw.ext <;> funext i <;>
    simp only [add_pos', smul_pos', add_vel, smul_vel, add_att, smul_att, add_rate, smul_rate, add_whl,
      smul_whl, Pi.add_apply, Pi.smul_apply, smul_eq_mul] <;> ring

/-- A step integrates cubic polynomials of time exactly: when the position moves with a velocity that is
a cubic polynomial of a wheel's speed and that wheel has constant acceleration, the position moves by the
integral. -/
theorem C74_quadrature {n : ℕ} {f : SatState n → Py (Raw n)} (j : Fin n) (v0 v1 v2 v3 : V3) {a : ℝ}
    (hf : ∀ s d, f s = .ok d → d.whl j = a ∧ d.pos = v0 + s.arr.whl j • v1 + s.arr.whl j ^ 2 • v2 +
      s.arr.whl j ^ 3 • v3) {dt : ℝ} {s s' : SatState n} (h : rk4Step f dt s = .ok s') :
    ∀ i, s'.arr.pos i = s.arr.pos i + ∫ t in (0 : ℝ)..dt, (v0 i + (s.arr.whl j + a * t) * v1 i +
      (s.arr.whl j + a * t) ^ 2 * v2 i + (s.arr.whl j + a * t) ^ 3 * v3 i) := by
  obtain ⟨k1, k2, k3, k4, s2, s3, s4, a1, b1, a2, b2, a3, b3, a4, h6⟩ := rk4_ok h
  have e2 : s2.arr.whl j = s.arr.whl j + dt / 2 * a := by
    rw [(add_ok b1).1]; simp [(hf _ _ a1).1]
  have e3 : s3.arr.whl j = s.arr.whl j + dt / 2 * a := by
    rw [(add_ok b2).1]; simp [(hf _ _ a2).1]
  have e4 : s4.arr.whl j = s.arr.whl j + dt * a := by
    rw [(add_ok b3).1]; simp [(hf _ _ a3).1]
  intro i
  set w := s.arr.whl j
  have hint : ∫ t in (0 : ℝ)..dt, (v0 i + (w + a * t) * v1 i + (w + a * t) ^ 2 * v2 i +
      (w + a * t) ^ 3 * v3 i) =
      dt * v0 i + (w * dt + a * dt ^ 2 / 2) * v1 i +
        (w ^ 2 * dt + w * a * dt ^ 2 + a ^ 2 * dt ^ 3 / 3) * v2 i +
        (w ^ 3 * dt + 3 * w ^ 2 * a * dt ^ 2 / 2 + w * a ^ 2 * dt ^ 3 + a ^ 3 * dt ^ 4 / 4) * v3 i := by
    rw [intervalIntegral.integral_eq_sub_of_hasDerivAt (f := fun t => t * v0 i +
        (w * t + a * t ^ 2 / 2) * v1 i + (w ^ 2 * t + w * a * t ^ 2 + a ^ 2 * t ^ 3 / 3) * v2 i +
        (w ^ 3 * t + 3 * w ^ 2 * a * t ^ 2 / 2 + w * a ^ 2 * t ^ 3 + a ^ 3 * t ^ 4 / 4) * v3 i)]
    · simp
    · intro t _
      have p1 := hasDerivAt_id' t
      have p2 := p1.fun_pow 2
      have p3 := p1.fun_pow 3
      have p4 := p1.fun_pow 4
      have := (((p1.mul_const (v0 i)).fun_add (((p1.const_mul w).fun_add
        ((p2.const_mul a).div_const 2)).mul_const (v1 i))).fun_add ((((p1.const_mul (w ^ 2)).fun_add
        (p2.const_mul (w * a))).fun_add ((p3.const_mul (a ^ 2)).div_const 3)).mul_const (v2 i))).fun_add
        (((((p1.const_mul (w ^ 3)).fun_add ((p2.const_mul (3 * w ^ 2 * a)).div_const 2)).fun_add
        (p3.const_mul (w * a ^ 2))).fun_add ((p4.const_mul (a ^ 3)).div_const 4)).mul_const (v3 i))
      refine this.congr_deriv ?_
      simp only [Nat.reduceSub, pow_one]
      push_cast
      ring
    · apply Continuous.intervalIntegrable
      fun_prop
  rw [hint, (add_ok h6).1]
  simp only [add_pos', smul_pos', (hf _ _ a1).2, (hf _ _ a2).2, (hf _ _ a3).2, (hf _ _ a4).2, e2, e3, e4,
    Pi.add_apply, Pi.smul_apply, smul_eq_mul]
  ring

/-! ### An example run -/

/-- A field that only spins the wheels up. -/
def exSpin (n : ℕ) : Raw n := ⟨0, 0, 0, 0, fun _ => 2⟩

theorem exMk {n : ℕ} (a : Raw n) (c : JClock) (h : a.pos = (exRaw n).pos) : ∃ s, mkState a (some c) = .ok s := by
  have hp : a.pos = ![6800000, 0, 0] := h
  obtain ⟨s, hs, -⟩ := mkState_equator a c (by simp [hp]) (by simp [hp]) (by
    rw [hp]
    simp only [Matrix.cons_val_zero, Matrix.cons_val_one]
    rw [show (6800000 : ℝ) ^ 2 + 0 ^ 2 = 6800000 ^ 2 by ring, Real.sqrt_sq (by norm_num)]
    have := wgsE2_lt; have := wgsE2_pos
    unfold wgsA; nlinarith)
  exact ⟨s, hs⟩

theorem exRun (n : ℕ) (gyro : Gyro) (h1 : 0 ≤ gyro.arwVar) (h2 : 0 ≤ gyro.rrwVar) (rng : Rng) :
    ∃ s g', SatState.new (exRaw n) (some exClock) = .ok s ∧
      runs (fun _ => .ok (exSpin n)) 1 ⟨s, 0.05, gyro, rng⟩ = (.ok (), g') := by
  obtain ⟨s, hs, -⟩ := exState n
  obtain ⟨-, ha, hc⟩ := C80_new hs
  have hadd : ∀ o : Raw n, o.pos = 0 → ∃ s', s.add o = .ok s' := by
    intro o ho
    unfold SatState.add
    rw [hc]
    exact exMk _ _ (by rw [add_pos', ho, add_zero, ha])
  obtain ⟨s2, e2⟩ := hadd (((0.05 : ℝ) / 2) • exSpin n) (by simp [exSpin])
  obtain ⟨s4, e4⟩ := hadd ((0.05 : ℝ) • exSpin n) (by simp [exSpin])
  obtain ⟨s5, e5⟩ := hadd ((0.05 : ℝ) • ((1 / 6 : ℝ) • (exSpin n + (2 : ℝ) • exSpin n +
    (2 : ℝ) • exSpin n + exSpin n))) (by simp [exSpin])
  have hrk : rk4Step (fun _ => .ok (exSpin n)) 0.05 s = .ok s5 := by
    unfold rk4Step; simp only [e2, e4, e5]
  obtain ⟨b1, b2, -⟩ := add_ok e5
  have ht : (exClock.tick 0.05).1 = .ok () := by
    unfold JClock.tick
    rw [timedelta_whole (k := 50000) (by norm_num)]
    have : InRange (exClock.datetime + 50000) := by
      unfold exClock InRange usDay; norm_num
    simp only [if_pos this]
  rcases hcl : exClock.tick 0.05 with ⟨r, c'⟩
  rw [hcl] at ht; simp only at ht; subst ht
  obtain ⟨s6, e6⟩ := exMk (n := n) { s5.arr with att := Vec.normalizeV s5.arr.att } c' (by
    simp [b1, exSpin, ha])
  obtain ⟨gy, hgy⟩ : ∃ r, gyro.propagate 0.05 rng = .ok r := by
    unfold Gyro.propagate npSqrt
    have : ¬ (gyro.arwVar / 0.05 + gyro.rrwVar * 0.05 < 0) := by
      rw [not_lt]; positivity
    norm_num at this ⊢
    rw [if_neg (by linarith)]
    exact ⟨_, _, rfl⟩
  refine ⟨s, ⟨s6, 0.05, gy.1, gy.2⟩, hs, ?_⟩
  have hu : (⟨s, 0.05, gyro, rng⟩ : Integ n).update (fun _ => .ok (exSpin n)) =
      (.ok (), ⟨s6, 0.05, gy.1, gy.2⟩) := by
    unfold Integ.update
    simp only [hrk, b2, hc, hcl, SatState.update, e6, hgy]
  simp only [runs, hu]

example (n : ℕ) (gyro : Gyro) (h1 : 0 ≤ gyro.arwVar) (h2 : 0 ≤ gyro.rrwVar) (rng : Rng) :
    ∃ s g', SatState.new (exRaw n) (some exClock) = .ok s ∧
      Integrates (fun _ => .ok (exSpin n)) (1 * 0.05) ⟨s, 0.05, gyro, rng⟩ (.ok (), g') := by
  obtain ⟨s, g', hs, hr⟩ := exRun n gyro h1 h2 rng
  refine ⟨s, g', hs, ?_⟩
  have := (C75_whole (fun _ => .ok (exSpin n)) (g := ⟨s, 0.05, gyro, rng⟩) (by norm_num) 1 (.ok (), g')).2
    hr.symm
  simpa using this

/-! ## C76: the step of the simulator -/

/-- The full claim: the simulator steps with the `dt` it is given, and `propagate(duration)`, with
`duration` a whole number of those steps, advances the clock by `duration`. -/
def SimulatorUsesStep : Prop := ∀ (n : ℕ) (f : SatState n → Py (Raw n)) (suite : Suite n) (s : SatState n)
  (c : JClock) (dt : ℝ) (us : ℤ) (k : ℕ) (gyro : Gyro) (rng : Rng) (m : Measurements n) (g' : Integ n),
  s.clock = some c → 0.001 ≤ dt → dt * 1000000 = us →
  SimPropagate f suite (k * dt) (simInit s dt gyro rng) (.ok m) g' →
  ∃ c', g'.state.clock = some c' ∧ c'.datetime = c.datetime + k * us

/-- It is false: the argument is replaced by 0.05, and asking for one step of 0.02 s does nothing. -/
theorem C76_step_fails : ¬ SimulatorUsesStep := by
  intro H
  set z3 : Sensor 3 := ⟨0, 0⟩
  set gy : Gyro := ⟨z3, 0, 0, 0, 0, 0, 0, 0⟩
  set suite : Suite 4 := ⟨z3, z3, ⟨0, 0⟩, gy, ⟨0, 0⟩, z3, z3⟩
  obtain ⟨s, hs, -⟩ := exState 4
  have hx : (exRaw 4).pos ≠ Orb.AU • Orb.earthToSun exClock.julianDate :=
    exRaw_not_sun (by
      have : npNorm (exRaw 4).pos = 6800000 := by simp [exRaw, npNorm, Fin.sum_univ_three]
      rw [this]; norm_num) _
  obtain ⟨S, -, hm⟩ := C33_noise_free hs hx ({ suite with gyro := gy } : Suite 4) (fun _ => 0)
  have hc := (C80_new hs).2.2
  have hi : Integrates (fun _ => .ok (exSpin 4)) ((1 : ℕ) * 0.02) (simInit s 0.02 gy fun _ => 0)
      (.ok (), simInit s 0.02 gy fun _ => 0) := by
    refine (C75_steps _ (k := 0) ?_ (Or.inl rfl) ?_ _).2 rfl
    · simp only [simInit]; norm_num
    · simp only [simInit]; norm_num
  obtain ⟨c', h1, h2⟩ := H 4 (fun _ => .ok (exSpin 4)) suite s exClock 0.02 20000 1 gy (fun _ => 0) _ _ hc
    (by norm_num) (by norm_num) (SimPropagate.out hi hm)
  have h3 : s.clock = some c' := h1
  rw [hc] at h3
  obtain rfl := Option.some.inj h3
  omega

/-- What holds: whatever step was given, `propagate` of `k` times 0.05 s advances the clock by `k` times
0.05 s and returns the noise-free measurement of the new state. Missing: the step given by the caller. -/
theorem C76_step_partial {n : ℕ} (f : SatState n → Py (Raw n)) {suite : Suite n} {s : SatState n}
    {c : JClock} {dt : ℝ} {k : ℕ} {gyro : Gyro} {rng : Rng} {m : Measurements n} {g' : Integ n}
    (hc : s.clock = some c)
    (h : SimPropagate f suite (k * 0.05) (simInit s dt gyro rng) (.ok m) g') :
    (∃ c', g'.state.clock = some c' ∧ c'.datetime = c.datetime + k * 50000) ∧
    ∃ rng0, ({ suite with gyro := g'.gyro } : Suite n).measurement g'.state false rng0 = .ok (m, g'.rng) := by
  cases h with
  | out hi hm =>
    refine ⟨?_, _, hm⟩
    obtain ⟨c', h1, h2⟩ := C75_time f k (us := 50000) (g := simInit s dt gyro rng)
      (by simp only [simInit]; norm_num) (by simp only [simInit]; norm_num) hc hi
    exact ⟨c', h1, h2⟩

end Adcs
