import Verif.Props.PosFilter
import Verif.Props.Orbit
import Mathlib.Analysis.SpecificLimits.Normed

set_option autoImplicit false

/-! # C144: the position filter between fixes -/

namespace Adcs

open Spec Vec Dyn JDay Fr Obs Obs.Pos Env
open scoped Matrix

/-- Calls of `propagate` for a list of durations. -/
noncomputable def Spec.predict {n : ℕ} (k : Pos.Kalman n) (dts : List ℝ) : Py Unit × Pos.Kalman n :=
  posRun k (dts.map PosEvent.propagate)

/-- What one step multiplies the angular momentum by. -/
noncomputable def Spec.stepFactor (dt : ℝ) : ℝ := 1 - 1.618e-10 * dt + 0.0834 * (1.28e-6) ^ 2 * dt ^ 4

/-- What one step does to position and velocity. -/
noncomputable def predPos (dt : ℝ) (x v : V3) : V3 :=
  (1 - 0.5 * Pos.a * dt ^ 2) • x + (dt - 0.5 * Pos.b * dt ^ 2 - 0.1666 * Pos.a * dt * dt ^ 2) • v
noncomputable def predVel (dt : ℝ) (x v : V3) : V3 :=
  (-Pos.a * dt) • x + (1 - 0.5 * Pos.a * dt ^ 2 - Pos.b * dt) • v

theorem propagate_eq {n : ℕ} {k : Pos.Kalman n} (h : k.output.1 ≠ 0) (dt : ℝ) :
    (k.propagate dt).1 = .ok () ∧ (k.propagate dt).2.output = (predPos dt k.output.1 k.output.2,
      predVel dt k.output.1 k.output.2) := by
  have hr := npNorm_pos h
  have hg : ∃ J, gradA k.mu (k.x ∘ Sum.inl) = .ok J := by
    change ∃ J, gradA k.mu k.output.1 = .ok J
    simp only [gradA, npDiv, if_neg (pow_pos hr 3).ne', if_neg (pow_pos hr 5).ne']
    exact ⟨_, rfl⟩
  obtain ⟨J, hJ⟩ := hg
  simp only [Kalman.propagate, Kalman.stateTransition, Kalman.fContinuous, hJ]
  refine ⟨trivial, ?_⟩
  have e : aDiscrete dt *ᵥ k.x = Sum.elim (predPos dt k.output.1 k.output.2) (predVel dt k.output.1 k.output.2) := by
    have hk : k.x = Sum.elim k.output.1 k.output.2 := by
      funext i; rcases i with i | i <;> rfl
    conv_lhs => rw [hk]
    simp only [aDiscrete, Matrix.fromBlocks_mulVec, Sum.elim_comp_inl, Sum.elim_comp_inr, Matrix.smul_mulVec,
      Matrix.one_mulVec]
    rfl
  unfold Kalman.output
  rw [e]
  rfl

theorem stepFactor_pos (dt : ℝ) : 0 < Spec.stepFactor dt := by
  unfold Spec.stepFactor
  rcases le_or_gt dt 1e9 with h | h
  · have : 0 ≤ 0.0834 * (1.28e-6) ^ 2 * dt ^ 4 := by positivity
    norm_num at h ⊢
    nlinarith
  · have h0 : (0 : ℝ) < dt := by norm_num at h; linarith
    have h3 : (1e27 : ℝ) ≤ dt ^ 3 := by
      have : (1e9 : ℝ) ^ 3 ≤ dt ^ 3 := pow_le_pow_left₀ (by norm_num) h.le 3
      norm_num at this ⊢; exact this
    have h4 : 1e27 * dt ≤ dt ^ 4 := by
      rw [show dt ^ 4 = dt ^ 3 * dt by ring]
      exact mul_le_mul_of_nonneg_right h3 h0.le
    norm_num at h4 ⊢
    nlinarith

theorem pred_momentum (dt : ℝ) (x v : V3) :
    Spec.orbitMomentum (predPos dt x v) (predVel dt x v) = Spec.stepFactor dt • Spec.orbitMomentum x v := by
  apply vec3_ext <;>
  · simp only [Spec.orbitMomentum, predPos, predVel, Spec.stepFactor, Pos.a, Pos.b, Pi.add_apply, Pi.smul_apply,
      smul_eq_mul, Matrix.cons_val_zero, Matrix.cons_val_one, cons3_2]
    ring

theorem pos_ne_zero {x v : V3} (h : Spec.orbitMomentum x v ≠ 0) : x ≠ 0 := by
  rintro rfl
  apply h
  apply vec3_ext <;> simp [Spec.orbitMomentum]

theorem predict_cons {n : ℕ} {k : Pos.Kalman n} (h : k.output.1 ≠ 0) (dt : ℝ) (dts : List ℝ) :
    Spec.predict k (dt :: dts) = Spec.predict (k.propagate dt).2 dts := by
  obtain ⟨h1, -⟩ := propagate_eq h dt
  unfold Spec.predict
  simp only [List.map_cons, posRun, PosEvent.apply]
  rcases hp : k.propagate dt with ⟨r, k'⟩
  rw [hp] at h1
  simp only at h1
  subst h1
  rfl

/-- The prediction never leaves the orbital plane, keeps the sense of the revolution and never fails: after any
calls of `propagate`, whatever their durations, the angular momentum is a positive multiple of what it was. -/
theorem C144_plane {n : ℕ} (k : Pos.Kalman n) (h : Spec.orbitMomentum k.output.1 k.output.2 ≠ 0) (dts : List ℝ) :
    (Spec.predict k dts).1 = .ok () ∧
    Spec.orbitMomentum (Spec.predict k dts).2.output.1 (Spec.predict k dts).2.output.2 =
      (dts.map Spec.stepFactor).prod • Spec.orbitMomentum k.output.1 k.output.2 ∧
    0 < (dts.map Spec.stepFactor).prod := by
  induction dts generalizing k with
  | nil => exact ⟨rfl, by simp [Spec.predict, posRun], by simp⟩
  | cons dt dts ih =>
    have hx := pos_ne_zero h
    obtain ⟨-, ho⟩ := propagate_eq hx dt
    have hm : Spec.orbitMomentum (k.propagate dt).2.output.1 (k.propagate dt).2.output.2 =
        Spec.stepFactor dt • Spec.orbitMomentum k.output.1 k.output.2 := by
      rw [ho]; exact pred_momentum dt _ _
    have hf := stepFactor_pos dt
    obtain ⟨i1, i2, i3⟩ := ih (k.propagate dt).2 (by rw [hm]; exact smul_ne_zero hf.ne' h)
    rw [predict_cons hx]
    refine ⟨i1, ?_, ?_⟩
    · rw [i2, hm, smul_smul, List.map_cons, List.prod_cons, mul_comm]
    · rw [List.map_cons, List.prod_cons]; exact mul_pos hf i3

/-- The form that a step of duration `dt` multiplies by `stepFactor dt`. -/
noncomputable def predForm (dt : ℝ) (x v : V3) : ℝ :=
  Pos.a * (x ⬝ᵥ x) + Pos.b * (x ⬝ᵥ v) + (1 - 0.5 * Pos.b * dt - 0.1666 * Pos.a * dt ^ 2) * (v ⬝ᵥ v)

theorem predForm_step (dt : ℝ) (x v : V3) :
    predForm dt (predPos dt x v) (predVel dt x v) = Spec.stepFactor dt * predForm dt x v := by
  simp only [predForm, predPos, predVel, Spec.stepFactor, Pos.a, Pos.b, add_dotProduct, dotProduct_add,
    smul_dotProduct, dotProduct_smul, smul_eq_mul, dotProduct_comm v x]
  ring

theorem predict_form {n : ℕ} (dt : ℝ) (N : ℕ) (k : Pos.Kalman n)
    (h : Spec.orbitMomentum k.output.1 k.output.2 ≠ 0) :
    predForm dt (Spec.predict k (List.replicate N dt)).2.output.1 (Spec.predict k (List.replicate N dt)).2.output.2 =
      Spec.stepFactor dt ^ N * predForm dt k.output.1 k.output.2 := by
  induction N generalizing k with
  | zero => simp [Spec.predict, posRun]
  | succ N ih =>
    have hx := pos_ne_zero h
    obtain ⟨-, ho⟩ := propagate_eq hx dt
    have hm : Spec.orbitMomentum (k.propagate dt).2.output.1 (k.propagate dt).2.output.2 =
        Spec.stepFactor dt • Spec.orbitMomentum k.output.1 k.output.2 := by
      rw [ho]; exact pred_momentum dt _ _
    rw [List.replicate_succ, predict_cons hx, ih _ (by rw [hm]; exact smul_ne_zero (stepFactor_pos dt).ne' h), ho]
    simp only
    rw [predForm_step, pow_succ]; ring

/-- Specification: energy of the oscillator with the filter's constant `a` (twice, per mass). -/
noncomputable def Spec.oscEnergy (x v : V3) : ℝ := 1.28e-6 * npNorm x ^ 2 + npNorm v ^ 2

theorem dot_self_norm (x : V3) : x ⬝ᵥ x = npNorm x ^ 2 := (npNorm_sq_dot x).symm

theorem cross_small (x v : V3) : |1.618e-10 * (x ⬝ᵥ v)| ≤ 1e-7 * Spec.oscEnergy x v := by
  have h := dot_bound x v
  rw [abs_mul, abs_of_pos (by norm_num : (0 : ℝ) < 1.618e-10)]
  have h1 : (1.618e-10 : ℝ) * |x ⬝ᵥ v| ≤ 1.618e-10 * (npNorm x * npNorm v) := by gcongr
  refine h1.trans ?_
  unfold Spec.oscEnergy
  generalize npNorm x = r at *
  generalize npNorm v = s at *
  norm_num
  nlinarith [sq_nonneg (r / 1000 - s), sq_nonneg r, sq_nonneg s]

theorem predForm_short {dt : ℝ} (h0 : 0 < dt) (h1 : dt ≤ 10.6) (x v : V3) :
    0.9999 * Spec.oscEnergy x v ≤ predForm dt x v ∧ predForm dt x v ≤ 1.0001 * Spec.oscEnergy x v := by
  have hc := abs_le.1 (cross_small x v)
  unfold predForm Pos.a Pos.b
  rw [dot_self_norm, dot_self_norm]
  have hr := sq_nonneg (npNorm x)
  have hs := sq_nonneg (npNorm v)
  generalize x ⬝ᵥ v = c at *
  unfold Spec.oscEnergy at *
  generalize npNorm x ^ 2 = r at *
  generalize npNorm v ^ 2 = s at *
  have hk : 0 ≤ 0.5 * 1.618e-10 * dt + 0.1666 * 1.28e-6 * dt ^ 2 ∧
      0.5 * 1.618e-10 * dt + 0.1666 * 1.28e-6 * dt ^ 2 ≤ 5e-5 := by
    constructor
    · positivity
    · norm_num at h1 ⊢; nlinarith
  generalize hK : 0.5 * 1.618e-10 * dt + 0.1666 * 1.28e-6 * dt ^ 2 = K at hk
  have e : 1.28e-6 * r + 1.618e-10 * c + (1 - 0.5 * 1.618e-10 * dt - 0.1666 * 1.28e-6 * dt ^ 2) * s
      = 1.28e-6 * r + 1.618e-10 * c + s - K * s := by rw [← hK]; ring
  rw [e]
  have k1 := mul_nonneg hk.1 hs
  have k2 := mul_le_mul_of_nonneg_right hk.2 hs
  norm_num at *
  constructor <;> linarith

theorem predForm_long {dt : ℝ} (h0 : 0 < dt) (h1 : dt ≤ 2000) (x v : V3) :
    0.1 * Spec.oscEnergy x v ≤ predForm dt x v ∧ predForm dt x v ≤ 2 * Spec.oscEnergy x v := by
  have hc := abs_le.1 (cross_small x v)
  unfold predForm Pos.a Pos.b
  rw [dot_self_norm, dot_self_norm]
  have hr := sq_nonneg (npNorm x)
  have hs := sq_nonneg (npNorm v)
  generalize x ⬝ᵥ v = c at *
  unfold Spec.oscEnergy at *
  generalize npNorm x ^ 2 = r at *
  generalize npNorm v ^ 2 = s at *
  have hk : 0 ≤ 0.5 * 1.618e-10 * dt + 0.1666 * 1.28e-6 * dt ^ 2 ∧
      0.5 * 1.618e-10 * dt + 0.1666 * 1.28e-6 * dt ^ 2 ≤ 0.86 := by
    constructor
    · positivity
    · norm_num at h1 ⊢; nlinarith
  generalize hK : 0.5 * 1.618e-10 * dt + 0.1666 * 1.28e-6 * dt ^ 2 = K at hk
  have e : 1.28e-6 * r + 1.618e-10 * c + (1 - 0.5 * 1.618e-10 * dt - 0.1666 * 1.28e-6 * dt ^ 2) * s
      = 1.28e-6 * r + 1.618e-10 * c + s - K * s := by rw [← hK]; ring
  rw [e]
  have k1 := mul_nonneg hk.1 hs
  have k2 := mul_le_mul_of_nonneg_right hk.2 hs
  norm_num at *
  constructor <;> linarith

theorem stepFactor_short {dt : ℝ} (h0 : 0 < dt) (h1 : dt ≤ 10.5) : Spec.stepFactor dt < 1 := by
  unfold Spec.stepFactor
  have h3 : dt ^ 3 ≤ 10.5 ^ 3 := pow_le_pow_left₀ h0.le h1 3
  have h4 : dt ^ 4 ≤ 10.5 ^ 3 * dt := by
    rw [show dt ^ 4 = dt ^ 3 * dt by ring]
    exact mul_le_mul_of_nonneg_right h3 h0.le
  norm_num at h4 ⊢
  nlinarith

theorem stepFactor_long {dt : ℝ} (h1 : 10.6 ≤ dt) : 1 < Spec.stepFactor dt := by
  unfold Spec.stepFactor
  have h0 : 0 < dt := by norm_num at h1; linarith
  have h3 : 10.6 ^ 3 ≤ dt ^ 3 := pow_le_pow_left₀ (by norm_num) h1 3
  have h4 : 10.6 ^ 3 * dt ≤ dt ^ 4 := by
    rw [show dt ^ 4 = dt ^ 3 * dt by ring]
    exact mul_le_mul_of_nonneg_right h3 h0.le
  norm_num at h4 ⊢
  nlinarith

/-- With steps of up to 10.5 s the prediction stays bounded for ever: after `N` steps its energy is what it was
times the `N`-th power of a factor below 1, to 3 parts in 10000. -/
theorem C144_bounded {n : ℕ} (k : Pos.Kalman n) (h : Spec.orbitMomentum k.output.1 k.output.2 ≠ 0) {dt : ℝ}
    (h0 : 0 < dt) (h1 : dt ≤ 10.5) (N : ℕ) :
    (Spec.predict k (List.replicate N dt)).1 = .ok () ∧ 0 < Spec.stepFactor dt ∧ Spec.stepFactor dt < 1 ∧
    0.9997 * (Spec.stepFactor dt ^ N * Spec.oscEnergy k.output.1 k.output.2) ≤
      Spec.oscEnergy (Spec.predict k (List.replicate N dt)).2.output.1 (Spec.predict k (List.replicate N dt)).2.output.2 ∧
    Spec.oscEnergy (Spec.predict k (List.replicate N dt)).2.output.1 (Spec.predict k (List.replicate N dt)).2.output.2 ≤
      1.0003 * (Spec.stepFactor dt ^ N * Spec.oscEnergy k.output.1 k.output.2) := by
  have hf := stepFactor_pos dt
  have h1' : dt ≤ 10.6 := by norm_num at h1 ⊢; linarith
  refine ⟨(C144_plane k h _).1, hf, stepFactor_short h0 h1, ?_, ?_⟩
  all_goals
    have e := predict_form dt N k h
    obtain ⟨a1, a2⟩ := predForm_short h0 h1' k.output.1 k.output.2
    obtain ⟨b1, b2⟩ := predForm_short h0 h1' (Spec.predict k (List.replicate N dt)).2.output.1
      (Spec.predict k (List.replicate N dt)).2.output.2
    have hp : 0 < Spec.stepFactor dt ^ N := pow_pos hf N
    rw [e] at b1 b2
    have c1 := mul_le_mul_of_nonneg_left a1 hp.le
    have c2 := mul_le_mul_of_nonneg_left a2 hp.le
    have hE : 0 ≤ Spec.stepFactor dt ^ N * Spec.oscEnergy k.output.1 k.output.2 := by
      unfold Spec.oscEnergy; positivity
    generalize Spec.stepFactor dt ^ N = F at *
    generalize Spec.oscEnergy k.output.1 k.output.2 = E at *
    norm_num at *
    nlinarith

/-- With steps between 10.6 s and 2000 s it grows beyond all bounds. -/
theorem C144_diverges {n : ℕ} (k : Pos.Kalman n) (h : Spec.orbitMomentum k.output.1 k.output.2 ≠ 0) {dt : ℝ}
    (h0 : 10.6 ≤ dt) (h1 : dt ≤ 2000) :
    (∀ N, (Spec.predict k (List.replicate N dt)).1 = .ok ()) ∧
    Filter.Tendsto (fun N => Spec.oscEnergy (Spec.predict k (List.replicate N dt)).2.output.1
      (Spec.predict k (List.replicate N dt)).2.output.2) Filter.atTop Filter.atTop := by
  refine ⟨fun N => (C144_plane k h _).1, ?_⟩
  have hd0 : 0 < dt := by norm_num at h0; linarith
  have hE : 0 < Spec.oscEnergy k.output.1 k.output.2 := by
    have := npNorm_pos (pos_ne_zero h)
    unfold Spec.oscEnergy; positivity
  have key : ∀ N, 0.05 * Spec.oscEnergy k.output.1 k.output.2 * Spec.stepFactor dt ^ N ≤
      Spec.oscEnergy (Spec.predict k (List.replicate N dt)).2.output.1
        (Spec.predict k (List.replicate N dt)).2.output.2 := by
    intro N
    have e := predict_form dt N k h
    obtain ⟨a1, -⟩ := predForm_long hd0 h1 k.output.1 k.output.2
    obtain ⟨-, b2⟩ := predForm_long hd0 h1 (Spec.predict k (List.replicate N dt)).2.output.1
      (Spec.predict k (List.replicate N dt)).2.output.2
    have hp : 0 < Spec.stepFactor dt ^ N := pow_pos (stepFactor_pos dt) N
    rw [e] at b2
    have c1 := mul_le_mul_of_nonneg_left a1 hp.le
    generalize Spec.stepFactor dt ^ N = F at *
    generalize Spec.oscEnergy k.output.1 k.output.2 = E at *
    norm_num at *
    nlinarith
  exact Filter.tendsto_atTop_mono key ((tendsto_pow_atTop_atTop_of_one_lt (stepFactor_long h0)).const_mul_atTop
    (by positivity))

theorem npNorm_comb {s t : ℝ} (x v : V3) : npNorm (s • x + t • v) ≤ |s| * npNorm x + |t| * npNorm v := by
  have h0 : 0 ≤ |s| * npNorm x + |t| * npNorm v :=
    add_nonneg (mul_nonneg (abs_nonneg s) (npNorm_nonneg x)) (mul_nonneg (abs_nonneg t) (npNorm_nonneg v))
  refine abs_le_of_sq_le_sq' ?_ h0 |>.2
  rw [npNorm_sq_dot, npDot_eq_dotProduct]
  simp only [add_dotProduct, dotProduct_add, smul_dotProduct, dotProduct_smul, smul_eq_mul, dotProduct_comm v x,
    dot_self_norm]
  have h1 : s * t * (x ⬝ᵥ v) ≤ |s| * |t| * (npNorm x * npNorm v) := by
    refine (le_abs_self _).trans ?_
    rw [abs_mul, abs_mul]
    exact mul_le_mul_of_nonneg_left (dot_bound x v) (by positivity)
  have h2 := sq_abs s
  have h3 := sq_abs t
  nlinarith

/-- On the circular orbit for which the filter's constants are made (`mu / r³ = 1.28e-6`), a prediction from the
exact state over up to 10 s is within micrometres: the exact motion is a solution of the equation of motion, and
the errors in position and velocity are at most `2e-6 (dt² + dt⁴)` m and `2e-6 (dt + dt³)` m/s. -/
theorem C144_accuracy {n : ℕ} (k : Pos.Kalman n) (hr : 1.28e-6 * npNorm k.output.1 ^ 3 = Spec.mu)
    (hv : npNorm k.output.2 ^ 2 = 1.28e-6 * npNorm k.output.1 ^ 2) (hxv : k.output.1 ⬝ᵥ k.output.2 = 0) :
    ∃ x v : ℝ → V3, x 0 = k.output.1 ∧ v 0 = k.output.2 ∧ (∀ lo hi, Spec.Orbit false x v lo hi) ∧
      ∀ dt, 0 ≤ dt → dt ≤ 10 → (k.propagate dt).1 = .ok () ∧
        npNorm ((k.propagate dt).2.output.1 - x dt) ≤ 2e-6 * (dt ^ 2 + dt ^ 4) ∧
        npNorm ((k.propagate dt).2.output.2 - v dt) ≤ 2e-6 * (dt + dt ^ 3) := by
  have hμ : 0 < Spec.mu := mu_eq ▸ MU_pos
  set x0 := k.output.1 with hx0
  set v0 := k.output.2 with hv0
  have hr0 : 0 < npNorm x0 := by
    refine lt_of_le_of_ne (npNorm_nonneg _) fun h0 => ?_
    rw [← h0] at hr
    norm_num at hr; linarith
  have hne : k.output.1 ≠ 0 := fun h0 => hr0.ne' (npNorm_eq_zero.2 h0)
  set w : ℝ := Real.sqrt 1.28e-6 with hw
  have hw2 : w ^ 2 = 1.28e-6 := Real.sq_sqrt (by norm_num)
  have hw0 : 0 < w := Real.sqrt_pos.2 (by norm_num)
  have hwle : w ≤ 1.1314e-3 := by
    refine (Real.sqrt_le_sqrt (by norm_num : (1.28e-6 : ℝ) ≤ 1.1314e-3 ^ 2)).trans ?_
    rw [Real.sqrt_sq (by norm_num)]
  have hnv : npNorm v0 = w * npNorm x0 := by
    have : npNorm v0 ^ 2 = (w * npNorm x0) ^ 2 := by rw [hv, mul_pow, hw2]
    exact (sq_eq_sq₀ (npNorm_nonneg _) (by positivity)).1 this
  have hrle : npNorm x0 ≤ 6.78e6 := by
    by_contra hc
    have h3 : (6.78e6 : ℝ) ^ 3 < npNorm x0 ^ 3 := pow_lt_pow_left₀ (not_le.1 hc) (by norm_num) (by norm_num)
    unfold Spec.mu at hr
    norm_num at hr h3
    linarith
  refine ⟨fun t => Real.cos (w * t) • x0 + (Real.sin (w * t) / w) • v0,
    fun t => (-(w * Real.sin (w * t))) • x0 + Real.cos (w * t) • v0, by simp, by simp, ?_, ?_⟩
  · intro lo hi t _
    have hlin : HasDerivAt (fun t : ℝ => w * t) w t := by simpa using (hasDerivAt_id t).const_mul w
    have hs := hlin.sin
    have hc := hlin.cos
    have hnorm : npNorm (Real.cos (w * t) • x0 + (Real.sin (w * t) / w) • v0) = npNorm x0 := by
      refine (sq_eq_sq₀ (npNorm_nonneg _) (npNorm_nonneg _)).1 ?_
      rw [npNorm_sq_dot, npDot_eq_dotProduct]
      simp only [add_dotProduct, dotProduct_add, smul_dotProduct, dotProduct_smul, smul_eq_mul, dotProduct_comm v0 x0,
        dot_self_norm, hxv, hv, ← hw2]
      field_simp
      linear_combination w * npNorm x0 ^ 2 * Real.sin_sq_add_cos_sq (w * t)
    refine ⟨?_, (-(w ^ 2)) • (Real.cos (w * t) • x0 + (Real.sin (w * t) / w) • v0), ?_, ?_⟩
    · refine ((hc.smul_const x0).add ((hs.div_const w).smul_const v0)).congr_deriv ?_
      have : Real.cos (w * t) * w / w = Real.cos (w * t) := by field_simp
      rw [this]
      congr 2; ring
    · rw [hnorm]
      simp only [Plain.gravityAccel, npDiv, npVDiv, if_neg hr0.ne', if_neg (pow_pos hr0 2).ne', Bool.false_eq_true,
        if_false, Except.ok.injEq, mu_eq, ← hr, ← hw2]
      funext i
      simp only [Pi.smul_apply, smul_eq_mul]
      field_simp
    · refine ((((hs.const_mul w).fun_neg).smul_const x0).add (hc.smul_const v0)).congr_deriv ?_
      funext i
      simp only [Pi.add_apply, Pi.smul_apply, smul_eq_mul]
      field_simp
      ring
  · intro dt hd0 hd1
    obtain ⟨h1, h2⟩ := propagate_eq hne dt
    refine ⟨h1, ?_⟩
    rw [h2]
    simp only [← hx0, ← hv0]
    have hθ0 : 0 ≤ w * dt := by positivity
    have hθ1 : |w * dt| ≤ 1 := by
      rw [abs_of_nonneg hθ0]
      calc w * dt ≤ 1.1314e-3 * 10 := by gcongr
        _ ≤ 1 := by norm_num
    have hcb := Real.cos_bound hθ1
    have hsb := Real.sin_bound hθ1
    rw [abs_of_nonneg hθ0] at hcb hsb
    set c := Real.cos (w * dt)
    set s := Real.sin (w * dt)
    have e1 : predPos dt x0 v0 - (c • x0 + (s / w) • v0) =
        (-(c - (1 - (w * dt) ^ 2 / 2))) • x0 + (-(s - (w * dt - (w * dt) ^ 3 / 6)) / w
          - 0.5 * 1.618e-10 * dt ^ 2 + (1 / 6 - 0.1666) * w ^ 2 * dt ^ 3) • v0 := by
      unfold predPos Pos.a Pos.b
      funext i
      simp only [Pi.sub_apply, Pi.add_apply, Pi.smul_apply, smul_eq_mul, ← hw2]
      field_simp
      ring
    have e2 : predVel dt x0 v0 - ((-(w * s)) • x0 + c • v0) =
        (w * (s - (w * dt - (w * dt) ^ 3 / 6)) - w * (w * dt) ^ 3 / 6) • x0
          + (-(c - (1 - (w * dt) ^ 2 / 2)) - 1.618e-10 * dt) • v0 := by
      unfold predVel Pos.a Pos.b
      funext i
      simp only [Pi.sub_apply, Pi.add_apply, Pi.smul_apply, smul_eq_mul, ← hw2]
      ring
    have hw4 : w ^ 4 = 1.6384e-12 := by
      have : w ^ 4 = (w ^ 2) ^ 2 := by ring
      rw [this, hw2]; norm_num
    have hvle : npNorm v0 ≤ 7672 := by
      rw [hnv]
      calc w * npNorm x0 ≤ 1.1314e-3 * 6.78e6 := by gcongr
        _ ≤ 7672 := by norm_num
    have hC : |-(c - (1 - (w * dt) ^ 2 / 2))| ≤ 8.6e-14 * dt ^ 4 := by
      rw [abs_neg]
      refine hcb.trans ?_
      rw [mul_pow, hw4]
      have : 0 ≤ dt ^ 4 := by positivity
      norm_num
      linarith
    have hd5 : dt ^ 5 ≤ 10 * dt ^ 4 := by
      have : dt ^ 5 = dt * dt ^ 4 := by ring
      rw [this]; gcongr
    have hS : |s - (w * dt - (w * dt) ^ 3 / 6)| ≤ w * (1.64e-13 * dt ^ 4) := by
      refine hsb.trans ?_
      have : (w * dt) ^ 5 / 100 = w * (1.6384e-14 * dt ^ 5) := by
        rw [mul_pow, show w ^ 5 = w * w ^ 4 by ring, hw4]; ring
      rw [this]
      refine mul_le_mul_of_nonneg_left ?_ hw0.le
      have : 0 ≤ dt ^ 4 := by positivity
      norm_num at hd5 ⊢
      linarith
    have hd3 : dt ^ 3 ≤ (dt ^ 2 + dt ^ 4) / 2 := by nlinarith [sq_nonneg (dt - dt ^ 2)]
    have hd2 : dt ^ 4 ≤ 10 * dt ^ 3 := by
      have : dt ^ 4 = dt * dt ^ 3 := by ring
      rw [this]; gcongr
    have p2 : 0 ≤ dt ^ 2 := by positivity
    have p3 : 0 ≤ dt ^ 3 := by positivity
    have p4 : 0 ≤ dt ^ 4 := by positivity
    constructor
    · rw [e1]
      refine (npNorm_comb x0 v0).trans ?_
      have hB : |-(s - (w * dt - (w * dt) ^ 3 / 6)) / w - 0.5 * 1.618e-10 * dt ^ 2
          + (1 / 6 - 0.1666) * w ^ 2 * dt ^ 3| ≤ 1.64e-13 * dt ^ 4 + 8.09e-11 * dt ^ 2 + 8.6e-11 * dt ^ 3 := by
        have hb : |-(s - (w * dt - (w * dt) ^ 3 / 6)) / w| ≤ 1.64e-13 * dt ^ 4 := by
          rw [abs_div, abs_neg, abs_of_pos hw0, div_le_iff₀ hw0]
          linarith
        obtain ⟨b1, b2⟩ := abs_le.1 hb
        rw [hw2]
        rw [abs_le]
        norm_num at b1 b2 ⊢
        constructor <;> linarith
      calc _ ≤ 8.6e-14 * dt ^ 4 * 6.78e6 + (1.64e-13 * dt ^ 4 + 8.09e-11 * dt ^ 2 + 8.6e-11 * dt ^ 3) * 7672 := by
            gcongr
            exact npNorm_nonneg _
        _ ≤ 2e-6 * (dt ^ 2 + dt ^ 4) := by
            norm_num at hd3 ⊢
            linarith
    · rw [e2]
      refine (npNorm_comb x0 v0).trans ?_
      have hA : |w * (s - (w * dt - (w * dt) ^ 3 / 6)) - w * (w * dt) ^ 3 / 6| ≤
          2.1e-19 * dt ^ 4 + 2.731e-13 * dt ^ 3 := by
        have hb : |w * (s - (w * dt - (w * dt) ^ 3 / 6))| ≤ 2.1e-19 * dt ^ 4 := by
          rw [abs_mul, abs_of_pos hw0]
          calc w * _ ≤ w * (w * (1.64e-13 * dt ^ 4)) := by gcongr
            _ = w ^ 2 * (1.64e-13 * dt ^ 4) := by ring
            _ ≤ 2.1e-19 * dt ^ 4 := by
                rw [hw2]; norm_num; linarith
        obtain ⟨b1, b2⟩ := abs_le.1 hb
        have e3 : w * (w * dt) ^ 3 / 6 = 1.6384e-12 / 6 * dt ^ 3 := by
          rw [← hw4]; ring
        rw [e3, abs_le]
        norm_num at b1 b2 ⊢
        constructor <;> linarith
      have hB : |-(c - (1 - (w * dt) ^ 2 / 2)) - 1.618e-10 * dt| ≤ 8.6e-14 * dt ^ 4 + 1.618e-10 * dt := by
        obtain ⟨b1, b2⟩ := abs_le.1 hC
        rw [abs_le]
        norm_num at b1 b2 ⊢
        constructor <;> linarith
      calc _ ≤ (2.1e-19 * dt ^ 4 + 2.731e-13 * dt ^ 3) * 6.78e6 + (8.6e-14 * dt ^ 4 + 1.618e-10 * dt) * 7672 := by
            gcongr
            exact npNorm_nonneg _
        _ ≤ 2e-6 * (dt + dt ^ 3) := by
            norm_num at hd2 ⊢
            linarith

/-- A new filter on that orbit: a case of `C144_plane`, `C144_bounded`, `C144_diverges` and `C144_accuracy`. -/
example (raw0 : Raw 4) (c : JClock) : ∃ (s : SatState 4) (r : ℝ),
    SatState.new { raw0 with pos := ![r, 0, 0], vel := ![0, Real.sqrt 1.28e-6 * r, 0] } (some c) = .ok s ∧
    1.28e-6 * npNorm (Pos.init Spec.mu s).output.1 ^ 3 = Spec.mu ∧
    npNorm (Pos.init Spec.mu s).output.2 ^ 2 = 1.28e-6 * npNorm (Pos.init Spec.mu s).output.1 ^ 2 ∧
    (Pos.init Spec.mu s).output.1 ⬝ᵥ (Pos.init Spec.mu s).output.2 = 0 ∧
    Spec.orbitMomentum (Pos.init Spec.mu s).output.1 (Pos.init Spec.mu s).output.2 ≠ 0 := by
  have hμ : 0 < Spec.mu := mu_eq ▸ MU_pos
  set r : ℝ := (Spec.mu / 1.28e-6) ^ ((3 : ℝ)⁻¹) with hr
  have hr0 : 0 < r := Real.rpow_pos_of_pos (by positivity) _
  have hr3 : r ^ 3 = Spec.mu / 1.28e-6 := Real.rpow_inv_natCast_pow (n := 3) (by positivity) (by norm_num)
  have hrn : npNorm (![r, 0, 0] : V3) = r := by
    simp only [npNorm, Fin.sum_univ_three]; simp; exact Real.sqrt_sq hr0.le
  have hrl : 6.3e6 ≤ r := by
    by_contra hc
    have h3 : r ^ 3 < (6.3e6 : ℝ) ^ 3 := pow_lt_pow_left₀ (not_le.1 hc) hr0.le (by norm_num)
    rw [hr3] at h3
    unfold Spec.mu at h3
    norm_num at h3
  have hw2 : Real.sqrt 1.28e-6 ^ 2 = 1.28e-6 := Real.sq_sqrt (by norm_num)
  have hw0 : 0 < Real.sqrt 1.28e-6 := Real.sqrt_pos.2 (by norm_num)
  obtain ⟨s, hs, -⟩ := C127_new { raw0 with pos := ![r, 0, 0], vel := ![0, Real.sqrt 1.28e-6 * r, 0] } c
    (by simp only [hrn]; exact hrl)
  refine ⟨s, r, hs, ?_⟩
  obtain ⟨c', lat, long, hh, hc, hl, rfl⟩ := mkState_ok.1 hs
  change 1.28e-6 * npNorm (![r, 0, 0] : V3) ^ 3 = Spec.mu ∧
    npNorm (![0, Real.sqrt 1.28e-6 * r, 0] : V3) ^ 2 = 1.28e-6 * npNorm (![r, 0, 0] : V3) ^ 2 ∧
    (![r, 0, 0] : V3) ⬝ᵥ ![0, Real.sqrt 1.28e-6 * r, 0] = 0 ∧
    Spec.orbitMomentum ![r, 0, 0] ![0, Real.sqrt 1.28e-6 * r, 0] ≠ 0
  refine ⟨?_, ?_, ?_, ?_⟩
  · rw [hrn, hr3]; field_simp
  · rw [hrn, npNorm3_sq]
    simp [mul_pow]
    exact .inl hw2
  · simp
  · intro h
    have h2 := congrFun h 2
    simp [Spec.orbitMomentum, cons3_2] at h2
    rcases h2 with h2 | h2 | h2
    exacts [hr0.ne' h2, hw0.ne' h2, hr0.ne' h2]

end Adcs
