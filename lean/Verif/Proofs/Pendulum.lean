import Mathlib.Analysis.SpecialFunctions.Integrals.Basic
import Mathlib.MeasureTheory.Integral.IntervalIntegral.Periodic
import Mathlib.MeasureTheory.Integral.DominatedConvergence
import Mathlib.Analysis.Calculus.Deriv.Inverse
import Mathlib.Topology.Order.MonotoneContinuity

set_option autoImplicit false

/-! # A pendulum that turns over

`θ'' = -k ω cos θ` from `θ = 0` with the rate `ω > 2k`: the rate is `√(ω² - 2 k ω sin θ)`, and after each turn it is
what it was. -/

namespace Adcs

open Set Filter Topology Real MeasureTheory

/-- The square of the rate at the angle `φ`. -/
noncomputable def turnSq (k ω φ : ℝ) : ℝ := ω ^ 2 - 2 * k * ω * sin φ

/-- The time for one turn. -/
noncomputable def turnTime (k ω : ℝ) : ℝ := ∫ φ in (0 : ℝ)..(2 * π), (√(turnSq k ω φ))⁻¹

theorem turnSq_bounds {k ω : ℝ} (hk : 0 < k) (hω : 2 * k < ω) (φ : ℝ) :
    0 < ω * (ω - 2 * k) ∧ ω * (ω - 2 * k) ≤ turnSq k ω φ ∧ turnSq k ω φ ≤ ω * (ω + 2 * k) := by
  have h0 : 0 < ω := by linarith
  have h1 := Real.sin_le_one φ
  have h2 := Real.neg_one_le_sin φ
  have h3 : 0 < 2 * k * ω := by positivity
  unfold turnSq
  refine ⟨mul_pos h0 (by linarith), by nlinarith, by nlinarith⟩

theorem turnInv_continuous {k ω : ℝ} (hk : 0 < k) (hω : 2 * k < ω) :
    Continuous fun φ => (√(turnSq k ω φ))⁻¹ := by
  refine Continuous.inv₀ ?_ fun φ => ?_
  · unfold turnSq; fun_prop
  · obtain ⟨a, b, -⟩ := turnSq_bounds hk hω φ
    exact (Real.sqrt_pos.2 (a.trans_le b)).ne'

theorem turnTime_bounds {k ω : ℝ} (hk : 0 < k) (hω : 2 * k < ω) :
    2 * π / √(ω * (ω + 2 * k)) ≤ turnTime k ω ∧ turnTime k ω ≤ 2 * π / √(ω * (ω - 2 * k)) := by
  have hc := (turnInv_continuous hk hω).intervalIntegrable (μ := volume) 0 (2 * π)
  have hpi : (0 : ℝ) ≤ 2 * π := by positivity
  constructor
  · have := intervalIntegral.integral_mono_on (μ := volume) (f := fun _ => (√(ω * (ω + 2 * k)))⁻¹) hpi
      intervalIntegrable_const hc (fun φ _ => ?_)
    · rw [intervalIntegral.integral_const, smul_eq_mul, sub_zero] at this
      exact this
    · obtain ⟨a, b, c⟩ := turnSq_bounds hk hω φ
      exact inv_anti₀ (Real.sqrt_pos.2 (a.trans_le b)) (Real.sqrt_le_sqrt c)
  · have := intervalIntegral.integral_mono_on (μ := volume) (g := fun _ => (√(ω * (ω - 2 * k)))⁻¹) hpi
      hc intervalIntegrable_const (fun φ _ => ?_)
    · rw [intervalIntegral.integral_const, smul_eq_mul, sub_zero] at this
      exact this
    · obtain ⟨a, b, c⟩ := turnSq_bounds hk hω φ
      exact inv_anti₀ (Real.sqrt_pos.2 a) (Real.sqrt_le_sqrt b)

/-- Every short enough time is that of one turn, for some rate. -/
theorem turnTime_onto {k h : ℝ} (hk : 0 < k) (h0 : 0 < h) (hh : h * (4 * k) ≤ 2 * π) :
    ∃ ω, 2 * k < ω ∧ turnTime k ω = h := by
  set f : ℝ → ℝ := fun ω => ∫ φ in (0 : ℝ)..(2 * π), (√(turnSq k (max ω (3 * k)) φ))⁻¹ with hf
  have hm : ∀ ω, 2 * k < max ω (3 * k) := fun ω => lt_max_of_lt_right (by linarith)
  have fc : Continuous f := by
    refine intervalIntegral.continuous_parametric_intervalIntegral_of_continuous' ?_ 0 (2 * π)
    change Continuous fun p : ℝ × ℝ => (√(turnSq k (max p.1 (3 * k)) p.2))⁻¹
    refine Continuous.inv₀ ?_ fun p => ?_
    · unfold turnSq; fun_prop
    · obtain ⟨a, b, -⟩ := turnSq_bounds hk (hm p.1) p.2
      exact (Real.sqrt_pos.2 (a.trans_le b)).ne'
  have fe : ∀ ω, 3 * k ≤ ω → f ω = turnTime k ω := by
    intro ω hω
    simp only [hf, turnTime, max_eq_left hω]
  -- a slow turn
  have lo : h ≤ f (3 * k) := by
    rw [fe _ le_rfl]
    refine le_trans ?_ (turnTime_bounds hk (by linarith)).1
    have e : √(3 * k * (3 * k + 2 * k)) ≤ 4 * k := by
      rw [Real.sqrt_le_left (by positivity)]
      nlinarith [sq_nonneg k]
    have p : 0 < √(3 * k * (3 * k + 2 * k)) := Real.sqrt_pos.2 (by positivity)
    rw [le_div_iff₀ p]
    exact (mul_le_mul_of_nonneg_left e h0.le).trans hh
  -- a fast one
  set W := 3 * k + 2 * π / h with hW
  have hpos : 0 < 2 * π / h := by positivity
  have hi : f W ≤ h := by
    rw [fe _ (by linarith)]
    refine (turnTime_bounds hk (by linarith)).2.trans ?_
    have e : 2 * π / h ≤ √(W * (W - 2 * k)) := by
      rw [Real.le_sqrt hpos.le (by nlinarith [mul_pos hk hk, mul_pos hk hpos])]
      rw [hW]
      nlinarith [mul_pos hk hk, mul_pos hk hpos]
    rw [div_le_iff₀ (hpos.trans_le e)]
    rw [div_le_iff₀ h0] at e
    linarith
  obtain ⟨ω, ⟨h1, -⟩, h2⟩ := intermediate_value_Icc' (show 3 * k ≤ W by linarith) fc.continuousOn ⟨hi, lo⟩
  exact ⟨ω, by linarith, by rw [← fe ω h1, h2]⟩

/-- The motion: the angle, whose rate only depends on it, with one turn in each `turnTime`. -/
theorem pendulum {k ω : ℝ} (hk : 0 < k) (hω : 2 * k < ω) :
    ∃ θ : ℝ → ℝ, θ 0 = 0 ∧ (∀ t, HasDerivAt θ (√(turnSq k ω (θ t))) t) ∧
      (∀ t, HasDerivAt (fun τ => √(turnSq k ω (θ τ))) (-(k * ω * cos (θ t))) t) ∧ θ (turnTime k ω) = 2 * π := by
  set g : ℝ → ℝ := fun φ => (√(turnSq k ω φ))⁻¹ with hg
  have gc : Continuous g := turnInv_continuous hk hω
  have sp : ∀ φ, 0 < √(turnSq k ω φ) := fun φ => by
    obtain ⟨a, b, -⟩ := turnSq_bounds hk hω φ
    exact Real.sqrt_pos.2 (a.trans_le b)
  set F : ℝ → ℝ := fun θ => ∫ φ in (0 : ℝ)..θ, g φ with hF
  have dF : ∀ θ, HasDerivAt F (g θ) θ := fun θ =>
    intervalIntegral.integral_hasDerivAt_right (gc.intervalIntegrable _ _) (gc.stronglyMeasurableAtFilter _ _)
      gc.continuousAt
  have Fm : StrictMono F := strictMono_of_hasDerivAt_pos dF fun θ => inv_pos.2 (sp θ)
  have Fc : Continuous F := continuous_iff_continuousAt.2 fun θ => (dF θ).continuousAt
  -- it grows at least linearly
  set m := (√(ω * (ω + 2 * k)))⁻¹ with hm
  have hm0 : 0 < m := by
    obtain ⟨a, b, c⟩ := turnSq_bounds hk hω 0
    exact inv_pos.2 (Real.sqrt_pos.2 (a.trans_le (b.trans c)))
  have gm : ∀ φ, m ≤ g φ := fun φ => by
    obtain ⟨a, b, c⟩ := turnSq_bounds hk hω φ
    exact inv_anti₀ (sp φ) (Real.sqrt_le_sqrt c)
  have Gm : Monotone fun θ => F θ - m * θ := by
    refine monotone_of_hasDerivAt_nonneg (f' := fun θ => g θ - m) (fun θ => ?_) fun θ => ?_
    · exact ((dF θ).sub ((hasDerivAt_id θ).const_mul m)).congr_deriv (by simp)
    · exact sub_nonneg.2 (gm θ)
  have F0 : F 0 = 0 := by simp [hF]
  have Fs : Function.Surjective F := by
    refine Fc.surjective ?_ ?_
    · refine tendsto_atTop_mono' _ ?_ (tendsto_id.const_mul_atTop hm0)
      filter_upwards [eventually_ge_atTop 0] with θ hθ
      have := Gm hθ
      simp only [F0, mul_zero, sub_zero] at this
      simp only [id]
      linarith
    · refine tendsto_atBot_mono' _ ?_ (tendsto_id.const_mul_atBot hm0)
      filter_upwards [eventually_le_atBot 0] with θ hθ
      have := Gm hθ
      simp only [F0, mul_zero, sub_zero] at this
      simp only [id]
      linarith
  set e := Fm.orderIsoOfSurjective F Fs with he
  have eF : ∀ θ, e θ = F θ := fun θ => rfl
  have hinv : ∀ t, F (e.symm t) = t := fun t => by rw [← eF]; exact e.apply_symm_apply t
  have hd : ∀ t, HasDerivAt (fun τ => e.symm τ) (√(turnSq k ω (e.symm t))) t := by
    intro t
    have := HasDerivAt.of_local_left_inverse (f := F) (g := fun τ => e.symm τ) (a := t)
      (e.symm.continuous.continuousAt) (dF (e.symm t)) (inv_pos.2 (sp _)).ne' (Eventually.of_forall hinv)
    rw [hg] at this
    simpa using this
  refine ⟨fun τ => e.symm τ, ?_, hd, fun t => ?_, ?_⟩
  · change e.symm 0 = 0
    rw [e.symm_apply_eq, eF, F0]
  · have h1 : HasDerivAt (fun τ => turnSq k ω (e.symm τ))
        (-(2 * k * ω * (cos (e.symm t) * √(turnSq k ω (e.symm t))))) t := by
      unfold turnSq
      exact (((hd t).sin).const_mul (2 * k * ω)).const_sub (ω ^ 2)
    refine (h1.sqrt (Real.sqrt_pos.1 (sp _)).ne').congr_deriv ?_
    have := (sp (e.symm t)).ne'
    field_simp
  · change e.symm (turnTime k ω) = 2 * π
    have : turnTime k ω = F (2 * π) := rfl
    rw [this, ← eF, e.symm_apply_apply]

/-- How far it turns in a time. -/
theorem pendulum_range {k ω : ℝ} (hk : 0 < k) (hω : 2 * k < ω) {θ : ℝ → ℝ} (h0 : θ 0 = 0)
    (hθ : ∀ t, HasDerivAt θ (√(turnSq k ω (θ t))) t) {t : ℝ} (ht : 0 ≤ t) :
    √(ω * (ω - 2 * k)) * t ≤ θ t ∧ θ t ≤ √(ω * (ω + 2 * k)) * t := by
  have m1 : Monotone fun τ => θ τ - √(ω * (ω - 2 * k)) * τ := by
    refine monotone_of_hasDerivAt_nonneg (f' := fun τ => √(turnSq k ω (θ τ)) - √(ω * (ω - 2 * k))) (fun τ => ?_)
      fun τ => sub_nonneg.2 (Real.sqrt_le_sqrt (turnSq_bounds hk hω (θ τ)).2.1)
    exact ((hθ τ).sub ((hasDerivAt_id τ).const_mul _)).congr_deriv (by simp)
  have m2 : Monotone fun τ => √(ω * (ω + 2 * k)) * τ - θ τ := by
    refine monotone_of_hasDerivAt_nonneg (f' := fun τ => √(ω * (ω + 2 * k)) - √(turnSq k ω (θ τ))) (fun τ => ?_)
      fun τ => sub_nonneg.2 (Real.sqrt_le_sqrt (turnSq_bounds hk hω (θ τ)).2.2)
    exact (((hasDerivAt_id τ).const_mul _).sub (hθ τ)).congr_deriv (by simp)
  have e1 := m1 ht
  have e2 := m2 ht
  simp only [h0, mul_zero, sub_zero] at e1 e2
  constructor <;> linarith

end Adcs
