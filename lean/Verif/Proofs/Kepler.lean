import Mathlib.Analysis.ODE.ExistUnique
import Mathlib.Analysis.SpecialFunctions.Trigonometric.Deriv
import Mathlib.Analysis.Calculus.Deriv.Inverse
import Mathlib.Topology.Order.MonotoneContinuity
import Mathlib.Topology.Order.IntermediateValue

set_option autoImplicit false

/-! # Uniqueness of motions, and Kepler's equation -/

namespace Adcs

open Set Filter Topology

/-- Two motions along a continuously differentiable field that meet at one time are the same. -/
theorem flow_unique {E : Type} [NormedAddCommGroup E] [NormedSpace ℝ E] {F : E → E} {y z : ℝ → E} {lo hi t0 : ℝ}
    (hF : ∀ t ∈ Ioo lo hi, ContDiffAt ℝ 1 F (y t)) (hy : ∀ t ∈ Ioo lo hi, HasDerivAt y (F (y t)) t)
    (hz : ∀ t ∈ Ioo lo hi, HasDerivAt z (F (z t)) t) (h0 : t0 ∈ Ioo lo hi) (h : y t0 = z t0) :
    ∀ t ∈ Ioo lo hi, y t = z t := by
  have key : Ioo lo hi ⊆ {t | y =ᶠ[𝓝 t] z} := by
    have loc : ∀ t ∈ Ioo lo hi, y t = z t → y =ᶠ[𝓝 t] z := by
      intro t ht e
      obtain ⟨K, s, hs, hK⟩ := (hF t ht).exists_lipschitzOnWith
      refine ODE_solution_unique_of_eventually (v := fun _ => F) (s := fun _ => s) (K := K)
        (Eventually.of_forall fun _ => hK) ?_ ?_ e
      · filter_upwards [isOpen_Ioo.mem_nhds ht, (hy t ht).continuousAt hs] with u hu hu'
        exact ⟨hy u hu, hu'⟩
      · filter_upwards [isOpen_Ioo.mem_nhds ht, (hz t ht).continuousAt (e ▸ hs)] with u hu hu'
        exact ⟨hz u hu, hu'⟩
    refine isPreconnected_Ioo.subset_of_closure_inter_subset ?_ ⟨t0, h0, loc t0 h0 h⟩ ?_
    · rw [isOpen_iff_mem_nhds]
      intro t ht
      exact ht.eventually_nhds
    · rintro t ⟨hc, ht⟩
      refine loc t ht ?_
      rw [mem_closure_iff_frequently] at hc
      have hcl : ∃ᶠ u in 𝓝 t, y u - z u = 0 := hc.mono fun u hu => sub_eq_zero.2 (EventuallyEq.eq_of_nhds hu)
      have hcont : ContinuousAt (fun u => y u - z u) t := (hy t ht).continuousAt.sub (hz t ht).continuousAt
      by_contra hne
      have := hcont.eventually_ne (sub_ne_zero.2 hne)
      exact hcl (this.mono fun u hu => hu)
  exact fun t ht => EventuallyEq.eq_of_nhds (key ht)

/-- Kepler's equation has a solution for all times, which grows by a turn in each period. -/
theorem anomaly {A B n : ℝ} (h : A ^ 2 + B ^ 2 < 1) (hn : 0 < n) : ∃ φ : ℝ → ℝ, φ 0 = 0 ∧
    (∀ t, HasDerivAt φ (n / (1 - A * Real.cos (φ t) + B * Real.sin (φ t))) t) ∧
    (∀ t, φ (t + 2 * Real.pi / n) = φ t + 2 * Real.pi) ∧ StrictMono φ := by
  have pos : ∀ p, 0 < 1 - A * Real.cos p + B * Real.sin p := by
    intro p
    have h1 := Real.sin_sq_add_cos_sq p
    have h2 : (A * Real.cos p - B * Real.sin p) ^ 2 < 1 := by
      nlinarith [sq_nonneg (A * Real.sin p + B * Real.cos p)]
    nlinarith [abs_lt_of_sq_lt_sq' (a := A * Real.cos p - B * Real.sin p) (b := 1) (by linarith) (by norm_num)]
  let T : ℝ → ℝ := fun p => (p - A * Real.sin p + B * (1 - Real.cos p)) / n
  have hT : ∀ p, HasDerivAt T ((1 - A * Real.cos p + B * Real.sin p) / n) p := by
    intro p
    have := ((((hasDerivAt_id p).fun_sub ((Real.hasDerivAt_sin p).const_mul A)).fun_add
      (((hasDerivAt_const p (1 : ℝ)).fun_sub (Real.hasDerivAt_cos p)).const_mul B))).div_const n
    refine this.congr_deriv ?_
    ring
  have mono : StrictMono T := strictMono_of_deriv_pos fun p => by
    rw [(hT p).deriv]; exact div_pos (pos p) hn
  have cont : Continuous T := continuous_iff_continuousAt.2 fun p => (hT p).continuousAt
  have bound : ∀ p, |T p * n - p| ≤ 3 := by
    intro p
    have e : T p * n - p = - A * Real.sin p + B * (1 - Real.cos p) := by
      simp only [T]; field_simp; ring
    have hA : |A| ≤ 1 := abs_le_one_iff_mul_self_le_one.2 (by nlinarith [sq_nonneg B])
    have hB : |B| ≤ 1 := abs_le_one_iff_mul_self_le_one.2 (by nlinarith [sq_nonneg A])
    have h1 : |-A * Real.sin p| ≤ 1 := by
      rw [abs_mul, abs_neg]; exact mul_le_one₀ hA (abs_nonneg _) (Real.abs_sin_le_one p)
    have h2 : |B * (1 - Real.cos p)| ≤ 2 := by
      rw [abs_mul]
      have : |1 - Real.cos p| ≤ 2 := by
        rw [abs_le]; constructor <;> linarith [Real.cos_le_one p, Real.neg_one_le_cos p]
      nlinarith [abs_nonneg B, abs_nonneg (1 - Real.cos p)]
    rw [e]
    exact (abs_add_le _ _).trans (by linarith)
  have surj : Function.Surjective T := by
    refine cont.surjective ?_ ?_
    · refine tendsto_atTop_mono (f := fun p => (p - 3) / n) (fun p => ?_) ?_
      · rw [div_le_iff₀ hn]; linarith [(abs_le.1 (bound p)).1]
      · exact (tendsto_atTop_add_const_right _ (-3) tendsto_id).atTop_div_const hn
    · refine tendsto_atBot_mono (f := fun p => (p + 3) / n) (fun p => ?_) ?_
      · rw [le_div_iff₀ hn]; linarith [(abs_le.1 (bound p)).2]
      · exact (tendsto_atBot_add_const_right _ 3 tendsto_id).atBot_div_const hn
  let e : ℝ ≃o ℝ := mono.orderIsoOfSurjective T surj
  have hTe : ∀ t, T (e.symm t) = t := fun t => e.apply_symm_apply t
  have heT : ∀ p, e.symm (T p) = p := fun p => e.symm_apply_apply p
  refine ⟨e.symm, ?_, fun t => ?_, fun t => ?_, e.symm.strictMono⟩
  · have : T 0 = 0 := by simp [T]
    exact (congrArg e.symm this).symm.trans (heT 0)
  · have := HasDerivAt.of_local_left_inverse (f := T) (g := e.symm) e.symm.continuous.continuousAt
      (hT (e.symm t)) (div_pos (pos _) hn).ne' (Eventually.of_forall hTe)
    rwa [inv_div] at this
  · have : T (e.symm t + 2 * Real.pi) = t + 2 * Real.pi / n := by
      have h1 := hTe t
      simp only [T] at h1 ⊢
      rw [Real.sin_add_two_pi, Real.cos_add_two_pi]
      rw [div_eq_iff hn.ne'] at h1
      field_simp
      linarith
    rw [← this]; exact heT _

/-- The four Lagrange coefficients: the coordinates of the motion, and of its velocity, with respect to the initial
position and velocity, for the eccentric anomaly `p` since then. -/
noncomputable def kepRho (A B p : ℝ) : ℝ := 1 - A * Real.cos p + B * Real.sin p
noncomputable def kepF (A p : ℝ) : ℝ := (Real.cos p - A) / (1 - A)
noncomputable def kepG (A B n p : ℝ) : ℝ := (B * (1 - Real.cos p) + (1 - A) * Real.sin p) / n
noncomputable def kepF' (A B n p : ℝ) : ℝ := -n / (1 - A) * (Real.sin p / kepRho A B p)
noncomputable def kepG' (A B p : ℝ) : ℝ := (B * Real.sin p + (1 - A) * Real.cos p) / kepRho A B p

theorem lagrange {A B n : ℝ} (hA : A < 1) (hn : 0 < n) {φ : ℝ → ℝ} {t : ℝ} (hρ : 0 < kepRho A B (φ t))
    (hφ : HasDerivAt φ (n / kepRho A B (φ t)) t) :
    HasDerivAt (fun t => kepF A (φ t)) (kepF' A B n (φ t)) t ∧
    HasDerivAt (fun t => kepG A B n (φ t)) (kepG' A B (φ t)) t ∧
    HasDerivAt (fun t => kepF' A B n (φ t)) (-(n ^ 2 / kepRho A B (φ t) ^ 3) * kepF A (φ t)) t ∧
    HasDerivAt (fun t => kepG' A B (φ t)) (-(n ^ 2 / kepRho A B (φ t) ^ 3) * kepG A B n (φ t)) t := by
  have hc := hφ.cos
  have hs := hφ.sin
  have hA' : 1 - A ≠ 0 := by linarith
  have hr : HasDerivAt (fun t => kepRho A B (φ t)) ((A * Real.sin (φ t) + B * Real.cos (φ t)) * (n / kepRho A B (φ t))) t := by
    refine (((hasDerivAt_const t (1 : ℝ)).fun_sub (hc.const_mul A)).fun_add (hs.const_mul B)).congr_deriv ?_
    ring
  have e : kepRho A B (φ t) = 1 - A * Real.cos (φ t) + B * Real.sin (φ t) := rfl
  have hsc := Real.sin_sq_add_cos_sq (φ t)
  have hρ' := hρ.ne'
  refine ⟨?_, ?_, ?_, ?_⟩
  · refine ((hc.sub_const A).div_const (1 - A)).congr_deriv ?_
    unfold kepF'
    field_simp
  · refine ((((hasDerivAt_const t (1 : ℝ)).fun_sub hc).const_mul B).fun_add (hs.const_mul (1 - A))
      |>.div_const n).congr_deriv ?_
    unfold kepG'
    field_simp
    ring
  · refine ((hs.fun_div hr hρ').const_mul (-n / (1 - A))).congr_deriv ?_
    unfold kepF
    generalize Real.sin (φ t) = s at *
    generalize Real.cos (φ t) = c at *
    generalize kepRho A B (φ t) = ρ at *
    field_simp
    subst e
    linear_combination A * hsc
  · refine (((hs.const_mul B).fun_add (hc.const_mul (1 - A))).fun_div hr hρ').congr_deriv ?_
    unfold kepG
    generalize Real.sin (φ t) = s at *
    generalize Real.cos (φ t) = c at *
    generalize kepRho A B (φ t) = ρ at *
    field_simp
    subst e
    linear_combination (-B) * hsc

theorem lagrange_norm {A B n a p : ℝ} (hA : A < 1) (hn : 0 < n) :
    (a * (1 - A)) ^ 2 * kepF A p ^ 2 + 2 * (B * n * a ^ 2) * kepF A p * kepG A B n p
      + n ^ 2 * a ^ 2 * (1 + A) / (1 - A) * kepG A B n p ^ 2 = (a * kepRho A B p) ^ 2 := by
  have hA' : 1 - A ≠ 0 := by linarith
  have hsc := Real.sin_sq_add_cos_sq p
  unfold kepF kepG kepRho
  generalize Real.sin p = s at *
  generalize Real.cos p = c at *
  have key : (1 - A) * (c - A) ^ 2 + 2 * B * (c - A) * (B * (1 - c) + (1 - A) * s)
      + (1 + A) * (B * (1 - c) + (1 - A) * s) ^ 2 = (1 - A) * (1 - A * c + B * s) ^ 2 := by
    linear_combination (1 - A) * (1 - A ^ 2 - B ^ 2) * hsc
  have : (1 - A * c + B * s) ^ 2 = ((1 - A) * (c - A) ^ 2 + 2 * B * (c - A) * (B * (1 - c) + (1 - A) * s)
      + (1 + A) * (B * (1 - c) + (1 - A) * s) ^ 2) / (1 - A) := by
    rw [key]; field_simp
  rw [mul_pow a (1 - A * c + B * s), this]
  field_simp

end Adcs
