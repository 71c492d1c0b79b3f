import Verif.Proofs.AttFilter
import Verif.Proofs.Tracking
import Mathlib.Analysis.SpecialFunctions.Trigonometric.Sinc
import Mathlib.Analysis.SpecialFunctions.Trigonometric.Deriv
import Mathlib.Analysis.Calculus.MeanValue

set_option autoImplicit false

/-! # Lemmas about attitudes turning at a constant rate -/

namespace Adcs

open Quat Vec Obs
open scoped Matrix

/-- The quaternion of turning for the time `t` at the constant rate `w`. -/
noncomputable def expq (w : V3) (t : ℝ) : V4 :=
  ![Real.cos (npNorm w * (t / 2)), Real.sin (npNorm w * (t / 2)) / npNorm w * w 0,
    Real.sin (npNorm w * (t / 2)) / npNorm w * w 1, Real.sin (npNorm w * (t / 2)) / npNorm w * w 2]

theorem expq_zero (w : V3) : expq w 0 = ![1, 0, 0, 0] := by
  simp [expq]

theorem expq_unit (w : V3) (t : ℝ) : IsUnit4 (expq w t) := by
  have h3 := npNorm3_sq w
  have hs := Real.sin_sq_add_cos_sq (npNorm w * (t / 2))
  by_cases h : npNorm w = 0
  · simp [IsUnit4, expq, h]
  · have : IsUnit4 (expq w t) ↔ Real.cos (npNorm w * (t / 2)) ^ 2 +
        (Real.sin (npNorm w * (t / 2)) / npNorm w) ^ 2 * (w 0 ^ 2 + w 1 ^ 2 + w 2 ^ 2) = 1 := by
      simp only [IsUnit4, expq]
      simp
      constructor <;> intro h <;> linear_combination h
    rw [this, ← h3, div_pow, div_mul_cancel₀ _ (pow_ne_zero 2 h)]
    linarith

theorem expq_deriv (w : V3) (t : ℝ) :
    HasDerivAt (expq w) ((0.5 : ℝ) • product (expq w t) ![0, w 0, w 1, w 2]) t := by
  have h3 := npNorm3_sq w
  have h1 : HasDerivAt (fun τ : ℝ => npNorm w * (τ / 2)) (npNorm w * (1 / 2)) t :=
    ((hasDerivAt_id t).div_const 2).const_mul _
  by_cases h : npNorm w = 0
  · have hw : w = 0 := npNorm_eq_zero.1 h
    subst hw
    have : expq 0 = fun _ => ![1, 0, 0, 0] := by funext τ; simp [expq, h]
    rw [this]
    refine (hasDerivAt_const t _).congr_deriv ?_
    refine vec4_ext ?_ ?_ ?_ ?_ <;> simp [product_0, product_1, product_2, product_3]
  have hc := h1.cos
  have hs := (h1.sin).div_const (npNorm w)
  have e : (0.5 : ℝ) = 1 / 2 := by norm_num
  rw [hasDerivAt_pi]
  intro i
  fin_cases i
  · refine hc.congr_deriv ?_
    simp [product_0, expq]
    field_simp
    rw [h3, e]; ring
  · refine (hs.mul_const (w 0)).congr_deriv ?_
    simp [product_1, expq]
    field_simp
    rw [e]; ring
  · refine (hs.mul_const (w 1)).congr_deriv ?_
    simp [product_2, expq]
    field_simp
    rw [e]; ring
  · refine (hs.mul_const (w 2)).congr_deriv ?_
    simp [product_3, expq]
    field_simp
    rw [e]; ring

/-- An attitude that turns at the constant rate `u` is the initial one followed by `expq u t`. -/
theorem expq_unique {p : ℝ → V4} {u : V3}
    (hp : ∀ t, HasDerivAt p ((0.5 : ℝ) • product (p t) ![0, u 0, u 1, u 2]) t) (t : ℝ) :
    p t = product (p 0) (expq u t) := by
  have hd : ∀ τ, HasDerivAt (fun τ => product (p τ) (conjugate (expq u τ))) 0 τ := by
    intro τ
    refine (hasDerivAt_product (hp τ) (hasDerivAt_conjugate (expq_deriv u τ))).congr_deriv ?_
    generalize p τ = a
    generalize expq u τ = b
    refine vec4_ext ?_ ?_ ?_ ?_ <;>
      simp [product_0, product_1, product_2, product_3, conjugate] <;> ring
  have hc : product (p t) (conjugate (expq u t)) = product (p 0) (conjugate (expq u 0)) :=
    is_const_of_deriv_eq_zero (fun τ => (hd τ).differentiableAt) (fun τ => (hd τ).deriv) t 0
  have h0 : conjugate (expq u 0) = ![1, 0, 0, 0] := by
    rw [expq_zero]; refine vec4_ext ?_ ?_ ?_ ?_ <;> simp [conjugate]
  rw [h0, product_one] at hc
  rw [← hc, product_assoc, conj_product_self (expq_unit u t), product_one]

theorem npNorm_deriv {u : ℝ → V3} {u' : V3} {r : ℝ} (hu : HasDerivAt u u' r) (h : npNorm (u r) ≠ 0) :
    HasDerivAt (fun s => npNorm (u s)) ((u r 0 * u' 0 + u r 1 * u' 1 + u r 2 * u' 2) / npNorm (u r)) r := by
  have k := hasDerivAt_pi.1 hu
  have e : (fun s => npNorm (u s)) = fun s => Real.sqrt (u s 0 ^ 2 + u s 1 ^ 2 + u s 2 ^ 2) := by
    funext s
    rw [← npNorm3_sq, Real.sqrt_sq (npNorm_nonneg _)]
  have hd := ((((k 0).fun_pow 2).fun_add ((k 1).fun_pow 2)).fun_add ((k 2).fun_pow 2))
  have h2 : u r 0 ^ 2 + u r 1 ^ 2 + u r 2 ^ 2 ≠ 0 := by rw [← npNorm3_sq]; exact pow_ne_zero 2 h
  rw [e]
  refine (hd.sqrt h2).congr_deriv ?_
  have h3 : Real.sqrt (u r 0 ^ 2 + u r 1 ^ 2 + u r 2 ^ 2) = npNorm (u r) := (congrFun e r).symm
  rw [h3]
  field_simp
  simp
  ring

/-- A factor that is continuous at a zero of the other factor need not be differentiable there. -/
theorem hasDerivAt_mul_of_zero {g f : ℝ → ℝ} {f' r : ℝ} (hg : ContinuousAt g r) (hf : HasDerivAt f f' r)
    (h0 : f r = 0) : HasDerivAt (fun s => g s * f s) (g r * f') r := by
  rw [hasDerivAt_iff_tendsto_slope] at hf ⊢
  refine ((hg.tendsto.mono_left nhdsWithin_le_nhds).mul hf).congr fun s => ?_
  simp [slope_def_field, h0]
  ring

theorem expq_algebra (w x : V3) {n S C : ℝ} (t : ℝ) (h : n ≠ 0) (h3 : n ^ 2 = w 0 ^ 2 + w 1 ^ 2 + w 2 ^ 2)
    (hsc : S ^ 2 + C ^ 2 = 1) :
    (2 : ℝ) • vecPart (product (conjugate ![C, S / n * w 0, S / n * w 1, S / n * w 2])
      ![-S * ((w 0 * x 0 + w 1 * x 1 + w 2 * x 2) / n * (t / 2)),
        (C * ((w 0 * x 0 + w 1 * x 1 + w 2 * x 2) / n * (t / 2)) * n - S * ((w 0 * x 0 + w 1 * x 1 + w 2 * x 2) / n)) / n ^ 2 * w 0 + S / n * x 0,
        (C * ((w 0 * x 0 + w 1 * x 1 + w 2 * x 2) / n * (t / 2)) * n - S * ((w 0 * x 0 + w 1 * x 1 + w 2 * x 2) / n)) / n ^ 2 * w 1 + S / n * x 1,
        (C * ((w 0 * x 0 + w 1 * x 1 + w 2 * x 2) / n * (t / 2)) * n - S * ((w 0 * x 0 + w 1 * x 1 + w 2 * x 2) / n)) / n ^ 2 * w 2 + S / n * x 2])
    = -(((-t) • (1 : M3) + ((1 - (2 * C ^ 2 - 1)) / n ^ 2) • cross w
      + (-((n * t - 2 * S * C) / n ^ 3)) • (cross w * cross w)) *ᵥ x) := by
  rw [Matrix.add_mulVec, Matrix.add_mulVec, Matrix.smul_mulVec, Matrix.smul_mulVec, Matrix.smul_mulVec,
    Matrix.one_mulVec]
  have hd : ∀ a b : ℝ, a = S ^ 2 + C ^ 2 - 1 → b = n ^ 2 - (w 0 ^ 2 + w 1 ^ 2 + w 2 ^ 2) → a = 0 ∧ b = 0 :=
    fun a b ha hb => ⟨by rw [ha, hsc]; ring, by rw [hb, h3]; ring⟩
  obtain ⟨ha, hb⟩ := hd _ _ rfl rfl
  set dot := w 0 * x 0 + w 1 * x 1 + w 2 * x 2 with hdot
  refine vec3_ext ?_ ?_ ?_
  · have e : ∀ L R : ℝ, L - R = (t * dot / n ^ 2 * w 0 - 2 / n ^ 2 * (w 1 * x 2 - w 2 * x 1)) * (S ^ 2 + C ^ 2 - 1)
        - ((n * t - 2 * S * C) / n ^ 3) * x 0 * (n ^ 2 - (w 0 ^ 2 + w 1 ^ 2 + w 2 ^ 2)) → L = R := by
      intro L R h
      rw [ha, hb] at h
      linarith
    refine e _ _ ?_
    simp [vecPart, product_1, conjugate, cross, Matrix.mulVec, dotProduct, Fin.sum_univ_three, Matrix.mul_apply,
      Matrix.vecHead, Matrix.vecTail]
    rw [hdot]
    field_simp
    ring
  · have e : ∀ L R : ℝ, L - R = (t * dot / n ^ 2 * w 1 - 2 / n ^ 2 * (w 2 * x 0 - w 0 * x 2)) * (S ^ 2 + C ^ 2 - 1)
        - ((n * t - 2 * S * C) / n ^ 3) * x 1 * (n ^ 2 - (w 0 ^ 2 + w 1 ^ 2 + w 2 ^ 2)) → L = R := by
      intro L R h
      rw [ha, hb] at h
      linarith
    refine e _ _ ?_
    simp [vecPart, product_2, conjugate, cross, Matrix.mulVec, dotProduct, Fin.sum_univ_three, Matrix.mul_apply,
      Matrix.vecHead, Matrix.vecTail]
    rw [hdot]
    field_simp
    ring
  · have e : ∀ L R : ℝ, L - R = (t * dot / n ^ 2 * w 2 - 2 / n ^ 2 * (w 0 * x 1 - w 1 * x 0)) * (S ^ 2 + C ^ 2 - 1)
        - ((n * t - 2 * S * C) / n ^ 3) * x 2 * (n ^ 2 - (w 0 ^ 2 + w 1 ^ 2 + w 2 ^ 2)) → L = R := by
      intro L R h
      rw [ha, hb] at h
      linarith
    refine e _ _ ?_
    simp [vecPart, product_3, conjugate, cross, Matrix.mulVec, dotProduct, Fin.sum_univ_three, Matrix.mul_apply,
      Matrix.vecHead, Matrix.vecTail]
    rw [hdot]
    field_simp
    ring

theorem expq_rotates_algebra (w : V3) (a : V4) {n S C : ℝ} (h : n ≠ 0)
    (h3 : n ^ 2 = w 0 ^ 2 + w 1 ^ 2 + w 2 ^ 2) (hsc : S ^ 2 + C ^ 2 = 1) :
    vecPart (product (product (conjugate ![C, S / n * w 0, S / n * w 1, S / n * w 2]) a)
      ![C, S / n * w 0, S / n * w 1, S / n * w 2])
    = ((1 : ℝ) • (1 : M3) + (-(2 * S * C / n)) • cross w
      + ((1 - (2 * C ^ 2 - 1)) / n ^ 2) • (cross w * cross w)) *ᵥ vecPart a := by
  rw [Matrix.add_mulVec, Matrix.add_mulVec, Matrix.smul_mulVec, Matrix.smul_mulVec, Matrix.smul_mulVec,
    Matrix.one_mulVec]
  have ha : S ^ 2 + C ^ 2 - 1 = 0 := by rw [hsc]; ring
  have hb : n ^ 2 - (w 0 ^ 2 + w 1 ^ 2 + w 2 ^ 2) = 0 := by rw [h3]; ring
  have e : ∀ (v y L R : ℝ), L - R = (-v + 2 * (w 0 * a 1 + w 1 * a 2 + w 2 * a 3) / n ^ 2 * y) * (S ^ 2 + C ^ 2 - 1)
      + v * (S ^ 2 - 2 + 2 * C ^ 2) / n ^ 2 * (n ^ 2 - (w 0 ^ 2 + w 1 ^ 2 + w 2 ^ 2)) → L = R := by
    intro v y L R h
    rw [ha, hb] at h
    linarith
  refine vec3_ext (e (a 1) (w 0) _ _ ?_) (e (a 2) (w 1) _ _ ?_) (e (a 3) (w 2) _ _ ?_)
  all_goals
    simp [vecPart, product_0, product_1, product_2, product_3, conjugate, cross, Matrix.mulVec, dotProduct,
      Fin.sum_univ_three, Matrix.mul_apply, Matrix.vecHead, Matrix.vecTail]
    field_simp
    ring

/-- Seen from an attitude that has turned for the time `t`, a vector is rotated by `phi11`. -/
theorem expq_rotates (w : V3) (t : ℝ) (a : V4) :
    vecPart (product (product (conjugate (expq w t)) a) (expq w t)) = Att.phi11 w t *ᵥ vecPart a := by
  by_cases h : npNorm w = 0
  · have : expq w t = ![1, 0, 0, 0] := by
      refine vec4_ext ?_ ?_ ?_ ?_ <;> simp [expq, h]
    rw [this, phi11_zero h, Matrix.one_mulVec]
    refine vec3_ext ?_ ?_ ?_ <;>
      simp [vecPart, product_0, product_1, product_2, product_3, conjugate]
  · have e2 : npNorm w * t = 2 * (npNorm w * (t / 2)) := by ring
    rw [phi11_eq h, show Real.sin (npNorm w * t) = 2 * Real.sin (npNorm w * (t / 2)) *
        Real.cos (npNorm w * (t / 2)) by rw [e2, Real.sin_two_mul],
      show Real.cos (npNorm w * t) = 2 * Real.cos (npNorm w * (t / 2)) ^ 2 - 1 by rw [e2, Real.cos_two_mul]]
    exact expq_rotates_algebra w a h (npNorm3_sq w) (Real.sin_sq_add_cos_sq _)

/-- The quaternion of turning for the time `t` when the rate changes by `u'`. -/
theorem expq_param {u : ℝ → V3} {u' : V3} (hu : HasDerivAt u u' 0) (t : ℝ) :
    ∃ E', HasDerivAt (fun r => expq (u r) t) E' 0 ∧
      (2 : ℝ) • vecPart (product (conjugate (expq (u 0) t)) E') = -(Att.phi12 (u 0) t *ᵥ u') := by
  have k := hasDerivAt_pi.1 hu
  by_cases h : npNorm (u 0) = 0
  · have hw : u 0 = 0 := npNorm_eq_zero.1 h
    have hnc : ContinuousAt (fun r => npNorm (u r)) 0 := by
      have e : (fun s => npNorm (u s)) = fun s => Real.sqrt (u s 0 ^ 2 + u s 1 ^ 2 + u s 2 ^ 2) := by
        funext s
        rw [← npNorm3_sq, Real.sqrt_sq (npNorm_nonneg _)]
      rw [e]
      have c := fun i => (k i).continuousAt
      exact ((((c 0).pow 2).add ((c 1).pow 2)).add ((c 2).pow 2)).sqrt
    have hg : ContinuousAt (fun r => t / 2 * Real.sinc (npNorm (u r) * (t / 2))) 0 :=
      ((Real.continuous_sinc.continuousAt).comp (hnc.mul_const (t / 2))).const_mul (t / 2)
    have hv : ∀ i, HasDerivAt (fun r => Real.sin (npNorm (u r) * (t / 2)) / npNorm (u r) * u r i)
        (t / 2 * u' i) 0 := by
      intro i
      have := hasDerivAt_mul_of_zero hg (k i) (by simp [hw])
      refine HasDerivAt.congr_of_eventuallyEq (this.congr_deriv (by simp [h])) (.of_forall fun r => ?_)
      by_cases hr : npNorm (u r) = 0
      · have : u r = 0 := npNorm_eq_zero.1 hr
        simp [this]
      · by_cases ht : t = 0
        · simp [ht]
        · simp only [Real.sinc, if_neg (mul_ne_zero hr (div_ne_zero ht two_ne_zero))]
          field_simp
    have hgc : ContinuousAt (fun r => -2 * (t / 4 * Real.sinc (npNorm (u r) * (t / 4))) ^ 2) 0 :=
      ((((Real.continuous_sinc.continuousAt).comp (hnc.mul_const (t / 4))).const_mul (t / 4)).pow 2).const_mul (-2)
    have hs : HasDerivAt (fun r => u r 0 ^ 2 + u r 1 ^ 2 + u r 2 ^ 2) 0 0 := by
      refine ((((k 0).fun_pow 2).fun_add ((k 1).fun_pow 2)).fun_add ((k 2).fun_pow 2)).congr_deriv ?_
      simp [hw]
    have hc : HasDerivAt (fun r => Real.cos (npNorm (u r) * (t / 2))) 0 0 := by
      have := (hasDerivAt_mul_of_zero hgc hs (by simp [hw])).add_const 1
      refine HasDerivAt.congr_of_eventuallyEq (this.congr_deriv (by simp)) (.of_forall fun r => ?_)
      have h2 : npNorm (u r) * (t / 2) = 2 * (npNorm (u r) * (t / 4)) := by ring
      simp only [← npNorm3_sq]
      rw [h2, Real.cos_two_mul, Real.cos_sq']
      by_cases hr : npNorm (u r) * (t / 4) = 0
      · have : npNorm (u r) = 0 ∨ t = 0 := by
          rcases mul_eq_zero.1 hr with h | h
          · exact .inl h
          · exact .inr (by linarith)
        rcases this with h | h <;> simp [h] <;> norm_num
      · simp only [Real.sinc, if_neg hr]
        have h5 := left_ne_zero_of_mul hr
        have h6 : t ≠ 0 := fun h => right_ne_zero_of_mul hr (by rw [h]; simp)
        field_simp
        ring
    refine ⟨![0, t / 2 * u' 0, t / 2 * u' 1, t / 2 * u' 2], ?_, ?_⟩
    · rw [hasDerivAt_pi]
      intro i
      fin_cases i
      · exact hc
      · exact hv 0
      · exact hv 1
      · exact hv 2
    · rw [phi12_zero h, Matrix.smul_mulVec, Matrix.one_mulVec]
      have : expq (u 0) t = ![1, 0, 0, 0] := by
        refine vec4_ext ?_ ?_ ?_ ?_ <;> simp [expq, h]
      rw [this]
      refine vec3_ext ?_ ?_ ?_ <;>
        simp [vecPart, product_1, product_2, product_3, conjugate] <;> ring
  · have hn := npNorm_deriv hu h
    have ha := hn.mul_const (t / 2)
    have hc := ha.cos
    have hs := ha.sin.fun_div hn h
    set D := (u 0 0 * u' 0 + u 0 1 * u' 1 + u 0 2 * u' 2) / npNorm (u 0) with hD
    set a := npNorm (u 0) * (t / 2) with hadef
    refine ⟨![-Real.sin a * (D * (t / 2)),
      (Real.cos a * (D * (t / 2)) * npNorm (u 0) - Real.sin a * D) / npNorm (u 0) ^ 2 * u 0 0
        + Real.sin a / npNorm (u 0) * u' 0,
      (Real.cos a * (D * (t / 2)) * npNorm (u 0) - Real.sin a * D) / npNorm (u 0) ^ 2 * u 0 1
        + Real.sin a / npNorm (u 0) * u' 1,
      (Real.cos a * (D * (t / 2)) * npNorm (u 0) - Real.sin a * D) / npNorm (u 0) ^ 2 * u 0 2
        + Real.sin a / npNorm (u 0) * u' 2], hasDerivAt_pi.2 fun i => ?_, ?_⟩
    · fin_cases i
      · exact hc
      · exact hs.fun_mul (k 0)
      · exact hs.fun_mul (k 1)
      · exact hs.fun_mul (k 2)
    · have e2 : npNorm (u 0) * t = 2 * a := by rw [hadef]; ring
      have := expq_algebra (u 0) u' t h (npNorm3_sq (u 0)) (Real.sin_sq_add_cos_sq a)
      rw [phi12_eq h, show Real.sin (npNorm (u 0) * t) = 2 * Real.sin a * Real.cos a by
        rw [e2, Real.sin_two_mul], show Real.cos (npNorm (u 0) * t) = 2 * Real.cos a ^ 2 - 1 by
        rw [e2, Real.cos_two_mul]]
      exact this

end Adcs
