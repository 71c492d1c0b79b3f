import Verif.Proofs.Mismatch

set_option autoImplicit false

/-! # Errors of the readings as errors of the acceleration -/

namespace Adcs

open Str Ctl Sens JDay Quat Vec Dyn
open scoped Matrix

/-- Constants for the gains, a width `h` at which the sign switches at the earliest, one `h2` at which it has switched at
the latest, a bound of the first rate and one of the disturbances. -/
theorem read_consts {alpha gamma h h2 : ℝ} (ha : 0 < alpha) (hg : 0 < gamma) (h0 : 0 < h) (h20 : 0 < h2) (h1 : h2 < 1)
    (M Δ : ℝ) :
    ∃ eps k : ℝ, 0 < eps ∧ 0 < k ∧ eps ^ 2 ≤ alpha / 2 ∧ eps * (1 + gamma ^ 2 / alpha) ≤ gamma ∧ 3 * k ≤ gamma ∧
      12 * k ≤ eps * (1 - h2) ∧
      eps ^ 2 * (3 / 2 * (M ^ 2 / 2 + 4 * alpha) + 1 + 4 * (1 / gamma + eps / alpha) * Δ ^ 2 / k) ≤
        alpha ^ 2 * h ^ 2 / 4 := by
  obtain ⟨e0, k0, he0, -, r1, r2, -, -⟩ := rate_exists ha hg h1
  have h1' : 0 < 1 - h2 := by linarith
  obtain ⟨P, hP⟩ : ∃ P, P = 3 / 2 * (M ^ 2 / 2 + 4 * alpha) + 1 := ⟨_, rfl⟩
  obtain ⟨Q, hQ⟩ : ∃ Q, Q = 96 * Δ ^ 2 / (gamma * (1 - h2)) := ⟨_, rfl⟩
  have hP0 : 0 < P := by rw [hP]; positivity
  have hQ0 : 0 ≤ Q := by rw [hQ]; positivity
  obtain ⟨e, he⟩ : ∃ e, e = min (min 1 e0) (alpha ^ 2 * h ^ 2 / 4 / (P + Q)) := ⟨_, rfl⟩
  have hep : 0 < e := by rw [he]; exact lt_min (lt_min one_pos he0) (by positivity)
  have l1 : e ≤ 1 := he ▸ (min_le_left _ _).trans (min_le_left _ _)
  have l2 : e ≤ e0 := he ▸ (min_le_left _ _).trans (min_le_right _ _)
  have l3 : e * (P + Q) ≤ alpha ^ 2 * h ^ 2 / 4 := by
    rw [← le_div_iff₀ (by positivity)]; exact he ▸ min_le_right _ _
  have s2 : e * (1 + gamma ^ 2 / alpha) ≤ gamma := le_trans (by gcongr) r2
  have heg : e ≤ gamma := by
    have : 0 ≤ e * (gamma ^ 2 / alpha) := by positivity
    linarith
  have hea : e / alpha ≤ 1 / gamma := by
    have h2 : gamma * (gamma * e / alpha) ≤ gamma * 1 := by
      have e1 : gamma * (gamma * e / alpha) = e * (gamma ^ 2 / alpha) := by ring
      linarith
    have h3 := le_of_mul_le_mul_left h2 hg
    rw [le_div_iff₀ hg]
    calc e / alpha * gamma = gamma * e / alpha := by ring
      _ ≤ 1 := h3
  refine ⟨e, e * (1 - h2) / 12, hep, by positivity, le_trans (by gcongr) r1, s2, ?_, by linarith, ?_⟩
  · have : e * (1 - h2) ≤ e * 1 := mul_le_mul_of_nonneg_left (by linarith) hep.le
    linarith
  · rw [← hP]
    have hG : e * (4 * (1 / gamma + e / alpha) * Δ ^ 2 / (e * (1 - h2) / 12)) ≤ Q := by
      have e1 : e * (4 * (1 / gamma + e / alpha) * Δ ^ 2 / (e * (1 - h2) / 12)) =
          48 * Δ ^ 2 / (1 - h2) * (1 / gamma + e / alpha) := by field_simp; ring
      have e2 : Q = 48 * Δ ^ 2 / (1 - h2) * (1 / gamma + 1 / gamma) := by rw [hQ]; field_simp; ring
      rw [e1, e2]
      gcongr
    have h4 : e ^ 2 * P ≤ e * P := by
      have : e ^ 2 ≤ e := by nlinarith
      exact mul_le_mul_of_nonneg_right this hP0.le
    have h3 : e ^ 2 * (4 * (1 / gamma + e / alpha) * Δ ^ 2 / (e * (1 - h2) / 12)) ≤ e * Q := by
      rw [sq, mul_assoc]; exact mul_le_mul_of_nonneg_left hG hep.le
    rw [mul_add]
    linarith

/-- An error of the attitude shows in the error quaternion in the same size. -/
theorem errorQuat_near {q q' qc : V4} (hqc : npNorm qc = 1) :
    |errorQuat q' qc 0 - errorQuat q qc 0| ≤ npNorm (q' - q) ∧
      npNorm (vecPart (errorQuat q' qc) - vecPart (errorQuat q qc)) ≤ npNorm (q' - q) := by
  have hc := (isUnit4_iff _).2 hqc
  unfold IsUnit4 at hc
  have hsq : npNorm (q' - q) ^ 2 = (q' 0 - q 0) ^ 2 + (q' 1 - q 1) ^ 2 + (q' 2 - q 2) ^ 2 + (q' 3 - q 3) ^ 2 := by
    rw [npNorm, Real.sq_sqrt (Finset.sum_nonneg fun i _ => sq_nonneg _), Fin.sum_univ_four]; rfl
  have key : (errorQuat q' qc 0 - errorQuat q qc 0) ^ 2
      + npNorm (vecPart (errorQuat q' qc) - vecPart (errorQuat q qc)) ^ 2 = npNorm (q' - q) ^ 2 := by
    rw [hsq, npNorm3_sq]
    simp only [Pi.sub_apply, vecPart, errorQuat, product_0, product_1, product_2, product_3, conjugate_0, conjugate_1,
      conjugate_2, conjugate_3, Matrix.cons_val_zero, Matrix.cons_val_one, Matrix.cons_val]
    linear_combination ((q' 0 - q 0) ^ 2 + (q' 1 - q 1) ^ 2 + (q' 2 - q 2) ^ 2 + (q' 3 - q 3) ^ 2) * hc
  constructor
  · refine abs_le_of_sq_le_sq ?_ (npNorm_nonneg _)
    rw [← key]; linarith [sq_nonneg (npNorm (vecPart (errorQuat q' qc) - vecPart (errorQuat q qc)))]
  · refine le_of_sq_le_sq ?_ (npNorm_nonneg _)
    rw [← key]; linarith [sq_nonneg (errorQuat q' qc 0 - errorQuat q qc 0)]

/-- An error of the wheel speeds shows in the momentum in proportion. -/
theorem momentum_near (s : RWSystem) : ∃ C : ℝ, 0 ≤ C ∧ ∀ (a b : Fin s.n → ℝ) (η : ℝ), (∀ i, |a i - b i| ≤ η) →
    npNorm (s.momentum a - s.momentum b) ≤ C * η := by
  refine ⟨∑ k : Fin 3, ∑ i, |(s.wheels i).axis k * (s.wheels i).parScalar|, by positivity, fun a b η h => ?_⟩
  have hk : ∀ k, |(s.momentum a - s.momentum b) k| ≤ (∑ i, |(s.wheels i).axis k * (s.wheels i).parScalar|) * η := by
    intro k
    have e : (s.momentum a - s.momentum b) k = ∑ i, (s.wheels i).axis k * (s.wheels i).parScalar * (a i - b i) := by
      simp only [Pi.sub_apply, RWSystem.momentum, Finset.sum_apply, Wheel.momentum]
      rw [← Finset.sum_sub_distrib]
      exact Finset.sum_congr rfl fun i _ => by ring
    rw [e, Finset.sum_mul]
    refine (Finset.abs_sum_le_sum_abs _ _).trans (Finset.sum_le_sum fun i _ => ?_)
    rw [abs_mul]
    exact mul_le_mul_of_nonneg_left (h i) (abs_nonneg _)
  have hn : ∀ x : V3, npNorm x ≤ |x 0| + |x 1| + |x 2| := by
    intro x
    refine le_of_sq_le_sq ?_ (by positivity)
    rw [npNorm3_sq, ← sq_abs (x 0), ← sq_abs (x 1), ← sq_abs (x 2)]
    nlinarith [mul_nonneg (abs_nonneg (x 0)) (abs_nonneg (x 1)), mul_nonneg (abs_nonneg (x 0)) (abs_nonneg (x 2)),
      mul_nonneg (abs_nonneg (x 1)) (abs_nonneg (x 2))]
  refine (hn _).trans ?_
  rw [Fin.sum_univ_three, add_mul, add_mul]
  linarith [hk 0, hk 1, hk 2]

/-- What the errors `d` of the rate and `g` of the momentum of the wheels do to the gyroscopic term: a part that is
proportional to the rate, and a part that is bounded. -/
theorem gyro_split (I : M3) (w d h g : V3) :
    npCross (w + d) (I *ᵥ (w + d) + (h + g)) - npCross w (I *ᵥ w + h) =
      (npCross w (I *ᵥ d + g) + npCross d (I *ᵥ w)) + npCross d (I *ᵥ d + h + g) := by
  simp only [npCross_eq_crossProduct, Matrix.mulVec_add, map_add, LinearMap.add_apply]
  abel

theorem gyro_sizes {I K : M3} {j k η H C : ℝ} (hj : 0 ≤ j) (hk : 0 ≤ k) (hI : ∀ x, npNorm (I *ᵥ x) ≤ j * npNorm x)
    (hK : ∀ x, npNorm (K *ᵥ x) ≤ k * npNorm x) (hη : η ≤ 1) (hC : 0 ≤ C) {w d h g : V3}
    (hd : npNorm d ≤ η) (hg : npNorm g ≤ C * η) (hh : npNorm h ≤ H) :
    npNorm (K *ᵥ (npCross w (I *ᵥ d + g) + npCross d (I *ᵥ w))) ≤ k * (2 * j + C) * η * npNorm w ∧
    npNorm (K *ᵥ npCross d (I *ᵥ d + h + g)) ≤ k * (j + H + C) * η := by
  have hη0 : 0 ≤ η := (npNorm_nonneg d).trans hd
  have n := fun x : V3 => npNorm_nonneg x
  have hId : npNorm (I *ᵥ d) ≤ j * η := (hI d).trans (mul_le_mul_of_nonneg_left hd hj)
  constructor
  · have h1 : npNorm (npCross w (I *ᵥ d + g)) ≤ npNorm w * (j * η + C * η) :=
      (cross_norm_le _ _).trans (mul_le_mul_of_nonneg_left ((npNorm_add3 _ _).trans (add_le_add hId hg)) (n w))
    have h2 : npNorm (npCross d (I *ᵥ w)) ≤ η * (j * npNorm w) :=
      (cross_norm_le _ _).trans (mul_le_mul hd (hI w) (n _) hη0)
    have h3 := (npNorm_add3 _ _).trans (add_le_add h1 h2)
    refine (hK _).trans ((mul_le_mul_of_nonneg_left h3 hk).trans (le_of_eq ?_))
    ring
  · have h1 : npNorm (I *ᵥ d + h + g) ≤ j + H + C := by
      refine (npNorm_add3 _ _).trans (add_le_add ((npNorm_add3 _ _).trans (add_le_add (hId.trans ?_) hh)) (hg.trans ?_))
      · exact mul_le_of_le_one_right hj hη
      · exact mul_le_of_le_one_right hC hη
    have h2 : npNorm (npCross d (I *ᵥ d + h + g)) ≤ η * (j + H + C) :=
      (cross_norm_le _ _).trans (mul_le_mul hd h1 (n _) hη0)
    refine (hK _).trans ((mul_le_mul_of_nonneg_left h2 hk).trans (le_of_eq ?_))
    ring

end Adcs
