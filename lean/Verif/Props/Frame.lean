import Verif.Proofs.Quat
import Verif.Model.Frame
import Mathlib.Analysis.SpecialFunctions.Trigonometric.Deriv
import Mathlib.Analysis.Calculus.Deriv.Prod

set_option autoImplicit false

/-! # C14–C16: reference frames -/

namespace Adcs

open Vec Fr
open scoped Matrix

/-- C14: `inertial_to_ecef` is a proper rotation fixing the pole. -/
theorem C14_ecef_rotation (θ : ℝ) :
    (inertialToEcef θ)ᵀ * inertialToEcef θ = 1 ∧ (inertialToEcef θ).det = 1 ∧
    inertialToEcef θ *ᵥ ![0, 0, 1] = ![0, 0, 1] := by
  have h := Real.sin_sq_add_cos_sq θ
  refine ⟨?_, ?_, ?_⟩
  · ext i j
    fin_cases i <;> fin_cases j <;>
      simp [inertialToEcef, Matrix.mul_apply, Fin.sum_univ_three] <;>
      first | linear_combination h | ring
  · simp [inertialToEcef, Matrix.det_fin_three]
    linear_combination h
  · funext i
    fin_cases i <;> simp [inertialToEcef, Matrix.mulVec, dotProduct, Fin.sum_univ_three]

/-- C14: lengths are preserved. -/
theorem C14_ecef_norm (θ : ℝ) (v : V3) : npNorm (inertialToEcef θ *ᵥ v) = npNorm v := by
  have h := (C14_ecef_rotation θ).1
  have : npNorm (inertialToEcef θ *ᵥ v) ^ 2 = npNorm v ^ 2 := by
    rw [npNorm_sq_dot, npNorm_sq_dot, npDot_eq_dotProduct, npDot_eq_dotProduct,
      Matrix.dotProduct_mulVec, Matrix.vecMul_mulVec, h, Matrix.vecMul_one]
  exact (sq_eq_sq₀ (npNorm_nonneg _) (npNorm_nonneg _)).1 this

/-- C14: a point fixed in ECEF, seen in the inertial frame, turns eastward: its derivative with
respect to the sidereal angle is `z × r`. -/
theorem C14_ecef_eastward (p : V3) (θ : ℝ) :
    HasDerivAt (fun t => (inertialToEcef t)ᵀ *ᵥ p)
      (![0, 0, 1] ⨯₃ ((inertialToEcef θ)ᵀ *ᵥ p)) θ := by
  rw [hasDerivAt_pi]
  intro i
  fin_cases i
  · simp only [inertialToEcef, Matrix.mulVec, dotProduct, Fin.sum_univ_three, cross_apply]
    simp
    have := ((Real.hasDerivAt_cos θ).mul_const (p 0)).sub ((Real.hasDerivAt_sin θ).mul_const (p 1))
    convert this using 1
    · funext t; simp; ring
    · ring
  · simp only [inertialToEcef, Matrix.mulVec, dotProduct, Fin.sum_univ_three, cross_apply]
    simp
    have := ((Real.hasDerivAt_sin θ).mul_const (p 0)).add ((Real.hasDerivAt_cos θ).mul_const (p 1))
    convert this using 1
    · rfl
    · ring
  · simp only [inertialToEcef, Matrix.mulVec, dotProduct, Fin.sum_univ_three, cross_apply]
    simp
    exact hasDerivAt_const _ _

theorem cross_ne_zero_left {r v : V3} (h : r ⨯₃ v ≠ 0) : r ≠ 0 := by
  rintro rfl; simp at h

/-- C15: for non-parallel position and velocity, `lvlh_to_inertial` is a proper rotation. -/
theorem C15_lvlh_rotation (r v : V3) (h : r ⨯₃ v ≠ 0) :
    (lvlhToInertial r v)ᵀ * lvlhToInertial r v = 1 ∧ (lvlhToInertial r v).det = 1 := by
  have hr := cross_ne_zero_left h
  rw [← npCross_eq_crossProduct] at h
  have h3 := normalize_sumSq hr
  have h2 := normalize_sumSq h
  have h23 : normalizeV (npCross r v) 0 * normalizeV r 0 + normalizeV (npCross r v) 1 * normalizeV r 1
      + normalizeV (npCross r v) 2 * normalizeV r 2 = 0 := by
    rw [normalize_eq hr, normalize_eq h]
    simp [npCross_0, npCross_1, npCross_2]; ring
  rw [Fin.sum_univ_three] at h2 h3
  generalize hc : normalizeV r = c at *
  generalize hb : normalizeV (npCross r v) = b at *
  have e : lvlhToInertial r v = !![b 1 * c 2 - b 2 * c 1, -b 0, -c 0;
      b 2 * c 0 - b 0 * c 2, -b 1, -c 1; b 0 * c 1 - b 1 * c 0, -b 2, -c 2] := by
    simp [lvlhToInertial, hb, hc, npCross_0, npCross_1, npCross_2]
  rw [e]
  constructor
  · ext i j
    fin_cases i <;> fin_cases j <;> simp [Matrix.mul_apply, Fin.sum_univ_three]
    · linear_combination (c 0 ^ 2 + c 1 ^ 2 + c 2 ^ 2) * h2 + h3 -
        (b 0 * c 0 + b 1 * c 1 + b 2 * c 2) * h23
    · ring
    · ring
    · ring
    · linear_combination h2
    · linear_combination h23
    · ring
    · linear_combination h23
    · linear_combination h3
  · rw [Matrix.det_fin_three]
    simp
    linear_combination (c 0 ^ 2 + c 1 ^ 2 + c 2 ^ 2) * h2 + h3 -
        (b 0 * c 0 + b 1 * c 1 + b 2 * c 2) * h23

/-- C15: the third axis points to the centre of the Earth, the second against the orbital angular
momentum, the first has a positive component along the velocity. -/
theorem C15_lvlh_axes (r v : V3) (h : r ⨯₃ v ≠ 0) :
    (∃ c : ℝ, 0 < c ∧ (fun i => lvlhToInertial r v i 2) = -(c • r)) ∧
    (∃ c : ℝ, 0 < c ∧ (fun i => lvlhToInertial r v i 1) = -(c • (r ⨯₃ v))) ∧
    0 < v ⬝ᵥ (fun i => lvlhToInertial r v i 0) := by
  have hr := cross_ne_zero_left h
  rw [← npCross_eq_crossProduct] at h
  have pr := inv_pos.2 (npNorm_pos hr)
  have ph := inv_pos.2 (npNorm_pos h)
  refine ⟨⟨_, pr, ?_⟩, ⟨_, ph, ?_⟩, ?_⟩
  · rw [← normalize_eq hr]; funext i; fin_cases i <;> simp [lvlhToInertial]
  · rw [← npCross_eq_crossProduct, ← normalize_eq h]; funext i; fin_cases i <;> simp [lvlhToInertial]
  · have e : v ⬝ᵥ (fun i => lvlhToInertial r v i 0) =
        (npNorm r)⁻¹ * (npNorm (npCross r v))⁻¹ * npNorm (npCross r v) ^ 2 := by
      rw [npNorm3_sq]
      simp only [dotProduct, Fin.sum_univ_three, lvlhToInertial, normalize_eq hr, normalize_eq h]
      simp [npCross_0, npCross_1, npCross_2]
      ring
    rw [e]
    have := npNorm_pos h
    positivity

example : (![7000000, 0, 0] : V3) ⨯₃ ![0, 7500, 0] ≠ 0 := by
  intro h
  have := congrFun h 2
  simp [cross_apply] at this

/-- Semi-axes and normal of the ellipsoid used by `geodetic_to_ECEF`. -/
noncomputable def ellA : ℝ := 6378137
noncomputable def ellB2 : ℝ := 6378137 ^ 2 * (1 - 0.0818 ^ 2)

theorem geodetic_root_pos (lat : ℝ) : 0 < 1 - (0.0818 * Real.sin lat) ^ 2 := by
  have := Real.sin_sq_le_one lat
  rw [mul_pow]; nlinarith

/-- C16: points of height zero lie on the ellipsoid `(x²+y²)/a² + z²/b² = 1`. -/
theorem C16_geodetic_on_ellipsoid (lat long : ℝ) :
    let p := geodeticToEcef lat long 0
    (p 0 ^ 2 + p 1 ^ 2) / ellA ^ 2 + p 2 ^ 2 / ellB2 = 1 := by
  intro p
  have hs := geodetic_root_pos lat
  have hq := Real.sq_sqrt hs.le
  have hq0 := (Real.sqrt_pos.2 hs).ne'
  have h1 := Real.sin_sq_add_cos_sq lat
  have h2 := Real.sin_sq_add_cos_sq long
  have hp : (p 0 ^ 2 + p 1 ^ 2) / ellA ^ 2 + p 2 ^ 2 / ellB2 =
      (Real.cos lat ^ 2 * (Real.sin long ^ 2 + Real.cos long ^ 2) +
        (1 - 0.0818 ^ 2) * Real.sin lat ^ 2) / Real.sqrt (1 - (0.0818 * Real.sin lat) ^ 2) ^ 2 := by
    simp only [p, geodeticToEcef, ellA, ellB2]
    generalize Real.sqrt (1 - (0.0818 * Real.sin lat) ^ 2) = k at *
    simp
    field_simp
    linear_combination Real.cos lat ^ 2 * h2
  rw [hp, hq, div_eq_one_iff_eq hs.ne', h2]
  linear_combination h1

/-- C16: height moves the point along a fixed unit vector which is the outward normal of the
ellipsoid at the foot point. -/
theorem C16_geodetic_height (lat long h : ℝ) :
    ∃ n : V3, npNorm n = 1 ∧ geodeticToEcef lat long h = geodeticToEcef lat long 0 + h • n ∧
      ∃ k : ℝ, 0 < k ∧ n = k • ![geodeticToEcef lat long 0 0 / ellA ^ 2,
        geodeticToEcef lat long 0 1 / ellA ^ 2, geodeticToEcef lat long 0 2 / ellB2] := by
  have hs := geodetic_root_pos lat
  have hq := Real.sqrt_pos.2 hs
  have h1 := Real.sin_sq_add_cos_sq lat
  have h2 := Real.sin_sq_add_cos_sq long
  refine ⟨![Real.cos lat * Real.cos long, Real.cos lat * Real.sin long, Real.sin lat],
    npNorm_vec3 (by linear_combination h1 + Real.cos lat ^ 2 * h2), ?_,
    6378137 * Real.sqrt (1 - (0.0818 * Real.sin lat) ^ 2), by positivity, ?_⟩
  · apply vec3_ext <;> simp [geodeticToEcef] <;> ring
  · have hq0 := hq.ne'
    simp only [geodeticToEcef, ellA, ellB2]
    generalize Real.sqrt (1 - (0.0818 * Real.sin lat) ^ 2) = k at *
    apply vec3_ext
    · simp; field_simp
    · simp; field_simp
    · simp; field_simp

end Adcs
