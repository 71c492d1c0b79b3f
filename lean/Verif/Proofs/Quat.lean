import Verif.Proofs.Basic
import Verif.Spec.Rotation

set_option autoImplicit false

/-! # Helper lemmas about quaternions -/

namespace Adcs

open Vec Quat
open scoped Matrix Quaternion

theorem toH_injective : Function.Injective Spec.toH := by
  intro a b h
  have h0 := congrArg QuaternionAlgebra.re h
  have h1 := congrArg QuaternionAlgebra.imI h
  have h2 := congrArg QuaternionAlgebra.imJ h
  have h3 := congrArg QuaternionAlgebra.imK h
  exact vec4_ext h0 h1 h2 h3

theorem toH_product (a b : V4) : Spec.toH (product a b) = Spec.toH a * Spec.toH b := by
  ext
  · rw [Quaternion.re_mul]; exact product_0 a b
  · rw [Quaternion.imI_mul]; exact product_1 a b
  · rw [Quaternion.imJ_mul]; exact product_2 a b
  · rw [Quaternion.imK_mul]; exact product_3 a b

theorem toH_conjugate (q : V4) : Spec.toH (conjugate q) = star (Spec.toH q) := by
  ext
  · rw [Quaternion.re_star]; rfl
  · rw [Quaternion.imI_star]; rfl
  · rw [Quaternion.imJ_star]; rfl
  · rw [Quaternion.imK_star]; rfl

theorem product_assoc (a b c : V4) : product (product a b) c = product a (product b c) := by
  apply toH_injective; simp only [toH_product, mul_assoc]

theorem one_product (a : V4) : product ![1, 0, 0, 0] a = a := by
  apply vec4_ext <;> simp [product_0, product_1, product_2, product_3]

theorem product_one (a : V4) : product a ![1, 0, 0, 0] = a := by
  apply vec4_ext <;> simp [product_0, product_1, product_2, product_3]

theorem product_conj_self {q : V4} (h : IsUnit4 q) : product q (conjugate q) = ![1, 0, 0, 0] := by
  unfold IsUnit4 at h
  apply vec4_ext <;>
    simp [product_0, product_1, product_2, product_3, conjugate_0, conjugate_1, conjugate_2,
      conjugate_3]
  · linear_combination h
  all_goals ring

theorem conj_product_self {q : V4} (h : IsUnit4 q) : product (conjugate q) q = ![1, 0, 0, 0] := by
  unfold IsUnit4 at h
  apply vec4_ext <;>
    simp [product_0, product_1, product_2, product_3, conjugate_0, conjugate_1, conjugate_2,
      conjugate_3]
  · linear_combination h
  all_goals ring

theorem conjugate_conjugate (q : V4) : conjugate (conjugate q) = q := by
  apply vec4_ext <;> simp [conjugate_0, conjugate_1, conjugate_2, conjugate_3]

theorem conjugate_product (a b : V4) :
    conjugate (product a b) = product (conjugate b) (conjugate a) := by
  apply toH_injective; simp only [toH_conjugate, toH_product, star_mul]

theorem isUnit4_conjugate {q : V4} (h : IsUnit4 q) : IsUnit4 (conjugate q) := by
  simpa [IsUnit4, conjugate_0, conjugate_1, conjugate_2, conjugate_3] using h

theorem isUnit4_neg {q : V4} (h : IsUnit4 q) : IsUnit4 (-q) := by
  simpa [IsUnit4] using h

theorem sumSq_product (a b : V4) :
    product a b 0 ^ 2 + product a b 1 ^ 2 + product a b 2 ^ 2 + product a b 3 ^ 2 =
      (a 0 ^ 2 + a 1 ^ 2 + a 2 ^ 2 + a 3 ^ 2) * (b 0 ^ 2 + b 1 ^ 2 + b 2 ^ 2 + b 3 ^ 2) := by
  rw [product_0, product_1, product_2, product_3]; ring

theorem isUnit4_product {a b : V4} (ha : IsUnit4 a) (hb : IsUnit4 b) :
    IsUnit4 (product a b) := by
  unfold IsUnit4 at *; rw [sumSq_product, ha, hb, one_mul]

/-- The matrix of `sandwich q`. -/
def dcm (q : V4) : M3 :=
  !![q 0 ^ 2 + q 1 ^ 2 - q 2 ^ 2 - q 3 ^ 2, 2 * (q 1 * q 2 + q 0 * q 3), 2 * (q 1 * q 3 - q 0 * q 2);
     2 * (q 1 * q 2 - q 0 * q 3), q 0 ^ 2 - q 1 ^ 2 + q 2 ^ 2 - q 3 ^ 2, 2 * (q 2 * q 3 + q 0 * q 1);
     2 * (q 1 * q 3 + q 0 * q 2), 2 * (q 2 * q 3 - q 0 * q 1), q 0 ^ 2 - q 1 ^ 2 - q 2 ^ 2 + q 3 ^ 2]

theorem sandwich_eq_dcm (q : V4) (v : V3) : sandwich q v = dcm q *ᵥ v := by
  apply vec3_ext
  · rw [sandwich_0]; simp [dcm, Matrix.mulVec, dotProduct, Fin.sum_univ_three]
  · rw [sandwich_1]; simp [dcm, Matrix.mulVec, dotProduct, Fin.sum_univ_three]
  · rw [sandwich_2]; simp [dcm, Matrix.mulVec, dotProduct, Fin.sum_univ_three]

theorem dcm_isRotation {q : V4} (h : IsUnit4 q) : Spec.IsRotation (dcm q) := by
  unfold IsUnit4 at h
  constructor
  · ext i j
    fin_cases i <;> fin_cases j <;>
      simp [dcm, Matrix.mul_apply, Fin.sum_univ_three]
    · linear_combination (q 0 ^ 2 + q 1 ^ 2 + q 2 ^ 2 + q 3 ^ 2 + 1) * h
    · ring
    · ring
    · ring
    · linear_combination (q 0 ^ 2 + q 1 ^ 2 + q 2 ^ 2 + q 3 ^ 2 + 1) * h
    · ring
    · ring
    · ring
    · linear_combination (q 0 ^ 2 + q 1 ^ 2 + q 2 ^ 2 + q 3 ^ 2 + 1) * h
  · rw [Matrix.det_fin_three]
    simp [dcm]
    linear_combination ((q 0 ^ 2 + q 1 ^ 2 + q 2 ^ 2 + q 3 ^ 2) ^ 2 +
      (q 0 ^ 2 + q 1 ^ 2 + q 2 ^ 2 + q 3 ^ 2) + 1) * h

theorem sandwich_neg (q : V4) (v : V3) : sandwich (-q) v = sandwich q v := by
  apply vec3_ext
  · simp [sandwich_0]
  · simp [sandwich_1]
  · simp [sandwich_2]

theorem sandwich_product (p q : V4) (v : V3) :
    sandwich (product p q) v = sandwich q (sandwich p v) := by
  apply vec3_ext
  · simp only [sandwich_0, sandwich_1, sandwich_2, product_0, product_1, product_2, product_3]; ring
  · simp only [sandwich_0, sandwich_1, sandwich_2, product_0, product_1, product_2, product_3]; ring
  · simp only [sandwich_0, sandwich_1, sandwich_2, product_0, product_1, product_2, product_3]; ring

theorem sandwich_one (v : V3) : sandwich ![1, 0, 0, 0] v = v := by
  apply vec3_ext
  · rw [sandwich_0]; simp
  · rw [sandwich_1]; simp
  · rw [sandwich_2]; simp

theorem sandwichOpp_sandwich {q : V4} (h : IsUnit4 q) (v : V3) :
    sandwichOpp q (sandwich q v) = v := by
  rw [sandwichOpp, ← sandwich_product, product_conj_self h, sandwich_one]

theorem sandwich_sandwichOpp {q : V4} (h : IsUnit4 q) (v : V3) :
    sandwich q (sandwichOpp q v) = v := by
  rw [sandwichOpp, ← sandwich_product, conj_product_self h, sandwich_one]

theorem sandwich_dot {q : V4} (h : IsUnit4 q) (v w : V3) :
    sandwich q v ⬝ᵥ sandwich q w = v ⬝ᵥ w := by
  rw [sandwich_eq_dcm, sandwich_eq_dcm, Matrix.dotProduct_mulVec, Matrix.vecMul_mulVec,
    (dcm_isRotation h).1, Matrix.vecMul_one]

theorem sandwich_add (q : V4) (v w : V3) : sandwich q (v + w) = sandwich q v + sandwich q w := by
  simp only [sandwich_eq_dcm, Matrix.mulVec_add]

theorem sandwich_smul (q : V4) (c : ℝ) (v : V3) : sandwich q (c • v) = c • sandwich q v := by
  simp only [sandwich_eq_dcm, Matrix.mulVec_smul]

theorem sandwich_cross {q : V4} (h : IsUnit4 q) (v w : V3) :
    sandwich q (v ⨯₃ w) = sandwich q v ⨯₃ sandwich q w := by
  unfold IsUnit4 at h
  simp only [← npCross_eq_crossProduct]
  apply vec3_ext
  · simp only [sandwich_0, sandwich_1, sandwich_2, npCross_0, npCross_1, npCross_2]
    linear_combination (-(
      (q 0 ^ 2 + q 1 ^ 2 - q 2 ^ 2 - q 3 ^ 2) * (v 1 * w 2 - v 2 * w 1) +
      2 * (q 1 * q 2 + q 0 * q 3) * (v 2 * w 0 - v 0 * w 2) +
      2 * (q 1 * q 3 - q 0 * q 2) * (v 0 * w 1 - v 1 * w 0))) * h
  · simp only [sandwich_0, sandwich_1, sandwich_2, npCross_0, npCross_1, npCross_2]
    linear_combination (-(
      2 * (q 1 * q 2 - q 0 * q 3) * (v 1 * w 2 - v 2 * w 1) +
      (q 0 ^ 2 - q 1 ^ 2 + q 2 ^ 2 - q 3 ^ 2) * (v 2 * w 0 - v 0 * w 2) +
      2 * (q 2 * q 3 + q 0 * q 1) * (v 0 * w 1 - v 1 * w 0))) * h
  · simp only [sandwich_0, sandwich_1, sandwich_2, npCross_0, npCross_1, npCross_2]
    linear_combination (-(
      2 * (q 1 * q 3 + q 0 * q 2) * (v 1 * w 2 - v 2 * w 1) +
      2 * (q 2 * q 3 - q 0 * q 1) * (v 2 * w 0 - v 0 * w 2) +
      (q 0 ^ 2 - q 1 ^ 2 - q 2 ^ 2 + q 3 ^ 2) * (v 0 * w 1 - v 1 * w 0))) * h

theorem errorQuat_unit {q r : V4} (hq : IsUnit4 q) (hr : IsUnit4 r) : IsUnit4 (errorQuat q r) :=
  isUnit4_product (isUnit4_conjugate hr) hq

theorem axisangle_unit {r : V3} (h : IsUnit3 r) (θ : ℝ) : IsUnit4 (axisangleToQuat r θ) := by
  unfold IsUnit3 at h
  unfold IsUnit4
  simp [axisangleToQuat]
  have := Real.sin_sq_add_cos_sq (θ / 2)
  linear_combination this + Real.sin (θ / 2) ^ 2 * h

/-- arctan2 of a positive multiple of `(cos a, sin a)` with `a` in the principal range. -/
theorem npArctan2_polar {r a : ℝ} (hr : 0 < r) (h1 : -Real.pi < a) (h2 : a ≤ Real.pi) :
    npArctan2 (r * Real.sin a) (r * Real.cos a) = a := by
  have := Complex.arg_mul_cos_add_sin_mul_I hr (θ := a) ⟨h1, h2⟩
  rw [npArctan2]
  refine Eq.trans ?_ this
  congr 1
  apply Complex.ext <;> simp [← Complex.ofReal_cos, ← Complex.ofReal_sin]

end Adcs
