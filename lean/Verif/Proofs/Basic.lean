import Verif.Model.Quaternion
import Mathlib.Tactic.LinearCombination
import Mathlib.Tactic.FieldSimp
import Mathlib.Tactic.Positivity
import Mathlib.Tactic.FinCases
import Mathlib.Data.Matrix.Reflection

set_option autoImplicit false

/-! # Helper lemmas about the numpy primitives -/

namespace Adcs

open Vec Quat

@[simp] theorem cons3_2 (a b c : ℝ) : (![a, b, c] : V3) 2 = c := rfl
@[simp] theorem cons4_2 (a b c d : ℝ) : (![a, b, c, d] : V4) 2 = c := rfl
@[simp] theorem cons4_3 (a b c d : ℝ) : (![a, b, c, d] : V4) 3 = d := rfl

theorem npDot3 (x y : V3) : npDot x y = x 0 * y 0 + x 1 * y 1 + x 2 * y 2 := by
  simp [npDot, Fin.sum_univ_three]

theorem npDot4 (x y : V4) : npDot x y = x 0 * y 0 + x 1 * y 1 + x 2 * y 2 + x 3 * y 3 := by
  simp [npDot, Fin.sum_univ_four]

theorem npDot_eq_dotProduct {n : ℕ} (x y : Fin n → ℝ) : npDot x y = x ⬝ᵥ y := rfl

theorem npCross_eq_crossProduct (a b : V3) : npCross a b = crossProduct a b := by
  simp [npCross, cross_apply]

theorem sumSq_nonneg {n : ℕ} (x : Fin n → ℝ) : 0 ≤ ∑ i, x i ^ 2 :=
  Finset.sum_nonneg fun i _ => sq_nonneg (x i)

theorem npNorm_nonneg {n : ℕ} (x : Fin n → ℝ) : 0 ≤ npNorm x := Real.sqrt_nonneg _

theorem npNorm_sq {n : ℕ} (x : Fin n → ℝ) : npNorm x ^ 2 = ∑ i, x i ^ 2 :=
  Real.sq_sqrt (sumSq_nonneg x)

theorem npNorm_sq_dot {n : ℕ} (x : Fin n → ℝ) : npNorm x ^ 2 = npDot x x := by
  rw [npNorm_sq]; simp [npDot, sq]

theorem npNorm_eq_zero {n : ℕ} {x : Fin n → ℝ} : npNorm x = 0 ↔ x = 0 := by
  rw [npNorm, Real.sqrt_eq_zero (sumSq_nonneg x), Finset.sum_eq_zero_iff_of_nonneg
    (fun i _ => sq_nonneg (x i))]
  constructor
  · intro h; funext i; simpa using h i (Finset.mem_univ i)
  · rintro rfl i _; simp

theorem npNorm_pos {n : ℕ} {x : Fin n → ℝ} (h : x ≠ 0) : 0 < npNorm x :=
  lt_of_le_of_ne (npNorm_nonneg x) fun h0 => h (npNorm_eq_zero.1 h0.symm)

theorem npNorm_eq_one {n : ℕ} {x : Fin n → ℝ} : npNorm x = 1 ↔ ∑ i, x i ^ 2 = 1 := by
  rw [npNorm, Real.sqrt_eq_one]

theorem npNorm_smul {n : ℕ} (c : ℝ) (x : Fin n → ℝ) : npNorm (c • x) = |c| * npNorm x := by
  unfold npNorm
  rw [← Real.sqrt_sq_eq_abs, ← Real.sqrt_mul (sq_nonneg c), Finset.mul_sum]
  simp [mul_pow]

theorem npNorm3_sq (x : V3) : npNorm x ^ 2 = x 0 ^ 2 + x 1 ^ 2 + x 2 ^ 2 := by
  rw [npNorm_sq, Fin.sum_univ_three]

theorem npNorm4_sq (x : V4) : npNorm x ^ 2 = x 0 ^ 2 + x 1 ^ 2 + x 2 ^ 2 + x 3 ^ 2 := by
  rw [npNorm_sq, Fin.sum_univ_four]

theorem normalize_eq {n : ℕ} {x : Fin n → ℝ} (h : x ≠ 0) :
    normalizeV x = (npNorm x)⁻¹ • x := by
  have : npNorm x ≠ 0 := (npNorm_pos h).ne'
  funext i
  simp [normalizeV, this, div_eq_inv_mul]

theorem normalize_zero {n : ℕ} : normalizeV (0 : Fin n → ℝ) = 0 := by
  have : npNorm (0 : Fin n → ℝ) = 0 := npNorm_eq_zero.2 rfl
  simp [normalizeV, this]

theorem normalize_sumSq {n : ℕ} {x : Fin n → ℝ} (h : x ≠ 0) :
    ∑ i, normalizeV x i ^ 2 = 1 := by
  have hn := (npNorm_pos h).ne'
  rw [normalize_eq h]
  simp only [Pi.smul_apply, smul_eq_mul, mul_pow, ← Finset.mul_sum, ← npNorm_sq]
  field_simp

theorem npNorm_normalize {n : ℕ} {x : Fin n → ℝ} (h : x ≠ 0) : npNorm (normalizeV x) = 1 :=
  npNorm_eq_one.2 (normalize_sumSq h)

theorem normalize_of_unit {n : ℕ} {x : Fin n → ℝ} (h : npNorm x = 1) : normalizeV x = x := by
  funext i; simp [normalizeV, h]

/-- A quaternion has unit norm. -/
def IsUnit4 (q : V4) : Prop := q 0 ^ 2 + q 1 ^ 2 + q 2 ^ 2 + q 3 ^ 2 = 1

/-- A 3-vector has unit norm. -/
def IsUnit3 (v : V3) : Prop := v 0 ^ 2 + v 1 ^ 2 + v 2 ^ 2 = 1

theorem isUnit4_iff (q : V4) : IsUnit4 q ↔ npNorm q = 1 := by
  rw [npNorm_eq_one, Fin.sum_univ_four]; rfl

theorem isUnit3_iff (q : V3) : IsUnit3 q ↔ npNorm q = 1 := by
  rw [npNorm_eq_one, Fin.sum_univ_three]; rfl

theorem vec3_ext {a b : V3} (h0 : a 0 = b 0) (h1 : a 1 = b 1) (h2 : a 2 = b 2) : a = b := by
  funext i; fin_cases i <;> assumption

theorem vec4_ext {a b : V4} (h0 : a 0 = b 0) (h1 : a 1 = b 1) (h2 : a 2 = b 2)
    (h3 : a 3 = b 3) : a = b := by
  funext i; fin_cases i <;> assumption

theorem npNorm_vec3 {a b c : ℝ} (h : a ^ 2 + b ^ 2 + c ^ 2 = 1) : npNorm (![a, b, c] : V3) = 1 := by
  rw [npNorm_eq_one, Fin.sum_univ_three]; exact h

theorem npNorm_vec4 {a b c d : ℝ} (h : a ^ 2 + b ^ 2 + c ^ 2 + d ^ 2 = 1) :
    npNorm (![a, b, c, d] : V4) = 1 := by
  rw [npNorm_eq_one, Fin.sum_univ_four]; exact h

/-! ### Component forms -/

section comps
variable (a b q : V4) (u v w : V3)

@[simp] theorem vecPart_0 : vecPart q 0 = q 1 := rfl
@[simp] theorem vecPart_1 : vecPart q 1 = q 2 := rfl
@[simp] theorem vecPart_2 : vecPart q 2 = q 3 := rfl

theorem npCross_0 : npCross u v 0 = u 1 * v 2 - u 2 * v 1 := rfl
theorem npCross_1 : npCross u v 1 = u 2 * v 0 - u 0 * v 2 := rfl
theorem npCross_2 : npCross u v 2 = u 0 * v 1 - u 1 * v 0 := rfl

theorem product_0 : product a b 0 = a 0 * b 0 - a 1 * b 1 - a 2 * b 2 - a 3 * b 3 := by
  simp [product, npDot3]; ring
theorem product_1 : product a b 1 = a 0 * b 1 + a 1 * b 0 + a 2 * b 3 - a 3 * b 2 := by
  simp [product, npCross_0]; ring
theorem product_2 : product a b 2 = a 0 * b 2 - a 1 * b 3 + a 2 * b 0 + a 3 * b 1 := by
  simp [product, npCross_1]; ring
theorem product_3 : product a b 3 = a 0 * b 3 + a 1 * b 2 - a 2 * b 1 + a 3 * b 0 := by
  simp [product, npCross_2]; ring

theorem conjugate_0 : conjugate q 0 = q 0 := rfl
theorem conjugate_1 : conjugate q 1 = -q 1 := rfl
theorem conjugate_2 : conjugate q 2 = -q 2 := rfl
theorem conjugate_3 : conjugate q 3 = -q 3 := rfl

theorem sandwich_0 : sandwich q v 0 =
    (q 0 ^ 2 + q 1 ^ 2 - q 2 ^ 2 - q 3 ^ 2) * v 0 + 2 * (q 1 * q 2 + q 0 * q 3) * v 1
      + 2 * (q 1 * q 3 - q 0 * q 2) * v 2 := by
  simp [sandwich, product_0, product_1, product_2, product_3, conjugate_0, conjugate_1,
    conjugate_2, conjugate_3]; ring
theorem sandwich_1 : sandwich q v 1 =
    2 * (q 1 * q 2 - q 0 * q 3) * v 0 + (q 0 ^ 2 - q 1 ^ 2 + q 2 ^ 2 - q 3 ^ 2) * v 1
      + 2 * (q 2 * q 3 + q 0 * q 1) * v 2 := by
  simp [sandwich, product_0, product_1, product_2, product_3, conjugate_0, conjugate_1,
    conjugate_2, conjugate_3]; ring
theorem sandwich_2 : sandwich q v 2 =
    2 * (q 1 * q 3 + q 0 * q 2) * v 0 + 2 * (q 2 * q 3 - q 0 * q 1) * v 1
      + (q 0 ^ 2 - q 1 ^ 2 - q 2 ^ 2 + q 3 ^ 2) * v 2 := by
  simp [sandwich, product_0, product_1, product_2, product_3, conjugate_0, conjugate_1,
    conjugate_2, conjugate_3]; ring

end comps

end Adcs
