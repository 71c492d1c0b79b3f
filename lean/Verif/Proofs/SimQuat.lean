import Verif.Model.SimQuat
import Verif.Spec.ScalarLast
import Verif.Spec.Rotation
import Verif.Proofs.Quat

set_option autoImplicit false

/-! # Helper lemmas about the scalar-last quaternions of the simulation -/

namespace Adcs

open scoped Quaternion
open Sim Vec Quat

section comps
variable (q : V4) (v : V3)
theorem toHLast_re : (Spec.toHLast q).re = q 3 := rfl
theorem toHLast_imI : (Spec.toHLast q).imI = q 0 := rfl
theorem toHLast_imJ : (Spec.toHLast q).imJ = q 1 := rfl
theorem toHLast_imK : (Spec.toHLast q).imK = q 2 := rfl
theorem pureH_re : (Spec.pureH v).re = 0 := rfl
theorem pureH_imI : (Spec.pureH v).imI = v 0 := rfl
theorem pureH_imJ : (Spec.pureH v).imJ = v 1 := rfl
theorem pureH_imK : (Spec.pureH v).imK = v 2 := rfl
end comps

theorem toHLast_injective : Function.Injective Spec.toHLast := by
  intro a b h
  have h0 := congrArg QuaternionAlgebra.re h
  have h1 := congrArg QuaternionAlgebra.imI h
  have h2 := congrArg QuaternionAlgebra.imJ h
  have h3 := congrArg QuaternionAlgebra.imK h
  exact vec4_ext h1 h2 h3 h0

theorem toHLast_rawMult (p q : V4) :
    Spec.toHLast (rawMult p q) = Spec.toHLast p * Spec.toHLast q := by
  ext
  · rw [Quaternion.re_mul]; simp [Spec.toHLast, rawMult]
  · rw [Quaternion.imI_mul]; simp [Spec.toHLast, rawMult]
  · rw [Quaternion.imJ_mul]; simp [Spec.toHLast, rawMult]
  · rw [Quaternion.imK_mul]; simp [Spec.toHLast, rawMult]

theorem toHLast_conj (q : V4) : Spec.toHLast (quatConjugate q) = star (Spec.toHLast q) := by
  ext
  · rw [Quaternion.re_star]; rfl
  · rw [Quaternion.imI_star]; rfl
  · rw [Quaternion.imJ_star]; rfl
  · rw [Quaternion.imK_star]; rfl

theorem toHLast_smul (c : ℝ) (q : V4) : Spec.toHLast (c • q) = c • Spec.toHLast q := by
  ext
  · rw [Quaternion.re_smul]; rfl
  · rw [Quaternion.imI_smul]; rfl
  · rw [Quaternion.imJ_smul]; rfl
  · rw [Quaternion.imK_smul]; rfl

theorem turn_0 (q : V4) (v : V3) : Spec.turn (Spec.toHLast q) v 0 =
    (q 3 ^ 2 + q 0 ^ 2 - q 1 ^ 2 - q 2 ^ 2) * v 0 + 2 * (q 0 * q 1 - q 3 * q 2) * v 1
      + 2 * (q 0 * q 2 + q 3 * q 1) * v 2 := by
  simp only [Spec.turn, Matrix.cons_val_zero]
  simp only [Quaternion.imI_mul, Quaternion.re_mul, Quaternion.imJ_mul, Quaternion.imK_mul,
    Quaternion.re_star, Quaternion.imI_star, Quaternion.imJ_star, Quaternion.imK_star,
    toHLast_re, toHLast_imI, toHLast_imJ, toHLast_imK, pureH_re, pureH_imI, pureH_imJ, pureH_imK]
  ring

theorem turn_1 (q : V4) (v : V3) : Spec.turn (Spec.toHLast q) v 1 =
    2 * (q 0 * q 1 + q 3 * q 2) * v 0 + (q 3 ^ 2 - q 0 ^ 2 + q 1 ^ 2 - q 2 ^ 2) * v 1
      + 2 * (q 1 * q 2 - q 3 * q 0) * v 2 := by
  simp only [Spec.turn, Matrix.cons_val_one]
  simp only [Quaternion.imI_mul, Quaternion.re_mul, Quaternion.imJ_mul, Quaternion.imK_mul,
    Quaternion.re_star, Quaternion.imI_star, Quaternion.imJ_star, Quaternion.imK_star,
    toHLast_re, toHLast_imI, toHLast_imJ, toHLast_imK, pureH_re, pureH_imI, pureH_imJ, pureH_imK, Matrix.cons_val_zero]
  ring

theorem turn_2 (q : V4) (v : V3) : Spec.turn (Spec.toHLast q) v 2 =
    2 * (q 0 * q 2 - q 3 * q 1) * v 0 + 2 * (q 1 * q 2 + q 3 * q 0) * v 1
      + (q 3 ^ 2 - q 0 ^ 2 - q 1 ^ 2 + q 2 ^ 2) * v 2 := by
  simp only [Spec.turn, cons3_2]
  simp only [Quaternion.imI_mul, Quaternion.re_mul, Quaternion.imJ_mul, Quaternion.imK_mul,
    Quaternion.re_star, Quaternion.imI_star, Quaternion.imJ_star, Quaternion.imK_star,
    toHLast_re, toHLast_imI, toHLast_imJ, toHLast_imK, pureH_re, pureH_imI, pureH_imJ, pureH_imK]
  ring

theorem turn_rawMult (p q : V4) (v : V3) :
    Spec.turn (Spec.toHLast (rawMult p q)) v =
      Spec.turn (Spec.toHLast p) (Spec.turn (Spec.toHLast q) v) := by
  apply vec3_ext <;> simp only [turn_0, turn_1, turn_2] <;> simp [rawMult] <;> ring

theorem turn_conj {q : V4} (h : IsUnit4 q) (v : V3) :
    Spec.turn (Spec.toHLast (quatConjugate q)) (Spec.turn (Spec.toHLast q) v) = v := by
  have h2 : (q 3 ^ 2 + q 0 ^ 2 + q 1 ^ 2 + q 2 ^ 2) ^ 2 = 1 := by
    rw [show q 3 ^ 2 + q 0 ^ 2 + q 1 ^ 2 + q 2 ^ 2 = 1 by unfold IsUnit4 at h; linarith]; norm_num
  apply vec3_ext <;> simp only [turn_0, turn_1, turn_2] <;> simp [quatConjugate]
  · linear_combination v 0 * h2
  · linear_combination v 1 * h2
  · linear_combination v 2 * h2

theorem turn_conj' {q : V4} (h : IsUnit4 q) (v : V3) :
    Spec.turn (Spec.toHLast q) (Spec.turn (Spec.toHLast (quatConjugate q)) v) = v := by
  have h2 : (q 3 ^ 2 + q 0 ^ 2 + q 1 ^ 2 + q 2 ^ 2) ^ 2 = 1 := by
    rw [show q 3 ^ 2 + q 0 ^ 2 + q 1 ^ 2 + q 2 ^ 2 = 1 by unfold IsUnit4 at h; linarith]; norm_num
  apply vec3_ext <;> simp only [turn_0, turn_1, turn_2] <;> simp [quatConjugate]
  · linear_combination v 0 * h2
  · linear_combination v 1 * h2
  · linear_combination v 2 * h2

theorem npVDiv_norm {n : ℕ} {x : Fin n → ℝ} (h : x ≠ 0) :
    npVDiv x (npNorm x) = .ok ((npNorm x)⁻¹ • x) := by
  rw [npVDiv, if_neg (npNorm_pos h).ne']
  congr 1; funext i; simp [div_eq_inv_mul]

theorem npVDiv_unit {n : ℕ} {x : Fin n → ℝ} (h : npNorm x = 1) : npVDiv x (npNorm x) = .ok x := by
  rw [npVDiv, h, if_neg one_ne_zero]; simp

theorem npNorm_inv_smul {n : ℕ} {x : Fin n → ℝ} (h : x ≠ 0) : npNorm ((npNorm x)⁻¹ • x) = 1 := by
  have := npNorm_pos h
  rw [npNorm_smul, abs_of_pos (inv_pos.2 this), inv_mul_cancel₀ this.ne']

theorem ne_zero_of_norm {n : ℕ} {x : Fin n → ℝ} (h : npNorm x = 1) : x ≠ 0 := by
  rintro rfl
  have : npNorm (0 : Fin n → ℝ) = 0 := npNorm_eq_zero.2 rfl
  rw [this] at h; exact zero_ne_one h

theorem rawMult_smul (a b : ℝ) (p q : V4) : rawMult (a • p) (b • q) = (a * b) • rawMult p q := by
  apply vec4_ext <;> simp [rawMult] <;> ring

theorem npNorm_rawMult (p q : V4) : npNorm (rawMult p q) = npNorm p * npNorm q := by
  have h : npNorm (rawMult p q) ^ 2 = (npNorm p * npNorm q) ^ 2 := by
    rw [mul_pow, npNorm4_sq, npNorm4_sq, npNorm4_sq]
    simp [rawMult]; ring
  exact (pow_left_inj₀ (npNorm_nonneg _) (mul_nonneg (npNorm_nonneg _) (npNorm_nonneg _))
    two_ne_zero).1 h

theorem quatMult_eq {p q : V4} (hp : p ≠ 0) (hq : q ≠ 0) :
    quatMult p q = .ok ((npNorm p * npNorm q)⁻¹ • rawMult p q) := by
  have hn : npNorm (rawMult ((npNorm p)⁻¹ • p) ((npNorm q)⁻¹ • q)) = 1 := by
    rw [npNorm_rawMult, npNorm_inv_smul hp, npNorm_inv_smul hq, one_mul]
  simp only [quatMult, Sim.normalize, npVDiv_norm hp, npVDiv_norm hq, npVDiv_unit hn]
  rw [rawMult_smul, mul_inv]

theorem quatMult_unit {p q : V4} (hp : npNorm p = 1) (hq : npNorm q = 1) :
    quatMult p q = .ok (rawMult p q) := by
  rw [quatMult_eq (ne_zero_of_norm hp) (ne_zero_of_norm hq), hp, hq]; simp

theorem npNorm_conj (q : V4) : npNorm (quatConjugate q) = npNorm q := by
  unfold npNorm; simp [quatConjugate, Fin.sum_univ_four]

theorem conj_ne_zero {q : V4} (hq : q ≠ 0) : quatConjugate q ≠ 0 := by
  intro h; apply hq
  rw [← npNorm_eq_zero, ← npNorm_conj, h, npNorm_eq_zero]

/-- The quaternion of `axis_angle_to_quaternion` for a unit axis. -/
noncomputable def aaq (u : V3) (deg : ℝ) : V4 :=
  ![u 0 * Real.sin (npRadians deg / 2), u 1 * Real.sin (npRadians deg / 2),
    u 2 * Real.sin (npRadians deg / 2), Real.cos (npRadians deg / 2)]

theorem aaq_norm {u : V3} (hu : npNorm u = 1) (deg : ℝ) : npNorm (aaq u deg) = 1 := by
  have h := (isUnit3_iff u).2 hu
  unfold IsUnit3 at h
  apply npNorm_vec4
  have := Real.sin_sq_add_cos_sq (npRadians deg / 2)
  linear_combination this + Real.sin (npRadians deg / 2) ^ 2 * h

theorem axisAngle_eq {a : V3} (ha : a ≠ 0) (deg : ℝ) :
    axisAngle a deg = .ok (aaq ((npNorm a)⁻¹ • a) deg) := by
  simp only [axisAngle, npVDiv_norm ha]
  exact npVDiv_unit (aaq_norm (npNorm_inv_smul ha) deg)

theorem axisAngle_unit {u : V3} (hu : npNorm u = 1) (deg : ℝ) : axisAngle u deg = .ok (aaq u deg) := by
  rw [axisAngle_eq (ne_zero_of_norm hu), hu]; simp

end Adcs
