import Verif.Props.SimQuat
import Mathlib.Geometry.Euclidean.Angle.Unoriented.TriangleInequality
import Mathlib.Analysis.InnerProductSpace.PiL2

set_option autoImplicit false

/-! # C149: the error angle is a distance between attitudes -/

namespace Adcs

open scoped Quaternion
open Sim Quat

/-- `a` is the value of `error_angle(quat_error(p, q))`. -/
def Spec.IsErrorAngle (p q : V4) (a : ℝ) : Prop := ∃ r, quatError p q = .ok r ∧ errorAngle r = .ok a

open Spec

theorem rawMult_assoc (p q r : V4) : rawMult (rawMult p q) r = rawMult p (rawMult q r) := by
  apply vec4_ext <;> simp [rawMult] <;> ring

theorem rawMult_conj {q : V4} (h : npNorm q = 1) (p : V4) : rawMult (rawMult p q) (quatConjugate q) = p ∧
    rawMult (rawMult p (quatConjugate q)) q = p ∧ rawMult (quatConjugate q) (rawMult q p) = p := by
  have h1 : q 0 ^ 2 + q 1 ^ 2 + q 2 ^ 2 + q 3 ^ 2 = 1 := by rw [← npNorm4_sq, h]; norm_num
  refine ⟨?_, ?_, ?_⟩
  · apply vec4_ext <;> simp [rawMult, quatConjugate]
    · linear_combination p 0 * h1
    · linear_combination p 1 * h1
    · linear_combination p 2 * h1
    · linear_combination p 3 * h1
  · apply vec4_ext <;> simp [rawMult, quatConjugate]
    · linear_combination p 0 * h1
    · linear_combination p 1 * h1
    · linear_combination p 2 * h1
    · linear_combination p 3 * h1
  · apply vec4_ext <;> simp [rawMult, quatConjugate]
    · linear_combination p 0 * h1
    · linear_combination p 1 * h1
    · linear_combination p 2 * h1
    · linear_combination p 3 * h1

theorem quatMult_normalized {p q : V4} (hp : p ≠ 0) (hq : q ≠ 0) :
    quatMult p q = .ok (rawMult ((npNorm p)⁻¹ • p) ((npNorm q)⁻¹ • q)) := by
  rw [quatMult_eq hp hq, rawMult_smul, mul_inv]

theorem conj_smul (c : ℝ) (q : V4) : quatConjugate (c • q) = c • quatConjugate q := by
  apply vec4_ext <;> simp [quatConjugate]

theorem quatError_normalized {p q : V4} (hp : p ≠ 0) (hq : q ≠ 0) :
    quatError p q = .ok (rawMult ((npNorm p)⁻¹ • p) (quatConjugate ((npNorm q)⁻¹ • q))) := by
  rw [quatError, quatMult_normalized hp (conj_ne_zero hq), npNorm_conj, conj_smul]

theorem dot_abs_le {p q : V4} (hp : npNorm p = 1) (hq : npNorm q = 1) : |p ⬝ᵥ q| ≤ 1 := by
  have h1 := npNorm4_sq p
  have h2 := npNorm4_sq q
  rw [hp] at h1; rw [hq] at h2
  simp only [dotProduct, Fin.sum_univ_four]
  rw [abs_le]
  constructor
  · nlinarith [sq_nonneg (p 0 + q 0), sq_nonneg (p 1 + q 1), sq_nonneg (p 2 + q 2), sq_nonneg (p 3 + q 3)]
  · nlinarith [sq_nonneg (p 0 - q 0), sq_nonneg (p 1 - q 1), sq_nonneg (p 2 - q 2), sq_nonneg (p 3 - q 3)]

/-- The error angle from the angle of the quaternions in four dimensions. -/
theorem isErrorAngle_iff {p q : V4} (hp : p ≠ 0) (hq : q ≠ 0) (a : ℝ) : IsErrorAngle p q a ↔
    a = 2 * Real.arccos |((npNorm p)⁻¹ • p) ⬝ᵥ ((npNorm q)⁻¹ • q)| * 180 / Real.pi := by
  unfold IsErrorAngle
  rw [quatError_normalized hp hq]
  have e : rawMult ((npNorm p)⁻¹ • p) (quatConjugate ((npNorm q)⁻¹ • q)) 3 =
      ((npNorm p)⁻¹ • p) ⬝ᵥ ((npNorm q)⁻¹ • q) := by
    simp [rawMult, quatConjugate, dotProduct, Fin.sum_univ_four]; ring
  have hle := dot_abs_le (npNorm_inv_smul hp) (npNorm_inv_smul hq)
  constructor
  · rintro ⟨r, h1, h2⟩
    cases h1
    rw [errorAngle, e, if_pos hle] at h2
    exact (Except.ok.inj h2).symm
  · rintro rfl
    exact ⟨_, rfl, by rw [errorAngle, e, if_pos hle]⟩

theorem arccos_triangle {x y z : V4} (hx : npNorm x = 1) (hy : npNorm y = 1) (hz : npNorm z = 1) :
    Real.arccos |x ⬝ᵥ z| ≤ Real.arccos |x ⬝ᵥ y| + Real.arccos |y ⬝ᵥ z| := by
  have nrm : ∀ v : V4, npNorm v = 1 → ‖(WithLp.toLp 2 v : EuclideanSpace ℝ (Fin 4))‖ = 1 := by
    intro v hv
    rw [EuclideanSpace.norm_eq]
    simpa [npNorm] using hv
  have ang : ∀ v w : V4, npNorm v = 1 → npNorm w = 1 →
      InnerProductGeometry.angle (WithLp.toLp 2 v : EuclideanSpace ℝ (Fin 4)) (WithLp.toLp 2 w) =
        Real.arccos (v ⬝ᵥ w) := by
    intro v w hv hw
    unfold InnerProductGeometry.angle
    rw [nrm v hv, nrm w hw, mul_one, div_one]
    congr 1
    simp [dotProduct, PiLp.inner_apply, mul_comm]
  have tri : ∀ u v w : V4, npNorm u = 1 → npNorm v = 1 → npNorm w = 1 →
      Real.arccos (u ⬝ᵥ w) ≤ Real.arccos (u ⬝ᵥ v) + Real.arccos (v ⬝ᵥ w) := by
    intro u v w hu hv hw
    rw [← ang u w hu hw, ← ang u v hu hv, ← ang v w hv hw]
    exact InnerProductGeometry.angle_le_angle_add_angle _ _ _
  have neg : ∀ v : V4, npNorm v = 1 → npNorm (-v) = 1 := by
    intro v hv
    rw [← neg_one_smul ℝ v, npNorm_smul, hv]; norm_num
  -- choose the signs of `y` and `z`
  obtain ⟨y', hy', e1⟩ : ∃ y', (y' = y ∨ y' = -y) ∧ |x ⬝ᵥ y| = x ⬝ᵥ y' := by
    rcases le_total 0 (x ⬝ᵥ y) with h | h
    · exact ⟨y, Or.inl rfl, abs_of_nonneg h⟩
    · exact ⟨-y, Or.inr rfl, by rw [abs_of_nonpos h, dotProduct_neg]⟩
  have hyn : npNorm y' = 1 := by rcases hy' with rfl | rfl <;> [exact hy; exact neg y hy]
  have e2 : |y ⬝ᵥ z| = |y' ⬝ᵥ z| := by
    rcases hy' with rfl | rfl
    · rfl
    · rw [neg_dotProduct, abs_neg]
  obtain ⟨z', hz', e3⟩ : ∃ z', (z' = z ∨ z' = -z) ∧ |y' ⬝ᵥ z| = y' ⬝ᵥ z' := by
    rcases le_total 0 (y' ⬝ᵥ z) with h | h
    · exact ⟨z, Or.inl rfl, abs_of_nonneg h⟩
    · exact ⟨-z, Or.inr rfl, by rw [abs_of_nonpos h, dotProduct_neg]⟩
  have hzn : npNorm z' = 1 := by rcases hz' with rfl | rfl <;> [exact hz; exact neg z hz]
  have e4 : |x ⬝ᵥ z| = |x ⬝ᵥ z'| := by
    rcases hz' with rfl | rfl
    · rfl
    · rw [dotProduct_neg, abs_neg]
  rw [e1, e2, e3, e4]
  exact (Real.antitone_arccos (le_abs_self _)).trans (tri x y' z' hx hyn hzn)

/-- The error angle exists for every two non-zero quaternions, is symmetric and satisfies the triangle
inequality: with `C91_error` (zero exactly for equal rotations) it is a distance between attitudes. -/
theorem C149_distance {p q r : V4} (hp : p ≠ 0) (hq : q ≠ 0) (hr : r ≠ 0) :
    ∃ a b c, IsErrorAngle p q a ∧ IsErrorAngle q r b ∧ IsErrorAngle p r c ∧ IsErrorAngle q p a ∧
      c ≤ a + b ∧ 0 ≤ a ∧ a ≤ 180 := by
  have hpi := Real.pi_pos
  refine ⟨_, _, _, (isErrorAngle_iff hp hq _).2 rfl, (isErrorAngle_iff hq hr _).2 rfl,
    (isErrorAngle_iff hp hr _).2 rfl, (isErrorAngle_iff hq hp _).2 ?_, ?_, ?_, ?_⟩
  · rw [dotProduct_comm]
  · have := arccos_triangle (npNorm_inv_smul hp) (npNorm_inv_smul hq) (npNorm_inv_smul hr)
    rw [← add_div, div_le_div_iff_of_pos_right hpi]
    linarith
  · have := Real.arccos_nonneg |((npNorm p)⁻¹ • p) ⬝ᵥ ((npNorm q)⁻¹ • q)|
    positivity
  · rw [div_le_iff₀ hpi]
    have := Real.arccos_le_pi_div_two.2 (abs_nonneg (((npNorm p)⁻¹ • p) ⬝ᵥ ((npNorm q)⁻¹ • q)))
    linarith

/-- It does not depend on the frame: turning both attitudes alike, before or after, leaves it. -/
theorem C149_invariant {p q s : V4} (hp : p ≠ 0) (hq : q ≠ 0) (hs : s ≠ 0) (a : ℝ) :
    ∃ ps qs sp sq, quatMult p s = .ok ps ∧ quatMult q s = .ok qs ∧ quatMult s p = .ok sp ∧
      quatMult s q = .ok sq ∧ (IsErrorAngle ps qs a ↔ IsErrorAngle p q a) ∧
      (IsErrorAngle sp sq a ↔ IsErrorAngle p q a) := by
  refine ⟨_, _, _, _, quatMult_normalized hp hs, quatMult_normalized hq hs, quatMult_normalized hs hp,
    quatMult_normalized hs hq, ?_, ?_⟩
  all_goals
    have h1 := npNorm_inv_smul hp
    have h2 := npNorm_inv_smul hq
    have h3 := npNorm_inv_smul hs
    rw [isErrorAngle_iff hp hq]
    set P := (npNorm p)⁻¹ • p
    set Q := (npNorm q)⁻¹ • q
    set S := (npNorm s)⁻¹ • s
    have hS : S 0 ^ 2 + S 1 ^ 2 + S 2 ^ 2 + S 3 ^ 2 = 1 := by rw [← npNorm4_sq, h3]; norm_num
  · have n1 : npNorm (rawMult P S) = 1 := by rw [npNorm_rawMult, h1, h3, one_mul]
    have n2 : npNorm (rawMult Q S) = 1 := by rw [npNorm_rawMult, h2, h3, one_mul]
    rw [isErrorAngle_iff (ne_zero_of_norm n1) (ne_zero_of_norm n2), n1, n2, inv_one, one_smul, one_smul]
    have : rawMult P S ⬝ᵥ rawMult Q S = P ⬝ᵥ Q := by
      simp [rawMult, dotProduct, Fin.sum_univ_four]
      linear_combination (P 0 * Q 0 + P 1 * Q 1 + P 2 * Q 2 + P 3 * Q 3) * hS
    rw [this]
  · have n1 : npNorm (rawMult S P) = 1 := by rw [npNorm_rawMult, h1, h3, one_mul]
    have n2 : npNorm (rawMult S Q) = 1 := by rw [npNorm_rawMult, h2, h3, one_mul]
    rw [isErrorAngle_iff (ne_zero_of_norm n1) (ne_zero_of_norm n2), n1, n2, inv_one, one_smul, one_smul]
    have : rawMult S P ⬝ᵥ rawMult S Q = P ⬝ᵥ Q := by
      simp [rawMult, dotProduct, Fin.sum_univ_four]
      linear_combination (P 0 * Q 0 + P 1 * Q 1 + P 2 * Q 2 + P 3 * Q 3) * hS
    rw [this]

/-- `quat_error` and `quat_mult` undo each other: the error of `p q` from `q` is `p`, and the error of `p`
from `q` applied to `q` gives `p` (both of unit norm). -/
theorem C149_undo {p q : V4} (hp : p ≠ 0) (hq : q ≠ 0) :
    (∃ t, quatMult p q = .ok t ∧ quatError t q = Sim.normalize p) ∧
    (∃ e, quatError p q = .ok e ∧ quatMult e q = Sim.normalize p) := by
  have h1 := npNorm_inv_smul hp
  have h2 := npNorm_inv_smul hq
  have hN : Sim.normalize p = .ok ((npNorm p)⁻¹ • p) := npVDiv_norm hp
  rw [hN]
  constructor
  · refine ⟨_, quatMult_normalized hp hq, ?_⟩
    have n1 : npNorm (rawMult ((npNorm p)⁻¹ • p) ((npNorm q)⁻¹ • q)) = 1 := by
      rw [npNorm_rawMult, h1, h2, one_mul]
    rw [quatError_normalized (ne_zero_of_norm n1) hq, n1, inv_one, one_smul, (rawMult_conj h2 _).1]
  · refine ⟨_, quatError_normalized hp hq, ?_⟩
    have n1 : npNorm (rawMult ((npNorm p)⁻¹ • p) (quatConjugate ((npNorm q)⁻¹ • q))) = 1 := by
      rw [npNorm_rawMult, npNorm_conj, h1, h2, one_mul]
    rw [quatMult_normalized (ne_zero_of_norm n1) hq, n1, inv_one, one_smul, (rawMult_conj h2 _).2.1]

/-- The target of a simulation run is as far from the initial attitude as the script says, whatever the
axis and the initial attitude, and is reached by turning about that axis. -/
theorem C149_target {axis : V3} (ha : axis ≠ 0) {deg : ℝ} (h0 : 0 ≤ deg) (h1 : deg ≤ 360) {q : V4}
    (hq : q ≠ 0) : ∃ t, initialTarget axis deg q = .ok t ∧
      IsErrorAngle t q (min deg (360 - deg)) ∧
      ∀ v, turn (toHLast t) v = rodrigues ((npNorm axis)⁻¹ • axis) (deg * Real.pi / 180)
        (turn (toHLast ((npNorm q)⁻¹ • q)) v) := by
  obtain ⟨p, e1, e2⟩ := C115_error_angle ha h0 h1
  obtain ⟨p', e3, hn, hrot⟩ := C115_rotation ha deg
  obtain rfl : p = p' := Except.ok.inj (e1.symm.trans e3)
  have hp : p ≠ 0 := ne_zero_of_norm hn
  obtain ⟨⟨t, ht, he⟩, -⟩ := C149_undo hp hq
  refine ⟨t, ?_, ⟨p, ?_, e2⟩, ?_⟩
  · simp only [initialTarget, e1, ht]
  · rw [he]; exact npVDiv_unit hn
  · intro v
    rw [quatMult_normalized hp hq, hn, inv_one, one_smul] at ht
    obtain rfl := Except.ok.inj ht
    rw [← hrot, turn_rawMult]

/-- `hemi` keeps the rotation and picks the representative whose scalar part is not negative. -/
theorem C149_hemi (q : V4) : 0 ≤ hemi q 3 ∧ (hemi q = q ∨ hemi q = -q) ∧ hemi (hemi q) = hemi q ∧
    (0 < q 3 → hemi (-q) = hemi q) ∧ (∀ v, turn (toHLast (hemi q)) v = turn (toHLast q) v) ∧
    errorAngle (hemi q) = errorAngle q := by
  have hcase : hemi q = q ∧ 0 ≤ q 3 ∨ hemi q = -q ∧ q 3 < 0 := by
    unfold hemi
    split_ifs with h
    · exact Or.inl ⟨rfl, h⟩
    · exact Or.inr ⟨rfl, not_le.1 h⟩
  refine ⟨?_, ?_, ?_, ?_, ?_, ?_⟩
  · rcases hcase with ⟨h, h2⟩ | ⟨h, h2⟩ <;> rw [h]
    · exact h2
    · simp; exact h2.le
  · rcases hcase with ⟨h, -⟩ | ⟨h, -⟩ <;> simp [h]
  · rcases hcase with ⟨h, h2⟩ | ⟨h, h2⟩ <;> rw [h]
    · exact h
    · unfold hemi; rw [if_pos (by simp; exact h2.le)]
  · intro h
    unfold hemi
    rw [if_neg (by simp; exact h), if_pos h.le, neg_neg]
  · intro v
    rcases hcase with ⟨h, -⟩ | ⟨h, -⟩ <;> rw [h]
    apply vec3_ext <;> simp [turn_0, turn_1, turn_2]
  · rcases hcase with ⟨h, -⟩ | ⟨h, -⟩ <;> rw [h]
    simp [errorAngle]

/-- The run of the script: 90 degrees about `y` from an attitude turned by 90 degrees about `y`. -/
example : (![0, 1, 0] : V3) ≠ 0 ∧ (0 : ℝ) ≤ 90 ∧ (90 : ℝ) ≤ 360 ∧
    ∃ q, axisAngle ![0, 1, 0] 90 = .ok q ∧ q ≠ 0 ∧ ∃ t, initialTarget ![0, 1, 0] 90 q = .ok t ∧
      IsErrorAngle t q 90 := by
  have ha : (![0, 1, 0] : V3) ≠ 0 := fun h => by simpa using congrFun h 1
  obtain ⟨q, e, hn, -⟩ := C115_rotation ha 90
  obtain ⟨t, h1, h2, -⟩ := C149_target ha (deg := 90) (by norm_num) (by norm_num) (ne_zero_of_norm hn)
  refine ⟨ha, by norm_num, by norm_num, q, e, ne_zero_of_norm hn, t, h1, ?_⟩
  norm_num at h2
  exact h2

end Adcs
