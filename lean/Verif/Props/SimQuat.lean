import Verif.Proofs.SimQuat

set_option autoImplicit false

/-! # C91, C115, C116: the quaternion helpers of the simulation -/

namespace Adcs

open scoped Quaternion
open Sim Quat

/-- C91: `quat_mult` of non-zero quaternions is the Hamilton product divided by the norms, and of unit norm. -/
theorem C91_product {p q : V4} (hp : p ≠ 0) (hq : q ≠ 0) :
    ∃ r, quatMult p q = .ok r ∧ npNorm r = 1 ∧
      Spec.toHLast r = (npNorm p * npNorm q)⁻¹ • (Spec.toHLast p * Spec.toHLast q) := by
  refine ⟨_, quatMult_eq hp hq, ?_, ?_⟩
  · have h1 := npNorm_pos hp
    have h2 := npNorm_pos hq
    rw [npNorm_smul, npNorm_rawMult, abs_of_pos (by positivity)]
    field_simp
  · rw [toHLast_smul, toHLast_rawMult]

/-- C91: on unit quaternions stored scalar first, `quat_mult` after `to_scalar_last` is the library's
`product` followed by `to_scalar_last`. -/
theorem C91_library {p q : V4} (hp : npNorm p = 1) (hq : npNorm q = 1) :
    quatMult (toScalarLast p) (toScalarLast q) = .ok (toScalarLast (product p q)) := by
  have h : ∀ x : V4, npNorm (toScalarLast x) = npNorm x := fun x => by
    unfold npNorm; congr 1; simp [toScalarLast, Fin.sum_univ_four]; ring
  rw [quatMult_unit (by rw [h, hp]) (by rw [h, hq])]
  congr 1
  apply vec4_ext <;> simp [rawMult, toScalarLast, product_0, product_1, product_2, product_3] <;> ring

/-- C91: the error angle of two non-zero quaternions is between 0 and 180 degrees, and zero exactly when
their unit quaternions turn every vector alike. -/
theorem C91_error {p q : V4} (hp : p ≠ 0) (hq : q ≠ 0) :
    ∃ r a, quatError p q = .ok r ∧ errorAngle r = .ok a ∧ 0 ≤ a ∧ a ≤ 180 ∧
      (a = 0 ↔ ∀ v, Spec.turn (Spec.toHLast ((npNorm p)⁻¹ • p)) v =
        Spec.turn (Spec.toHLast ((npNorm q)⁻¹ • q)) v) := by
  have hc := conj_ne_zero hq
  set P := (npNorm p)⁻¹ • p with hP
  set Q := (npNorm q)⁻¹ • q with hQ
  have hPn : npNorm P = 1 := npNorm_inv_smul hp
  have hQn : npNorm Q = 1 := npNorm_inv_smul hq
  have hQu : IsUnit4 Q := (isUnit4_iff Q).2 hQn
  have hr : (npNorm p * npNorm (quatConjugate q))⁻¹ • rawMult p (quatConjugate q) =
      rawMult P (quatConjugate Q) := by
    have : quatConjugate Q = (npNorm q)⁻¹ • quatConjugate q := by
      apply vec4_ext <;> simp [quatConjugate, hQ]
    rw [this, hP, rawMult_smul, npNorm_conj, mul_inv]
  set r := rawMult P (quatConjugate Q) with hrd
  have hrn : npNorm r = 1 := by rw [hrd, npNorm_rawMult, npNorm_conj, hPn, hQn, one_mul]
  have hru := (isUnit4_iff r).2 hrn
  unfold IsUnit4 at hru
  have h3 : |r 3| ≤ 1 := by
    rw [← sq_le_one_iff_abs_le_one]
    linarith [sq_nonneg (r 0), sq_nonneg (r 1), sq_nonneg (r 2)]
  have hpi := Real.pi_pos
  refine ⟨r, 2 * Real.arccos |r 3| * 180 / Real.pi, ?_, ?_, ?_, ?_, ?_⟩
  · rw [quatError, quatMult_eq hp hc, hr]
  · rw [errorAngle, if_pos h3]
  · have := Real.arccos_nonneg |r 3|
    positivity
  · rw [div_le_iff₀ hpi]
    have : Real.arccos |r 3| ≤ Real.pi / 2 := Real.arccos_le_pi_div_two.2 (abs_nonneg _)
    linarith
  · have key : ∀ v, Spec.turn (Spec.toHLast r) (Spec.turn (Spec.toHLast Q) v) =
        Spec.turn (Spec.toHLast P) v := fun v => by
      rw [hrd, turn_rawMult, turn_conj hQu]
    have h0 : 2 * Real.arccos |r 3| * 180 / Real.pi = 0 ↔ r 3 ^ 2 = 1 := by
      have : 2 * Real.arccos |r 3| * 180 / Real.pi = 0 ↔ Real.arccos |r 3| = 0 := by
        constructor
        · intro h
          rw [div_eq_zero_iff] at h
          rcases h with h | h <;> linarith
        · intro h; rw [h]; simp
      rw [this, Real.arccos_eq_zero, ← sq_abs (r 3)]
      constructor
      · intro h; rw [le_antisymm h3 h]; norm_num
      · intro h; nlinarith [abs_nonneg (r 3)]
    rw [h0]
    constructor
    · intro h v
      have e0 : r 0 = 0 := by nlinarith [sq_nonneg (r 0), sq_nonneg (r 1), sq_nonneg (r 2)]
      have e1 : r 1 = 0 := by nlinarith [sq_nonneg (r 0), sq_nonneg (r 1), sq_nonneg (r 2)]
      have e2 : r 2 = 0 := by nlinarith [sq_nonneg (r 0), sq_nonneg (r 1), sq_nonneg (r 2)]
      rw [← key v]
      apply vec3_ext <;> simp [turn_0 r, turn_1 r, turn_2 r, e0, e1, e2, h]
    · intro h
      have id : ∀ w, Spec.turn (Spec.toHLast r) w = w := fun w => by
        have := key (Spec.turn (Spec.toHLast (quatConjugate Q)) w)
        rw [h, turn_conj' hQu] at this
        exact this
      have a0 := congrFun (id ![1, 0, 0]) 0
      have a1 := congrFun (id ![0, 1, 0]) 1
      have a2 := congrFun (id ![0, 0, 1]) 2
      rw [turn_0] at a0
      rw [turn_1] at a1
      rw [turn_2] at a2
      simp at a0 a1 a2
      nlinarith

/-- C91's hypotheses: two different non-zero quaternions. -/
example : (![1, 2, 3, 4] : V4) ≠ 0 ∧ (![0, 0, 1, 0] : V4) ≠ 0 :=
  ⟨fun h => by simpa using congrFun h 0, fun h => by simpa using congrFun h 2⟩

example : npNorm (![0.6, 0, 0.8, 0] : V4) = 1 := npNorm_vec4 (by norm_num)

/-- C115: for a non-zero axis, `axis_angle_to_quaternion` returns the unit quaternion of the right-handed
rotation by that many degrees about the axis. -/
theorem C115_rotation {a : V3} (ha : a ≠ 0) (deg : ℝ) :
    ∃ q, axisAngle a deg = .ok q ∧ npNorm q = 1 ∧
      ∀ v, Spec.turn (Spec.toHLast q) v =
        Spec.rodrigues ((npNorm a)⁻¹ • a) (deg * Real.pi / 180) v := by
  have hu := npNorm_inv_smul ha
  refine ⟨_, axisAngle_eq ha deg, aaq_norm hu deg, fun v => ?_⟩
  set u := (npNorm a)⁻¹ • a
  have h1 := (isUnit3_iff u).2 hu
  unfold IsUnit3 at h1
  have hθ : deg * Real.pi / 180 = 2 * (npRadians deg / 2) := by unfold npRadians; ring
  rw [hθ]
  generalize hθ' : npRadians deg / 2 = θ
  have hs := Real.sin_sq_add_cos_sq θ
  have hd : u ⬝ᵥ v = u 0 * v 0 + u 1 * v 1 + u 2 * v 2 := Matrix.vec3_dotProduct _ _
  apply vec3_ext
  · rw [turn_0]
    simp only [Spec.rodrigues, Real.cos_two_mul, Real.sin_two_mul, hd, Pi.add_apply, Pi.smul_apply,
      ← npCross_eq_crossProduct, npCross_0, smul_eq_mul, aaq, hθ', Matrix.cons_val_zero,
      Matrix.cons_val_one, cons4_2, cons4_3]
    grind
  · rw [turn_1]
    simp only [Spec.rodrigues, Real.cos_two_mul, Real.sin_two_mul, hd, Pi.add_apply, Pi.smul_apply,
      ← npCross_eq_crossProduct, npCross_1, smul_eq_mul, aaq, hθ', Matrix.cons_val_zero,
      Matrix.cons_val_one, cons4_2, cons4_3]
    grind
  · rw [turn_2]
    simp only [Spec.rodrigues, Real.cos_two_mul, Real.sin_two_mul, hd, Pi.add_apply, Pi.smul_apply,
      ← npCross_eq_crossProduct, npCross_2, smul_eq_mul, aaq, hθ', Matrix.cons_val_zero,
      Matrix.cons_val_one, cons4_2, cons4_3]
    grind

/-- C115: `get_rotation_angle_from_quaternion` gives back an angle of 0 to 360 degrees. -/
theorem C115_angle {a : V3} (ha : a ≠ 0) {deg : ℝ} (h0 : 0 ≤ deg) (h1 : deg ≤ 360) :
    ∃ q, axisAngle a deg = .ok q ∧ rotationAngle q true = .ok deg ∧
      rotationAngle q false = .ok (deg * Real.pi / 180) := by
  have hu := npNorm_inv_smul ha
  refine ⟨_, axisAngle_eq ha deg, ?_⟩
  have hpi := Real.pi_pos
  have e : Real.arccos (npClip (Real.cos (npRadians deg / 2)) (-1) 1) = npRadians deg / 2 := by
    rw [npClip, max_eq_left (Real.neg_one_le_cos _), min_eq_left (Real.cos_le_one _),
      Real.arccos_cos] <;> unfold npRadians
    · positivity
    · nlinarith
  simp only [rotationAngle, npVDiv_unit (aaq_norm hu deg)]
  simp only [aaq, cons4_3, e]
  constructor
  · simp only [if_true]; unfold npDegrees npRadians; congr 1; field_simp
  · simp only [Bool.false_eq_true, if_false]; unfold npRadians; congr 1; ring

/-- C115: `error_angle` of such a quaternion is the angle, or what is missing to the full turn. -/
theorem C115_error_angle {a : V3} (ha : a ≠ 0) {deg : ℝ} (h0 : 0 ≤ deg) (h1 : deg ≤ 360) :
    ∃ q, axisAngle a deg = .ok q ∧ errorAngle q = .ok (min deg (360 - deg)) := by
  refine ⟨_, axisAngle_eq ha deg, ?_⟩
  have hpi := Real.pi_pos
  have hr : npRadians deg / 2 = deg * Real.pi / 360 := by unfold npRadians; ring
  have h3 : aaq ((npNorm a)⁻¹ • a) deg 3 = Real.cos (deg * Real.pi / 360) := by
    simp only [aaq, cons4_3, hr]
  rw [errorAngle, h3, if_pos (Real.abs_cos_le_one _)]
  congr 1
  rcases le_total deg 180 with h | h
  · rw [abs_of_nonneg (Real.cos_nonneg_of_mem_Icc ⟨by nlinarith, by nlinarith⟩), Real.arccos_cos
      (by positivity) (by nlinarith), min_eq_left (by linarith)]
    field_simp
    ring
  · rw [abs_of_nonpos (Real.cos_nonpos_of_pi_div_two_le_of_le (by nlinarith) (by nlinarith)),
      ← Real.cos_pi_sub, Real.arccos_cos (by nlinarith) (by nlinarith [mul_nonneg h0 hpi.le]),
      min_eq_right (by linarith)]
    field_simp
    ring

/-- C115: `quat_to_axis` gives back the axis (for angles between 0 and 360 degrees), or the x axis when the
sine of half the angle is below 1e-6. -/
theorem C115_axis {a : V3} (ha : a ≠ 0) {deg : ℝ} (h0 : 0 ≤ deg) (h1 : deg ≤ 360) :
    ∃ q, axisAngle a deg = .ok q ∧
      (1e-6 ≤ Real.sin (deg * Real.pi / 360) → quatToAxis q = .ok ((npNorm a)⁻¹ • a)) ∧
      (Real.sin (deg * Real.pi / 360) < 1e-6 → quatToAxis q = .ok ![1, 0, 0]) := by
  have hu := npNorm_inv_smul ha
  refine ⟨_, axisAngle_eq ha deg, ?_⟩
  have hpi := Real.pi_pos
  have hr : npRadians deg / 2 = deg * Real.pi / 360 := by unfold npRadians; ring
  set θ := deg * Real.pi / 360 with hθ
  have hs : 0 ≤ Real.sin θ := Real.sin_nonneg_of_nonneg_of_le_pi (by positivity) (by rw [hθ]; nlinarith)
  have hq : Real.sqrt (1 - Real.cos θ ^ 2) = Real.sin θ := by
    rw [← Real.abs_sin_eq_sqrt_one_sub_cos_sq, abs_of_nonneg hs]
  have h3 : aaq ((npNorm a)⁻¹ • a) deg 3 = Real.cos θ := by simp only [aaq, cons4_3, hr]
  have hnn : ¬ 1 - Real.cos θ ^ 2 < 0 := by nlinarith [Real.sin_sq_add_cos_sq θ, sq_nonneg (Real.sin θ)]
  simp only [quatToAxis, npVDiv_unit (aaq_norm hu deg), h3, npSqrt, hnn, if_false, hq]
  constructor
  · intro h
    have hpos : Real.sin θ ≠ 0 := by intro h'; rw [h'] at h; norm_num at h
    rw [if_neg (not_lt.2 h), npVDiv, if_neg hpos]
    congr 1
    funext i
    fin_cases i <;> simp [aaq, hr] <;> field_simp
  · intro h; rw [if_pos h]

/-- A quarter turn meets the hypotheses of C115, and its axis is given back. -/
example : (![0, 3, 4] : V3) ≠ 0 ∧ (0 : ℝ) ≤ 180 ∧ (180 : ℝ) ≤ 360 ∧
    (1e-6 : ℝ) ≤ Real.sin (180 * Real.pi / 360) :=
  ⟨fun h => by simpa using congrFun h 1, by norm_num, by norm_num, by
    rw [show (180 : ℝ) * Real.pi / 360 = Real.pi / 2 by ring, Real.sin_pi_div_two]; norm_num⟩

/-- The unit axis named by a character. -/
def axisOf : Char → V3
  | 'x' => ![1, 0, 0]
  | 'y' => ![0, 1, 0]
  | _ => ![0, 0, 1]

/-- The right-handed rotation by `deg` degrees about the axis named `c`. -/
noncomputable def about (c : Char) (deg : ℝ) (v : V3) : V3 :=
  Spec.rodrigues (axisOf c) (deg * Real.pi / 180) v

theorem axisOf_norm (c : Char) : npNorm (axisOf c) = 1 := by
  unfold axisOf; split <;> exact npNorm_vec3 (by norm_num)

theorem sequenceEntry_eq {c : Char} (h : c = 'x' ∨ c = 'y' ∨ c = 'z') (deg : ℝ) :
    ∃ q, sequenceEntry c deg = .ok q ∧ npNorm q = 1 ∧
      ∀ v, Spec.turn (Spec.toHLast q) v = about c deg v := by
  have hm : axisMap c = .ok (axisOf c) := by rcases h with rfl | rfl | rfl <;> rfl
  obtain ⟨q, h1, h2, h3⟩ := C115_rotation (ne_zero_of_norm (axisOf_norm c)) deg
  refine ⟨q, ?_, h2, fun v => ?_⟩
  · simp only [sequenceEntry, hm, h1]
  · rw [h3, axisOf_norm, inv_one, one_smul]; rfl

/-- C116, as documented: the body is turned about its own axes in the given order, the angles being those
about x, y and z. -/
def C116_claim : Prop :=
  ∀ x y z : ℝ, ∀ q, rotationSequence [x, y, z] ['z', 'y', 'x'] = .ok q →
    ∀ v, Spec.turn (Spec.toHLast q) v = about 'z' z (about 'y' y (about 'x' x v))

/-- C116: what happens is that the angles belong to the axes in the order of the string, and that the turns
are made one after the other about fixed axes. -/
theorem C116_fixed_partial {c1 c2 c3 : Char} (h1 : c1 = 'x' ∨ c1 = 'y' ∨ c1 = 'z')
    (h2 : c2 = 'x' ∨ c2 = 'y' ∨ c2 = 'z') (h3 : c3 = 'x' ∨ c3 = 'y' ∨ c3 = 'z') (a1 a2 a3 : ℝ) :
    ∃ q, rotationSequence [a1, a2, a3] [c1, c2, c3] = .ok q ∧ npNorm q = 1 ∧
      ∀ v, Spec.turn (Spec.toHLast q) v = about c3 a3 (about c2 a2 (about c1 a1 v)) := by
  obtain ⟨q1, e1, n1, t1⟩ := sequenceEntry_eq h1 a1
  obtain ⟨q2, e2, n2, t2⟩ := sequenceEntry_eq h2 a2
  obtain ⟨q3, e3, n3, t3⟩ := sequenceEntry_eq h3 a3
  have n32 : npNorm (rawMult q3 q2) = 1 := by rw [npNorm_rawMult, n3, n2, one_mul]
  have n321 : npNorm (rawMult (rawMult q3 q2) q1) = 1 := by rw [npNorm_rawMult, n32, n1, one_mul]
  refine ⟨rawMult (rawMult q3 q2) q1, ?_, n321, fun v => ?_⟩
  · have hall : ∀ c ∈ [c1, c2, c3], c = 'x' ∨ c = 'y' ∨ c = 'z' := by
      intro c hc
      simp only [List.mem_cons, List.not_mem_nil, or_false] at hc
      rcases hc with rfl | rfl | rfl <;> assumption
    have hv := npVDiv_unit n321
    rw [n321] at hv
    simp only [rotationSequence, if_pos hall, e1, e2, e3, quatMult_unit n3 n2, quatMult_unit n32 n1,
      n321, hv, if_true]
  · rw [turn_rawMult, turn_rawMult, t1, t2, t3]

/-- C116 fails as documented: for the order `zyx` the first angle is the one about z, and the turns are
about fixed axes. -/
theorem C116_documented_fails : ¬ C116_claim := by
  intro h
  obtain ⟨q, hq, -, ht⟩ := C116_fixed_partial (c1 := 'z') (c2 := 'y') (c3 := 'x') (by decide) (by decide)
    (by decide) 90 0 0
  have h1 := h 90 0 0 q hq ![0, 1, 0]
  rw [ht] at h1
  have e90 : (90 : ℝ) * Real.pi / 180 = Real.pi / 2 := by ring
  have := congrFun h1 2
  simp [about, Spec.rodrigues, axisOf, e90, cross_apply] at this

/-- Strings of another length, other letters and other numbers of angles are refused. -/
theorem C116_refuses (angles : List ℝ) (order : List Char)
    (h : angles.length ≠ 3 ∨ order.length ≠ 3 ∨ ∃ c ∈ order, ¬ (c = 'x' ∨ c = 'y' ∨ c = 'z')) :
    rotationSequence angles order = .error .assertion := by
  rw [rotationSequence.eq_def]
  split
  · rename_i c1 c2 c3
    rw [if_neg]
    rcases h with h | h | ⟨c, hc, h⟩
    · simp at h
    · simp at h
    · exact fun hall => h (hall c hc)
  · rfl

end Adcs
