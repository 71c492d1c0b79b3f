import Verif.Proofs.Quat

set_option autoImplicit false

/-! # C04–C13: quaternions -/

namespace Adcs

open Vec Quat
open scoped Matrix Quaternion

/-- C04: `product` is Hamilton's product, read through the bijection with Mathlib's `ℍ`. -/
theorem C04_product_hamilton (a b : V4) :
    Spec.toH (product a b) = Spec.toH a * Spec.toH b := toH_product a b

/-- C04: the reading is faithful. -/
theorem C04_toH_bijective : Function.Bijective Spec.toH :=
  ⟨toH_injective, fun h => ⟨![h.re, h.imI, h.imJ, h.imK], by cases h; rfl⟩⟩

/-- C04: associativity. -/
theorem C04_product_assoc (a b c : V4) :
    product (product a b) c = product a (product b c) := product_assoc a b c

/-- C04: `(1,0,0,0)` is the unit. -/
theorem C04_product_one (a : V4) :
    product ![1, 0, 0, 0] a = a ∧ product a ![1, 0, 0, 0] = a := ⟨one_product a, product_one a⟩

/-- C04: bilinearity. -/
theorem C04_product_bilinear (a b c : V4) (s : ℝ) :
    product (a + b) c = product a c + product b c ∧
    product a (b + c) = product a b + product a c ∧
    product (s • a) b = s • product a b ∧ product a (s • b) = s • product a b := by
  refine ⟨?_, ?_, ?_, ?_⟩ <;> apply vec4_ext <;>
    simp [product_0, product_1, product_2, product_3] <;> ring

/-- C04: norms multiply. -/
theorem C04_product_norm (a b : V4) : npNorm (product a b) = npNorm a * npNorm b := by
  have h : npNorm (product a b) ^ 2 = (npNorm a * npNorm b) ^ 2 := by
    rw [mul_pow, npNorm4_sq, npNorm4_sq, npNorm4_sq, sumSq_product]
  exact (sq_eq_sq₀ (npNorm_nonneg _) (mul_nonneg (npNorm_nonneg _) (npNorm_nonneg _))).1 h

/-- C04: the product is not commutative. -/
theorem C04_product_not_comm : ∃ a b : V4, product a b ≠ product b a := by
  refine ⟨![0, 1, 0, 0], ![0, 0, 1, 0], fun h => ?_⟩
  have := congrFun h 3
  rw [product_3, product_3] at this
  simp at this
  norm_num at this

/-- C05: the conjugate of a unit quaternion is its two-sided inverse. -/
theorem C05_conjugate_inverse (q : V4) (h : npNorm q = 1) :
    product q (conjugate q) = ![1, 0, 0, 0] ∧ product (conjugate q) q = ![1, 0, 0, 0] :=
  ⟨product_conj_self ((isUnit4_iff q).2 h), conj_product_self ((isUnit4_iff q).2 h)⟩

/-- C05: conjugation reverses products and is an involution preserving the norm. -/
theorem C05_conjugate_product (a b : V4) :
    conjugate (product a b) = product (conjugate b) (conjugate a) ∧
    conjugate (conjugate a) = a ∧ npNorm (conjugate a) = npNorm a := by
  refine ⟨conjugate_product a b, conjugate_conjugate a, ?_⟩
  simp [npNorm, Fin.sum_univ_four, conjugate_0, conjugate_1, conjugate_2, conjugate_3]

example : npNorm (![3 / 5, 0, 4 / 5, 0] : V4) = 1 := npNorm_vec4 (by norm_num)

/-- C06: for a unit quaternion, `sandwich` is a proper rotation matrix acting on `v`. -/
theorem C06_sandwich_rotation (q : V4) (h : npNorm q = 1) :
    ∃ R : Matrix (Fin 3) (Fin 3) ℝ, Rᵀ * R = 1 ∧ R.det = 1 ∧ ∀ v, sandwich q v = R *ᵥ v :=
  ⟨dcm q, (dcm_isRotation ((isUnit4_iff q).2 h)).1, (dcm_isRotation ((isUnit4_iff q).2 h)).2,
    sandwich_eq_dcm q⟩

/-- C06: dot products, lengths and cross products are preserved. -/
theorem C06_sandwich_preserves (q : V4) (h : npNorm q = 1) (v w : V3) :
    sandwich q v ⬝ᵥ sandwich q w = v ⬝ᵥ w ∧ npNorm (sandwich q v) = npNorm v ∧
    sandwich q (v ⨯₃ w) = sandwich q v ⨯₃ sandwich q w := by
  have hq := (isUnit4_iff q).2 h
  refine ⟨sandwich_dot hq v w, ?_, sandwich_cross hq v w⟩
  have : npNorm (sandwich q v) ^ 2 = npNorm v ^ 2 := by
    rw [npNorm_sq_dot, npNorm_sq_dot]; exact sandwich_dot hq v v
  exact (sq_eq_sq₀ (npNorm_nonneg _) (npNorm_nonneg _)).1 this

/-- C06: `q` and `-q` are the same attitude. -/
theorem C06_sandwich_neg (q : V4) (v : V3) : sandwich (-q) v = sandwich q v := sandwich_neg q v

/-- C06: conversely, unit quaternions with the same `sandwich` are equal up to sign. -/
theorem C06_sandwich_faithful (p q : V4) (hp : npNorm p = 1) (hq : npNorm q = 1)
    (h : ∀ v, sandwich p v = sandwich q v) : p = q ∨ p = -q := by
  have hp' := (isUnit4_iff p).2 hp
  have hq' := (isUnit4_iff q).2 hq
  -- e = conj(q) p commutes with everything
  set e := product p (conjugate q) with he
  have hid : ∀ v, sandwich e v = v := fun v => by
    rw [he, sandwich_product, h]; exact sandwichOpp_sandwich hq' v
  have hu : IsUnit4 e := isUnit4_product hp' (isUnit4_conjugate hq')
  have e0 := congrFun (hid ![1, 0, 0]) 0
  have e1 := congrFun (hid ![0, 1, 0]) 1
  have e2 := congrFun (hid ![0, 0, 1]) 2
  rw [sandwich_0] at e0; rw [sandwich_1] at e1; rw [sandwich_2] at e2
  unfold IsUnit4 at hu
  simp at e0 e1 e2
  have h1 : e 1 = 0 := by
    have : e 1 ^ 2 = 0 := by nlinarith [sq_nonneg (e 1), sq_nonneg (e 2), sq_nonneg (e 3)]
    simpa using this
  have h2 : e 2 = 0 := by
    have : e 2 ^ 2 = 0 := by nlinarith [sq_nonneg (e 1), sq_nonneg (e 2), sq_nonneg (e 3)]
    simpa using this
  have h3 : e 3 = 0 := by
    have : e 3 ^ 2 = 0 := by nlinarith [sq_nonneg (e 1), sq_nonneg (e 2), sq_nonneg (e 3)]
    simpa using this
  have hp2 : p = product e q := by
    rw [he, product_assoc, conj_product_self hq', product_one]
  have h0 : (e 0 - 1) * (e 0 + 1) = 0 := by rw [h1, h2, h3] at hu; linear_combination hu
  rcases mul_eq_zero.1 h0 with h0 | h0
  · left
    have h0' : e 0 = 1 := by linarith
    have : e = ![1, 0, 0, 0] := by apply vec4_ext <;> simp [h0', h1, h2, h3]
    rw [hp2, this, one_product]
  · right
    have h0' : e 0 = -1 := by linarith
    rw [hp2]
    apply vec4_ext <;> simp [product_0, product_1, product_2, product_3, h0', h1, h2, h3]

/-- C07: `sandwich_opp` is the inverse of `sandwich`. -/
theorem C07_sandwich_opp (q : V4) (h : npNorm q = 1) (v : V3) :
    sandwichOpp q (sandwich q v) = v ∧ sandwich q (sandwichOpp q v) = v :=
  ⟨sandwichOpp_sandwich ((isUnit4_iff q).2 h) v, sandwich_sandwichOpp ((isUnit4_iff q).2 h) v⟩

/-- C08: composition of coordinate transformations. -/
theorem C08_sandwich_product (p q : V4) (v : V3) :
    sandwich (product p q) v = sandwich q (sandwich p v) ∧
    sandwichOpp (product p q) v = sandwichOpp p (sandwichOpp q v) := by
  refine ⟨sandwich_product p q v, ?_⟩
  rw [sandwichOpp, conjugate_product, sandwich_product]; rfl

/-- C09: the error quaternion of unit quaternions is a unit quaternion leading from the
reference to the current attitude. -/
theorem C09_error_quat (q qRef : V4) (h : npNorm q = 1) (hr : npNorm qRef = 1) :
    product qRef (errorQuat q qRef) = q ∧ npNorm (errorQuat q qRef) = 1 ∧
    ∀ v, sandwich (errorQuat q qRef) (sandwich qRef v) = sandwich q v := by
  have hr' := (isUnit4_iff qRef).2 hr
  have key : product qRef (errorQuat q qRef) = q := by
    rw [errorQuat, ← product_assoc, product_conj_self hr', one_product]
  refine ⟨key, ?_, fun v => ?_⟩
  · exact (isUnit4_iff _).1 (errorQuat_unit ((isUnit4_iff q).2 h) hr')
  · rw [← sandwich_product, key]

/-- C09: the vector part of the error vanishes exactly when the attitudes agree. -/
theorem C09_error_quat_zero (q qRef : V4) (h : npNorm q = 1) (hr : npNorm qRef = 1) :
    vecPart (errorQuat q qRef) = 0 ↔ q = qRef ∨ q = -qRef := by
  have hr' := (isUnit4_iff qRef).2 hr
  obtain ⟨key, hn, -⟩ := C09_error_quat q qRef h hr
  constructor
  · intro hv
    have h1 : errorQuat q qRef 1 = 0 := congrFun hv 0
    have h2 : errorQuat q qRef 2 = 0 := congrFun hv 1
    have h3 : errorQuat q qRef 3 = 0 := congrFun hv 2
    have hu : IsUnit4 (errorQuat q qRef) := (isUnit4_iff _).2 hn
    unfold IsUnit4 at hu
    rw [h1, h2, h3] at hu
    have h0 : (errorQuat q qRef 0 - 1) * (errorQuat q qRef 0 + 1) = 0 := by
      linear_combination hu
    rcases mul_eq_zero.1 h0 with h0 | h0
    · left
      have h0' : errorQuat q qRef 0 = 1 := by linarith
      rw [← key]
      apply vec4_ext <;> simp [product_0, product_1, product_2, product_3, h0', h1, h2, h3]
    · right
      have h0' : errorQuat q qRef 0 = -1 := by linarith
      rw [← key]
      apply vec4_ext <;> simp [product_0, product_1, product_2, product_3, h0', h1, h2, h3]
  · rintro (rfl | rfl)
    · rw [errorQuat, conj_product_self hr']; ext i; fin_cases i <;> simp [vecPart]
    · have : errorQuat (-qRef) qRef = -![1, 0, 0, 0] := by
        rw [← conj_product_self hr', errorQuat]
        apply vec4_ext <;> simp [product_0, product_1, product_2, product_3] <;> ring
      rw [this]; ext i; fin_cases i <;> simp [vecPart]

/-- C10: `axisangle_to_quat` is a unit quaternion. -/
theorem C10_axisangle_unit (r : V3) (θ : ℝ) (h : npNorm r = 1) :
    npNorm (axisangleToQuat r θ) = 1 :=
  (isUnit4_iff _).1 (axisangle_unit ((isUnit3_iff r).2 h) θ)

/-- C10: `sandwich_opp` with it is the right-handed rotation by `θ` about `r`
(Rodrigues' formula). -/
theorem C10_axisangle_active (r : V3) (θ : ℝ) (h : npNorm r = 1) (v : V3) :
    sandwichOpp (axisangleToQuat r θ) v = Spec.rodrigues r θ v := by
  have hr : r 0 ^ 2 + r 1 ^ 2 + r 2 ^ 2 = 1 := (isUnit3_iff r).2 h
  have hc : Real.cos θ = Real.cos (θ / 2) ^ 2 - Real.sin (θ / 2) ^ 2 := by
    rw [← Real.cos_two_mul']; congr 1; ring
  have hs : Real.sin θ = 2 * Real.sin (θ / 2) * Real.cos (θ / 2) := by
    rw [← Real.sin_two_mul]; congr 1; ring
  have h1 := Real.sin_sq_add_cos_sq (θ / 2)
  unfold Spec.rodrigues
  rw [hc, hs, sandwichOpp, ← npCross_eq_crossProduct, ← npDot_eq_dotProduct, npDot3]
  set c := Real.cos (θ / 2)
  set s := Real.sin (θ / 2)
  apply vec3_ext
  · simp [sandwich_0, conjugate_0, conjugate_1, conjugate_2, conjugate_3, axisangleToQuat,
      npCross_0]
    linear_combination (-s ^ 2 * v 0) * hr + r 0 * (r 0 * v 0 + r 1 * v 1 + r 2 * v 2) * h1
  · simp [sandwich_1, conjugate_0, conjugate_1, conjugate_2, conjugate_3, axisangleToQuat,
      npCross_1]
    linear_combination (-s ^ 2 * v 1) * hr + r 1 * (r 0 * v 0 + r 1 * v 1 + r 2 * v 2) * h1
  · simp [sandwich_2, conjugate_0, conjugate_1, conjugate_2, conjugate_3, axisangleToQuat,
      npCross_2]
    linear_combination (-s ^ 2 * v 2) * hr + r 2 * (r 0 * v 0 + r 1 * v 1 + r 2 * v 2) * h1

/-- C10: `sandwich` with it is the rotation by `-θ` (the change of coordinates). -/
theorem C10_axisangle_passive (r : V3) (θ : ℝ) (h : npNorm r = 1) (v : V3) :
    sandwich (axisangleToQuat r θ) v = Spec.rodrigues r (-θ) v := by
  rw [← C10_axisangle_active r (-θ) h, sandwichOpp]
  congr 1
  apply vec4_ext <;>
    simp [conjugate_0, conjugate_1, conjugate_2, conjugate_3, axisangleToQuat, neg_div]

example : npNorm (![0, 3 / 5, -4 / 5] : V3) = 1 := npNorm_vec3 (by norm_num)

/-- C11: the Euler quaternion is yaw about z, then pitch about y, then roll about x. -/
theorem C11_eulerangle_product (RA dec roll : ℝ) :
    eulerangleToQuat RA dec roll =
      product (axisangleToQuat ![0, 0, 1] (npRadians RA))
        (product (axisangleToQuat ![0, 1, 0] (npRadians dec))
          (axisangleToQuat ![1, 0, 0] (npRadians roll))) := by
  apply vec4_ext <;>
    simp [eulerangleToQuat, axisangleToQuat, product_0, product_1, product_2, product_3] <;> ring

/-- C11: as a change of coordinates it is the direction cosine matrix of the 3-2-1 sequence. -/
theorem C11_eulerangle_dcm (RA dec roll : ℝ) (v : V3) :
    sandwich (eulerangleToQuat RA dec roll) v =
      Spec.rodrigues ![1, 0, 0] (-(roll * Real.pi / 180))
        (Spec.rodrigues ![0, 1, 0] (-(dec * Real.pi / 180))
          (Spec.rodrigues ![0, 0, 1] (-(RA * Real.pi / 180)) v)) := by
  have hx : npNorm (![1, 0, 0] : V3) = 1 := npNorm_vec3 (by norm_num)
  have hy : npNorm (![0, 1, 0] : V3) = 1 := npNorm_vec3 (by norm_num)
  have hz : npNorm (![0, 0, 1] : V3) = 1 := npNorm_vec3 (by norm_num)
  rw [C11_eulerangle_product, sandwich_product, sandwich_product,
    C10_axisangle_passive _ _ hz, C10_axisangle_passive _ _ hy, C10_axisangle_passive _ _ hx]
  rfl

theorem eulerangle_unit (RA dec roll : ℝ) : IsUnit4 (eulerangleToQuat RA dec roll) := by
  rw [C11_eulerangle_product]
  refine isUnit4_product (axisangle_unit ?_ _)
    (isUnit4_product (axisangle_unit ?_ _) (axisangle_unit ?_ _)) <;> simp [IsUnit3]

/-- C11: the result is a unit quaternion. -/
theorem C11_eulerangle_unit (RA dec roll : ℝ) : npNorm (eulerangleToQuat RA dec roll) = 1 :=
  (isUnit4_iff _).1 (eulerangle_unit RA dec roll)

theorem euler_shift_aux (a : ℝ) :
    npRadians (a + 360) / 2 = npRadians a / 2 + Real.pi := by unfold npRadians; ring

/-- C11: a full turn of any angle changes the sign of the quaternion, hence not the attitude. -/
theorem C11_eulerangle_period (RA dec roll : ℝ) :
    eulerangleToQuat (RA + 360) dec roll = -eulerangleToQuat RA dec roll ∧
    eulerangleToQuat RA (dec + 360) roll = -eulerangleToQuat RA dec roll ∧
    eulerangleToQuat RA dec (roll + 360) = -eulerangleToQuat RA dec roll := by
  refine ⟨?_, ?_, ?_⟩ <;> apply vec4_ext <;>
    simp [eulerangleToQuat, euler_shift_aux, Real.cos_add_pi, Real.sin_add_pi] <;> ring

/-- C13: `path_lift` returns one of the two representatives of the measured attitude, the one at
least as close to the reference, and their dot product is non-negative. -/
theorem C13_path_lift (RA dec roll : ℝ) (qRef : V4) :
    let r := pathLift RA dec roll qRef
    (r = eulerangleToQuat RA dec roll ∨ r = -eulerangleToQuat RA dec roll) ∧
    metric r qRef ≤ metric (-r) qRef ∧ 0 ≤ npDot r qRef := by
  have hneg : ∀ q : V4, npDot (-q) qRef = -npDot q qRef := fun q => by
    simp [npDot]
  intro r
  by_cases h : metric (eulerangleToQuat RA dec roll) qRef < metric (-eulerangleToQuat RA dec roll) qRef
  · have hr : r = eulerangleToQuat RA dec roll := by simp [r, pathLift, h]
    rw [hr]
    refine ⟨.inl rfl, h.le, ?_⟩
    unfold metric at h; rw [hneg] at h; linarith
  · have hr : r = -eulerangleToQuat RA dec roll := by simp [r, pathLift, h]
    rw [hr]
    refine ⟨.inr rfl, by rw [neg_neg]; exact not_lt.1 h, ?_⟩
    unfold metric at h; rw [hneg] at h ⊢; linarith

/-- C13: shifting any angle by a full turn does not change the lifted quaternion, unless both
representatives are equally close to the reference. -/
theorem C13_path_lift_shift (RA dec roll : ℝ) (qRef : V4)
    (h : npDot (eulerangleToQuat RA dec roll) qRef ≠ 0) :
    pathLift (RA + 360) dec roll qRef = pathLift RA dec roll qRef ∧
    pathLift RA (dec + 360) roll qRef = pathLift RA dec roll qRef ∧
    pathLift RA dec (roll + 360) qRef = pathLift RA dec roll qRef := by
  have key : ∀ q : V4, npDot q qRef ≠ 0 →
      (if metric (-q) qRef < metric (- -q) qRef then -q else - -q) =
        (if metric q qRef < metric (-q) qRef then q else -q) := by
    intro q hq
    have hneg : npDot (-q) qRef = -npDot q qRef := by simp [npDot]
    rw [neg_neg]
    unfold metric
    rw [hneg]
    rcases lt_or_gt_of_ne hq with h | h
    · rw [if_pos (by linarith), if_neg (by linarith)]
    · rw [if_neg (by linarith), if_pos (by linarith)]
  obtain ⟨h1, h2, h3⟩ := C11_eulerangle_period RA dec roll
  unfold pathLift
  simp only [h1, h2, h3]
  exact ⟨key _ h, key _ h, key _ h⟩

/-- C13: if the measured attitude is that of the reference, `path_lift` returns the reference
itself, whatever sign the measured quaternion has. -/
theorem C13_path_lift_fixed (RA dec roll : ℝ) (qRef : V4)
    (h : qRef = eulerangleToQuat RA dec roll ∨ qRef = -eulerangleToQuat RA dec roll) :
    pathLift RA dec roll qRef = qRef := by
  have hu : eulerangleToQuat RA dec roll 0 ^ 2 + eulerangleToQuat RA dec roll 1 ^ 2 +
    eulerangleToQuat RA dec roll 2 ^ 2 + eulerangleToQuat RA dec roll 3 ^ 2 = 1 :=
    eulerangle_unit RA dec roll
  unfold pathLift metric
  generalize eulerangleToQuat RA dec roll = q at h hu ⊢
  rcases h with rfl | rfl
  · simp only [npDot4, Pi.neg_apply]; rw [if_pos (by nlinarith)]
  · simp only [npDot4, Pi.neg_apply]; rw [if_neg (by nlinarith)]

example : npDot (eulerangleToQuat 0 0 0) ![1, 0, 0, 0] ≠ 0 := by
  simp [npDot4, eulerangleToQuat, npRadians]

end Adcs
