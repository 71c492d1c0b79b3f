import Verif.Props.Quat

set_option autoImplicit false

/-! # C12: equatorial angles

The round trip of the property fails: `eulerangle_to_quat` puts the scalar part first,
`_quat2equatorial` expects it last (and has the opposite sign of declination). -/

namespace Adcs

open Vec Quat

/-- The full property. -/
def EquatorialRoundTrip : Prop :=
  ∀ RA dec roll : ℝ, 0 ≤ RA → RA < 360 → -90 < dec → dec < 90 → 0 ≤ roll → roll < 360 →
    quat2equatorial (eulerangleToQuat RA dec roll) = .ok ![RA, dec, roll]

theorem arctan2_zero_one : npArctan2 0 1 = 0 := by
  have := npArctan2_polar one_pos (a := 0) (by linarith [Real.pi_pos]) Real.pi_pos.le
  simpa using this

/-- C12 is violated: right ascension 90°, declination 0°, roll 0° comes back with right
ascension 0° . -/
theorem C12_round_trip_fails : ¬ EquatorialRoundTrip := by
  intro h
  have := h 90 0 0 (by norm_num) (by norm_num) (by norm_num) (by norm_num) (by norm_num)
    (by norm_num)
  have e : npRadians 90 / 2 = Real.pi / 4 := by unfold npRadians; ring
  have hq : eulerangleToQuat 90 0 0 = ![Real.sqrt 2 / 2, 0, 0, Real.sqrt 2 / 2] := by
    have e0 : npRadians 0 / 2 = 0 := by unfold npRadians; ring
    apply vec4_ext <;> simp [eulerangleToQuat, e, e0]
  rw [hq] at this
  have h2 : Real.sqrt 2 ^ 2 = 2 := Real.sq_sqrt (by norm_num)
  have hxa : (Real.sqrt 2 / 2) ^ 2 - (0:ℝ) ^ 2 - 0 ^ 2 + (Real.sqrt 2 / 2) ^ 2 = 1 := by
    rw [div_pow, h2]; norm_num
  simp only [quat2equatorial] at this
  simp at this
  rw [if_neg (by norm_num)] at this
  have h0 := congrFun (Except.ok.inj this) 0
  simp at h0
  have hx' : (Real.sqrt 2 / 2) ^ 2 + (Real.sqrt 2 / 2) ^ 2 = 1 := by
    rw [div_pow, h2]; norm_num
  rw [hx', arctan2_zero_one] at h0
  norm_num [npDegrees] at h0

/-- Reordering from scalar-first to scalar-last. -/
def scalarLast (q : V4) : V4 := ![q 1, q 2, q 3, q 0]

theorem npDegrees_radians (x : ℝ) : npDegrees (npRadians x) = x := by
  unfold npDegrees npRadians; field_simp

theorem wrap_angle {c x : ℝ} (hc : 0 < c) (h0 : 0 ≤ x) (h1 : x < 360) :
    let a := npDegrees (npArctan2 (c * Real.sin (npRadians x)) (c * Real.cos (npRadians x)))
    (if a < 0 then a + 360 else a) = x := by
  intro a
  have hpi := Real.pi_pos
  by_cases hx : x ≤ 180
  · have ha : a = x := by
      simp only [a]
      rw [npArctan2_polar hc, npDegrees_radians]
      · unfold npRadians; have : 0 ≤ x * Real.pi / 180 := by positivity
        linarith
      · unfold npRadians; rw [div_le_iff₀ (by norm_num)]; nlinarith
    rw [ha, if_neg (by linarith)]
  · push Not at hx
    have ha : a = x - 360 := by
      have e : npRadians x = npRadians (x - 360) + 2 * Real.pi := by unfold npRadians; ring
      simp only [a]
      rw [e, Real.sin_add_two_pi, Real.cos_add_two_pi, npArctan2_polar hc, npDegrees_radians]
      · unfold npRadians; rw [lt_div_iff₀ (by norm_num)]; nlinarith
      · unfold npRadians; rw [div_le_iff₀ (by norm_num)]; nlinarith
    rw [ha, if_pos (by linarith)]; ring

theorem double_sin (x : ℝ) : Real.sin (npRadians x) =
    2 * Real.sin (npRadians x / 2) * Real.cos (npRadians x / 2) := by
  rw [← Real.sin_two_mul]; congr 1; ring

theorem double_cos (x : ℝ) : Real.cos (npRadians x) =
    Real.cos (npRadians x / 2) ^ 2 - Real.sin (npRadians x / 2) ^ 2 := by
  rw [← Real.cos_two_mul']; congr 1; ring

/-- C12, the part that holds: after moving the scalar part to the end the conversion returns right
ascension and roll exactly and the *negated* declination.
Missing against the full property: reordering and sign are not done by the library. -/
theorem C12_round_trip_partial (RA dec roll : ℝ) (h0 : 0 ≤ RA) (h1 : RA < 360) (h2 : -90 < dec)
    (h3 : dec < 90) (h4 : 0 ≤ roll) (h5 : roll < 360) :
    quat2equatorial (scalarLast (eulerangleToQuat RA dec roll)) = .ok ![RA, -dec, roll] := by
  have hpi := Real.pi_pos
  have hd1 : -(Real.pi / 2) < npRadians dec := by
    unfold npRadians; rw [lt_div_iff₀ (by norm_num)]; nlinarith
  have hd2 : npRadians dec < Real.pi / 2 := by
    unfold npRadians; rw [div_lt_iff₀ (by norm_num)]; nlinarith
  have hc : 0 < Real.cos (npRadians dec) := Real.cos_pos_of_mem_Ioo ⟨hd1, hd2⟩
  have pA := Real.sin_sq_add_cos_sq (npRadians RA / 2)
  have pD := Real.sin_sq_add_cos_sq (npRadians dec / 2)
  have pR := Real.sin_sq_add_cos_sq (npRadians roll / 2)
  set sA := Real.sin (npRadians RA / 2) with hsA
  set cA := Real.cos (npRadians RA / 2) with hcA
  set sD := Real.sin (npRadians dec / 2) with hsD
  set cD := Real.cos (npRadians dec / 2) with hcD
  set sR := Real.sin (npRadians roll / 2) with hsR
  set cR := Real.cos (npRadians roll / 2) with hcR
  set q := scalarLast (eulerangleToQuat RA dec roll) with hq
  have q0 : q 0 = cA * cD * sR - sA * sD * cR := rfl
  have q1 : q 1 = cA * sD * cR + sA * cD * sR := rfl
  have q2 : q 2 = sA * cD * cR - cA * sD * sR := rfl
  have q3 : q 3 = cA * cD * cR + sA * sD * sR := rfl
  have exa : q 0 ^ 2 - q 1 ^ 2 - q 2 ^ 2 + q 3 ^ 2 =
      Real.cos (npRadians dec) * Real.cos (npRadians RA) := by
    rw [double_cos dec, double_cos RA, ← hsA, ← hcA, ← hsD, ← hcD, q0, q1, q2, q3]
    linear_combination ((cD^2 - sD^2) * (cA^2 - sA^2)) * pR
  have exb : 2 * (q 0 * q 1 + q 2 * q 3) =
      Real.cos (npRadians dec) * Real.sin (npRadians RA) := by
    rw [double_cos dec, double_sin RA, ← hsA, ← hcA, ← hsD, ← hcD, q0, q1, q2, q3]
    linear_combination (2 * cA * sA * (cD^2 - sD^2)) * pR
  have exn : 2 * (q 0 * q 2 - q 1 * q 3) = Real.sin (npRadians (-dec)) := by
    have : npRadians (-dec) = -npRadians dec := by unfold npRadians; ring
    rw [this, Real.sin_neg, double_sin dec, ← hsD, ← hcD, q0, q1, q2, q3]
    linear_combination (-2 * sD * cD * (cA ^ 2 + sA ^ 2)) * pR - 2 * sD * cD * pA
  have eyn : 2 * (q 1 * q 2 + q 0 * q 3) =
      Real.cos (npRadians dec) * Real.sin (npRadians roll) := by
    rw [double_cos dec, double_sin roll, ← hsR, ← hcR, ← hsD, ← hcD, q0, q1, q2, q3]
    linear_combination (2 * cR * sR * (cD^2 - sD^2)) * pA
  have ezn : q 3 ^ 2 + q 2 ^ 2 - q 0 ^ 2 - q 1 ^ 2 =
      Real.cos (npRadians dec) * Real.cos (npRadians roll) := by
    rw [double_cos dec, double_cos roll, ← hsR, ← hcR, ← hsD, ← hcD, q0, q1, q2, q3]
    linear_combination ((cR^2 - sR^2) * (cD^2 - sD^2)) * pA
  have hn : npRadians (-dec) = -npRadians dec := by unfold npRadians; ring
  have eom : 1 - Real.sin (npRadians (-dec)) ^ 2 = Real.cos (npRadians (-dec)) ^ 2 := by
    have := Real.sin_sq_add_cos_sq (npRadians (-dec)); linarith
  have hc' : 0 < Real.cos (npRadians (-dec)) := by rw [hn, Real.cos_neg]; exact hc
  simp only [quat2equatorial, exa, exb, exn, eyn, ezn, eom]
  rw [if_neg (by have := sq_nonneg (Real.cos (npRadians (-dec))); norm_num; linarith),
    if_neg (not_lt.2 (sq_nonneg _)), Real.sqrt_sq hc'.le]
  have ed : npDegrees (npArctan2 (Real.sin (npRadians (-dec))) (Real.cos (npRadians (-dec)))) =
      -dec := by
    have := npArctan2_polar one_pos (a := npRadians (-dec)) (by rw [hn]; linarith)
      (by rw [hn]; linarith)
    rw [one_mul, one_mul] at this
    rw [this, npDegrees_radians]
  rw [wrap_angle hc h0 h1, wrap_angle hc h4 h5, ed]

theorem degrees_arg_range (y x : ℝ) :
    let a := npDegrees (npArctan2 y x)
    0 ≤ (if a < 0 then a + 360 else a) ∧ (if a < 0 then a + 360 else a) < 360 := by
  intro a
  have hpi := Real.pi_pos
  have h1 : -180 < a := by
    simp only [a, npDegrees, npArctan2]; rw [lt_div_iff₀ hpi]
    nlinarith [Complex.neg_pi_lt_arg (⟨x, y⟩ : ℂ)]
  have h2 : a ≤ 180 := by
    simp only [a, npDegrees, npArctan2]; rw [div_le_iff₀ hpi]
    nlinarith [Complex.arg_le_pi (⟨x, y⟩ : ℂ)]
  split_ifs with h <;> constructor <;> linarith

/-- C12: whatever the quaternion, if angles are returned, right ascension and roll are in
`[0, 360)` and declination in `[-90, 90]`. -/
theorem C12_range (q : V4) (a : V3) (h : quat2equatorial q = .ok a) :
    0 ≤ a 0 ∧ a 0 < 360 ∧ -90 ≤ a 1 ∧ a 1 ≤ 90 ∧ 0 ≤ a 2 ∧ a 2 < 360 := by
  have hd : ∀ s t : ℝ, 0 ≤ t → -90 ≤ npDegrees (npArctan2 s t) ∧ npDegrees (npArctan2 s t) ≤ 90 := by
    intro s t ht
    have hpi := Real.pi_pos
    have := (Complex.abs_arg_le_pi_div_two_iff (z := ⟨t, s⟩)).2 ht
    rw [abs_le] at this
    unfold npDegrees npArctan2
    rw [le_div_iff₀ hpi, div_le_iff₀ hpi]
    constructor <;> nlinarith [this.1, this.2]
  unfold quat2equatorial at h
  by_cases hv : 1 - (2 * (q 0 * q 2 - q 1 * q 3)) ^ 2 < -1e-12
  · simp only [if_pos hv] at h; cases h
  · simp only [if_neg hv] at h
    rw [← Except.ok.inj h]
    have r1 := degrees_arg_range (2 * (q 0 * q 1 + q 2 * q 3))
      (q 0 ^ 2 - q 1 ^ 2 - q 2 ^ 2 + q 3 ^ 2)
    have r2 := degrees_arg_range (2 * (q 1 * q 2 + q 0 * q 3))
      (q 3 ^ 2 + q 2 ^ 2 - q 0 ^ 2 - q 1 ^ 2)
    have r3 := hd (2 * (q 0 * q 2 - q 1 * q 3)) _ (Real.sqrt_nonneg
      (if 1 - (2 * (q 0 * q 2 - q 1 * q 3)) ^ 2 < 0 then 0
        else 1 - (2 * (q 0 * q 2 - q 1 * q 3)) ^ 2))
    exact ⟨r1.1, r1.2, r3.1, r3.2, r2.1, r2.2⟩

/-- C12: for a unit quaternion no exception is raised. -/
theorem C12_unit_ok (q : V4) (h : npNorm q = 1) : ∃ a, quat2equatorial q = .ok a := by
  have hu : q 0 ^ 2 + q 1 ^ 2 + q 2 ^ 2 + q 3 ^ 2 = 1 := (isUnit4_iff q).2 h
  have h1 : (2 * (q 0 * q 2 - q 1 * q 3)) ^ 2 ≤ 1 := by
    have a1 : 2 * (q 0 * q 2 - q 1 * q 3) ≤ 1 := by
      nlinarith [sq_nonneg (q 0 - q 2), sq_nonneg (q 1 + q 3)]
    have a2 : -1 ≤ 2 * (q 0 * q 2 - q 1 * q 3) := by
      nlinarith [sq_nonneg (q 0 + q 2), sq_nonneg (q 1 - q 3)]
    nlinarith
  unfold quat2equatorial
  simp only
  rw [if_neg (by norm_num; linarith)]
  exact ⟨_, rfl⟩

example : (0:ℝ) ≤ 200 ∧ (200:ℝ) < 360 ∧ (-90:ℝ) < -30 := by norm_num
example : npNorm (![1 / 2, 1 / 2, 1 / 2, 1 / 2] : V4) = 1 := npNorm_vec4 (by norm_num)

end Adcs
