import Verif.Proofs.ExampleSat
import Verif.Model.Controller
import Verif.Props.Quat
import Verif.Props.Vec

set_option autoImplicit false

/-! # C68, C97: pointing references -/

namespace Adcs

open Str Ctl Sens JDay Quat Vec
open scoped Matrix

/-! ## C68 -/

/-- The claim: in the attitude turned by `acquire_target`'s rotation, the direction of the target has the
coordinates of the boresight. -/
def AcquireTargetPoints : Prop :=
  ∀ (position target boresight : V3) (attitude : V4), npNorm attitude = 1 → npNorm boresight = 1 →
    target ≠ position →
    ∃ d : ℝ, 0 < d ∧ sandwich (product attitude (acquireTarget position attitude boresight target))
      (target - position) = d • boresight

/-- The rotation between two unit vectors that are not opposite. -/
theorem align {b d : V3} (hb : npNorm b = 1) (hd : npNorm d = 1) (hne : d ≠ -b) :
    sandwich (axisangleToQuat (rAxisAngle b d).1 (rAxisAngle b d).2) d = b ∧
    npNorm (axisangleToQuat (rAxisAngle b d).1 (rAxisAngle b d).2) = 1 := by
  have hb2 := npNorm_eq_one.1 hb
  have hd2 := npNorm_eq_one.1 hd
  simp only [Fin.sum_univ_three] at hb2 hd2
  set c := b ⬝ᵥ d with hc
  have hc3 : c = b 0 * d 0 + b 1 * d 1 + b 2 * d 2 := Matrix.vec3_dotProduct' ..
  have hlag : c ^ 2 + (npCross b d 0 ^ 2 + npCross b d 1 ^ 2 + npCross b d 2 ^ 2) = 1 := by
    rw [npCross_0, npCross_1, npCross_2, hc3]
    linear_combination (d 0 ^ 2 + d 1 ^ 2 + d 2 ^ 2) * hb2 + hd2
  have hc1 : -1 ≤ c ∧ c ≤ 1 := by
    constructor <;> nlinarith [sq_nonneg (npCross b d 0), sq_nonneg (npCross b d 1), sq_nonneg (npCross b d 2)]
  have hclip : npClip (npDot b d) (-1) 1 = c := by
    rw [npDot_eq_dotProduct, npClip, max_eq_left hc1.1, min_eq_left hc1.2]
  have hcm : c ≠ -1 := by
    intro h
    apply hne
    have : (d 0 + b 0) ^ 2 + (d 1 + b 1) ^ 2 + (d 2 + b 2) ^ 2 = 0 := by
      linear_combination hb2 + hd2 + 2 * h - 2 * hc3
    have e0 : d 0 + b 0 = 0 := by nlinarith [sq_nonneg (d 0 + b 0), sq_nonneg (d 1 + b 1), sq_nonneg (d 2 + b 2)]
    have e1 : d 1 + b 1 = 0 := by nlinarith [sq_nonneg (d 0 + b 0), sq_nonneg (d 1 + b 1), sq_nonneg (d 2 + b 2)]
    have e2 : d 2 + b 2 = 0 := by nlinarith [sq_nonneg (d 0 + b 0), sq_nonneg (d 1 + b 1), sq_nonneg (d 2 + b 2)]
    apply vec3_ext <;> simp only [Pi.neg_apply] <;> linarith
  simp only [rAxisAngle, hclip]
  set θ := Real.arccos c with hθ
  have hcos : Real.cos θ = c := Real.cos_arccos hc1.1 hc1.2
  have hk2 : Real.cos (θ / 2) ^ 2 = (1 + c) / 2 := by
    rw [Real.cos_sq, mul_div_cancel₀ _ (by norm_num : (2 : ℝ) ≠ 0), hcos]; ring
  set k := Real.cos (θ / 2) with hk
  have hk0 : k ≠ 0 := by
    intro h; rw [h] at hk2; apply hcm; linarith
  -- vector part
  have hv : Real.sin (θ / 2) • normalizeV (npCross b d) = (1 / (2 * k)) • npCross b d := by
    by_cases h0 : npCross b d = 0
    · rw [h0, normalize_zero, smul_zero, smul_zero]
    · have hs : Real.sin θ = npNorm (npCross b d) := by
        rw [hθ, Real.sin_arccos, npNorm, Fin.sum_univ_three]
        congr 1; linarith
      have hs2 : Real.sin θ = 2 * Real.sin (θ / 2) * k := by
        rw [hk, ← Real.sin_two_mul]; congr 1; ring
      have hn := (npNorm_pos h0).ne'
      rw [normalize_eq h0, smul_smul]
      congr 1
      rw [← hs, hs2] at *
      have : Real.sin (θ / 2) ≠ 0 := by
        intro h; rw [h] at hn; simp at hn
      field_simp
  have hq : axisangleToQuat (normalizeV (npCross b d)) θ =
      ![k, 1 / (2 * k) * npCross b d 0, 1 / (2 * k) * npCross b d 1, 1 / (2 * k) * npCross b d 2] := by
    apply vec4_ext
    · rfl
    · exact congrFun hv 0
    · exact congrFun hv 1
    · exact congrFun hv 2
  rw [hq]
  set j := 1 / (2 * k) with hj
  have hjk : 2 * k * j = 1 := by rw [hj]; field_simp
  have hj2 : 2 * j ^ 2 * (1 + c) = 1 := by
    have : (2 * k * j) ^ 2 = 1 := by rw [hjk]; norm_num
    nlinarith
  rw [npCross_0, npCross_1, npCross_2]
  rw [npCross_0, npCross_1, npCross_2] at hlag
  constructor
  · apply vec3_ext
    · rw [sandwich_0]; simp only [Matrix.cons_val_zero, Matrix.cons_val_one, cons4_2, cons4_3]
      grind
    · rw [sandwich_1]; simp only [Matrix.cons_val_zero, Matrix.cons_val_one, cons4_2, cons4_3]
      grind
    · rw [sandwich_2]; simp only [Matrix.cons_val_zero, Matrix.cons_val_one, cons4_2, cons4_3]
      grind
  · apply npNorm_vec4
    linear_combination hk2 + j ^ 2 * hlag + (1 - c) / 2 * hj2

theorem toBody_direction {position target : V3} {attitude : V4} (hq : npNorm attitude = 1)
    (hne : target ≠ position) : npNorm (sandwich attitude (pointingVector position target)) = 1 := by
  rw [(C06_sandwich_preserves attitude hq _ 0).2.1]
  exact npNorm_normalize (sub_ne_zero.2 hne)

/-- It is false: a target right behind the boresight gives the quaternion zero. -/
theorem C68_acquire_fails : ¬ AcquireTargetPoints := by
  intro H
  obtain ⟨d, hd, h⟩ := H 0 ![-1, 0, 0] ![1, 0, 0] ![1, 0, 0, 0] (npNorm_vec4 (by norm_num))
    (npNorm_vec3 (by norm_num)) (by intro h; have := congrFun h 0; norm_num at this)
  have h1 : acquireTarget 0 ![1, 0, 0, 0] ![1, 0, 0] ![-1, 0, 0] = 0 := by
    have hp : pointingVector 0 ![-1, 0, 0] = ![-1, 0, 0] := by
      rw [pointingVector, sub_zero]
      exact normalize_of_unit (npNorm_vec3 (by norm_num))
    simp only [acquireTarget, hp, sandwich_one, rAxisAngle, npDot3, npClip]
    have hc : npCross ![1, 0, 0] ![-1, 0, 0] = 0 := by
      apply vec3_ext <;> simp [npCross]
    rw [hc, normalize_zero]
    simp [axisangleToQuat, Real.arccos_neg_one]
  rw [h1] at h
  have h2 := congrFun h 0
  rw [sandwich_0] at h2
  simp [product_0, product_1, product_2, product_3] at h2
  linarith

/-- For every target that is not right behind the boresight, the attitude turned by `acquire_target`'s
rotation is a unit quaternion and the boresight points at the target. Missing: the target exactly behind. -/
theorem C68_acquire_partial (position target boresight : V3) (attitude : V4) (hq : npNorm attitude = 1)
    (hb : npNorm boresight = 1) (hne : target ≠ position)
    (hback : sandwich attitude (pointingVector position target) ≠ -boresight) :
    npNorm (product attitude (acquireTarget position attitude boresight target)) = 1 ∧
    ∃ d : ℝ, 0 < d ∧ d = npNorm (target - position) ∧
      sandwich (product attitude (acquireTarget position attitude boresight target))
        (target - position) = d • boresight := by
  obtain ⟨h1, h2⟩ := align hb (toBody_direction hq hne) hback
  constructor
  · rw [C04_product_norm, hq, one_mul]
    exact h2
  · obtain ⟨-, d, hd, hdir, hdd⟩ := C02_pointing_vector position target hne
    refine ⟨d, hd, hdd, ?_⟩
    have e : target - position = d • pointingVector position target := by
      rw [sub_eq_iff_eq_add]; rw [add_comm]; exact hdir.symm
    rw [e, sandwich_smul, sandwich_product]
    congr 1

/-- The turn is the shortest one: the cosine of its angle is the dot product of boresight and direction. -/
theorem C68_shortest (position target boresight : V3) (attitude : V4) (hq : npNorm attitude = 1)
    (hb : npNorm boresight = 1) (hne : target ≠ position) :
    0 ≤ acquireTarget position attitude boresight target 0 ∧
    2 * acquireTarget position attitude boresight target 0 ^ 2 - 1 =
      boresight ⬝ᵥ sandwich attitude (pointingVector position target) := by
  have hd := toBody_direction hq hne
  set d := sandwich attitude (pointingVector position target) with hddef
  have hcs : |boresight ⬝ᵥ d| ≤ 1 := by
    have hb2 := npNorm_eq_one.1 hb
    have hd2 := npNorm_eq_one.1 hd
    simp only [Fin.sum_univ_three] at hb2 hd2
    rw [abs_le, Matrix.vec3_dotProduct]
    constructor <;> nlinarith [sq_nonneg (boresight 0 + d 0), sq_nonneg (boresight 1 + d 1),
      sq_nonneg (boresight 2 + d 2), sq_nonneg (boresight 0 - d 0), sq_nonneg (boresight 1 - d 1),
      sq_nonneg (boresight 2 - d 2)]
  have hc := abs_le.1 hcs
  have e : acquireTarget position attitude boresight target 0 = Real.cos (Real.arccos (boresight ⬝ᵥ d) / 2) := by
    simp only [acquireTarget, axisangleToQuat, rAxisAngle, ← hddef, npDot_eq_dotProduct, npClip,
      max_eq_left hc.1, min_eq_left hc.2, Matrix.cons_val_zero]
  rw [e]
  constructor
  · apply Real.cos_nonneg_of_mem_Icc
    have h1 := Real.arccos_nonneg (boresight ⬝ᵥ d)
    have h2 := Real.arccos_le_pi (boresight ⬝ᵥ d)
    constructor <;> linarith [Real.pi_pos]
  · rw [Real.cos_sq, mul_div_cancel₀ _ (by norm_num : (2 : ℝ) ≠ 0), Real.cos_arccos hc.1 hc.2]; ring

example : sandwich ![1, 0, 0, 0] (pointingVector 0 ![0, 0, 7]) ≠ -![1, 0, 0] := by
  rw [sandwich_one]
  intro h
  have := congrFun h 0
  simp [pointingVector, normalizeV] at this
  split_ifs at this <;> simp at this

/-! ## C97: the rate of the line of sight -/

/-- The angular velocity, in inertial coordinates, of a direction `u` with derivative `u'` that does not
turn about itself. -/
def directionRate (u u' : V3) : V3 := u ⨯₃ u'

/-- The rate computed by `point_and_stare`, before it is rotated, is the angular velocity of the line of
sight to a fixed target. -/
theorem C97_line_of_sight (target : V3) (p : ℝ → V3) (v : V3) (t : ℝ) (hp : HasDerivAt p v t)
    (hne : target ≠ p t) :
    ∃ u', HasDerivAt (fun τ => pointingVector (p τ) target) u' t ∧
    npVDiv (npCross (p t - target) v) (npDot (p t - target) (p t - target)) =
      .ok (directionRate (pointingVector (p t) target) u') := by
  set h := fun τ => target - p τ with hh
  have hh0 : h t ≠ 0 := sub_ne_zero.2 hne
  have hd : HasDerivAt h (-v) t := by simpa [hh] using hp.const_sub target
  have hc := hasDerivAt_pi.1 hd
  have hpos := npNorm_pos hh0
  have hsum : 0 < h t 0 ^ 2 + h t 1 ^ 2 + h t 2 ^ 2 := by
    have := npNorm3_sq (h t); nlinarith
  have hN : HasDerivAt (fun τ => npNorm (h τ))
      ((h t 0 * -v 0 + h t 1 * -v 1 + h t 2 * -v 2) / npNorm (h t)) t := by
    have h1 := (((hc 0).fun_pow 2).fun_add ((hc 1).fun_pow 2)).fun_add ((hc 2).fun_pow 2)
    have h2 := h1.sqrt hsum.ne'
    have e : (fun τ => npNorm (h τ)) = fun τ => Real.sqrt (h τ 0 ^ 2 + h τ 1 ^ 2 + h τ 2 ^ 2) := by
      funext τ; rw [npNorm, Fin.sum_univ_three]
    rw [e]
    refine h2.congr_deriv ?_
    rw [npNorm, Fin.sum_univ_three]
    have := (Real.sqrt_pos.2 hsum).ne'
    simp only [Nat.reduceSub, pow_one, Nat.cast_ofNat, Pi.neg_apply]
    field_simp
  have hcont : ∀ᶠ τ in nhds t, h τ ≠ 0 := by
    exact hd.continuousAt.eventually_ne hh0
  set u' : V3 := fun i => (-v i * npNorm (h t) - h t i *
    ((h t 0 * -v 0 + h t 1 * -v 1 + h t 2 * -v 2) / npNorm (h t))) / npNorm (h t) ^ 2 with hu'
  have hu : HasDerivAt (fun τ => pointingVector (p τ) target) u' t := by
    have h1 : HasDerivAt (fun τ i => h τ i / npNorm (h τ)) u' t := by
      rw [hasDerivAt_pi]
      intro i
      exact (hc i).fun_div hN hpos.ne'
    refine h1.congr_of_eventuallyEq ?_
    filter_upwards [hcont] with τ hτ
    change normalizeV (h τ) = _
    unfold normalizeV
    rw [if_neg (npNorm_pos hτ).ne']
  refine ⟨u', hu, ?_⟩
  have e1 : p t - target = -h t := by simp [hh]
  have hn2 : npDot (p t - target) (p t - target) = npNorm (h t) ^ 2 := by
    rw [npNorm_sq_dot, e1, npDot3, npDot3]; simp
  unfold npVDiv
  rw [hn2, if_neg (pow_ne_zero 2 hpos.ne')]
  simp only [Except.ok.injEq]
  have e2 : pointingVector (p t) target = fun i => h t i / npNorm (h t) := by
    change normalizeV (h t) = _
    unfold normalizeV
    rw [if_neg hpos.ne']
  rw [e2, directionRate, ← npCross_eq_crossProduct, e1, hu']
  have hN0 := hpos.ne'
  generalize npNorm (h t) = N at *
  apply vec3_ext <;> simp only [npCross_0, npCross_1, npCross_2, Pi.neg_apply] <;> field_simp <;> ring

/-- The claim: the rate error used by the tracking law in `point_and_stare` is the body rate minus the
line of sight rate in body coordinates. (The law rotates the reference with the attitude error.) -/
def StareUsesLineOfSightRate : Prop :=
  ∀ (position velocity data1 data2 : V3) (attitude : V4) (wRef : V3) (qCmd : V4) (w : V3),
    npNorm attitude = 1 → npNorm data1 = 1 → position ≠ data2 →
    npVDiv (npCross (position - data2) velocity) (npDot (position - data2) (position - data2)) = .ok w →
    pointReference position velocity attitude data1 data2 = .ok (wRef, qCmd) →
    sandwich (errorQuat attitude qCmd) wRef = sandwich attitude w

theorem pointReference_ok {position velocity data1 data2 : V3} {attitude : V4} {w : V3}
    (h : npVDiv (npCross (position - data2) velocity) (npDot (position - data2) (position - data2)) = .ok w) :
    pointReference position velocity attitude data1 data2 = .ok (sandwich attitude w,
      product attitude (acquireTarget position attitude data1 data2)) := by
  unfold pointReference
  simp only [h]

/-- It is false: a camera along the first axis, a target along the second. -/
theorem C97_rate_fails : ¬ StareUsesLineOfSightRate := by
  intro H
  have hw : npVDiv (npCross ((0 : V3) - ![0, 1, 0]) ![1, 0, 1]) (npDot ((0 : V3) - ![0, 1, 0]) ((0 : V3) - ![0, 1, 0])) =
      .ok ![-1, 0, 1] := by
    unfold npVDiv
    rw [if_neg (by simp [npDot3])]
    congr 1
    apply vec3_ext <;> simp [npCross, npDot3]
  have h := H 0 ![1, 0, 1] ![1, 0, 0] ![0, 1, 0] ![1, 0, 0, 0] _ _ _ (npNorm_vec4 (by norm_num))
    (npNorm_vec3 (by norm_num)) (by intro h; have := congrFun h 1; norm_num at this) hw (pointReference_ok hw)
  have hd : pointingVector 0 ![0, 1, 0] = ![0, 1, 0] := by
    rw [pointingVector, sub_zero]
    exact normalize_of_unit (npNorm_vec3 (by norm_num))
  have hq : acquireTarget 0 ![1, 0, 0, 0] ![1, 0, 0] ![0, 1, 0] =
      ![Real.cos (Real.pi / 4), 0, 0, Real.sin (Real.pi / 4)] := by
    simp only [acquireTarget, hd, sandwich_one, rAxisAngle, npDot3, npClip]
    have hc : npCross ![1, 0, 0] ![0, 1, 0] = ![0, 0, 1] := by
      apply vec3_ext <;> simp [npCross]
    rw [hc, normalize_of_unit (npNorm_vec3 (by norm_num))]
    simp only [Matrix.cons_val_zero, Matrix.cons_val_one, cons3_2]
    norm_num [axisangleToQuat, Real.arccos_zero]
    rw [show Real.pi / 2 / 2 = Real.pi / 4 by ring, Real.cos_pi_div_four, Real.sin_pi_div_four]
    exact ⟨rfl, rfl⟩
  rw [hq, one_product, sandwich_one] at h
  have h0 := congrFun h 1
  have hs : Real.sqrt 2 ^ 2 = 2 := Real.sq_sqrt (by norm_num)
  rw [sandwich_1] at h0
  simp only [errorQuat, product_0, product_1, product_2, product_3, conjugate_0, conjugate_1, conjugate_2,
    conjugate_3, Matrix.cons_val_zero, Matrix.cons_val_one, cons4_2, cons4_3, cons3_2,
    Real.cos_pi_div_four, Real.sin_pi_div_four] at h0
  nlinarith

/-- What holds: it is right once the boresight is on the target (no attitude error), and whenever the
attitude error leaves the rate unchanged. Missing: all other attitudes. -/
theorem C97_rate_partial (position velocity data1 data2 : V3) (attitude : V4) (wRef : V3) (qCmd : V4) (w : V3)
    (hw : npVDiv (npCross (position - data2) velocity) (npDot (position - data2) (position - data2)) = .ok w)
    (h : pointReference position velocity attitude data1 data2 = .ok (wRef, qCmd)) :
    wRef = sandwich attitude w ∧
    (npNorm attitude = 1 → sandwich attitude (pointingVector position data2) = data1 → npNorm data1 = 1 →
      qCmd = attitude ∧ sandwich (errorQuat attitude qCmd) wRef = sandwich attitude w) := by
  rw [pointReference_ok hw, Except.ok.injEq, Prod.mk.injEq] at h
  obtain ⟨rfl, rfl⟩ := h
  refine ⟨rfl, fun hq hb hd => ?_⟩
  have hacq : acquireTarget position attitude data1 data2 = ![1, 0, 0, 0] := by
    simp only [acquireTarget, hb, rAxisAngle]
    have hd2 := npNorm_eq_one.1 hd
    simp only [Fin.sum_univ_three] at hd2
    have h1 : npDot data1 data1 = 1 := by rw [npDot3]; linarith
    have h2 : npCross data1 data1 = 0 := by
      rw [npCross_eq_crossProduct, cross_self]
    rw [h1, h2, normalize_zero]
    simp [npClip, axisangleToQuat]
  rw [hacq, product_one]
  refine ⟨rfl, ?_⟩
  have : errorQuat attitude attitude = ![1, 0, 0, 0] := conj_product_self ((isUnit4_iff _).2 hq)
  rw [this, sandwich_one]

example : ∃ wRef qCmd, pointReference 0 ![1, 0, 0] ![1, 0, 0, 0] ![0, 0, 1] ![0, 0, 1] = .ok (wRef, qCmd) ∧
    sandwich ![1, 0, 0, 0] (pointingVector 0 ![0, 0, 1]) = ![0, 0, 1] := by
  refine ⟨_, _, pointReference_ok (w := ![0, -1, 0]) ?_, ?_⟩
  · unfold npVDiv
    rw [if_neg (by simp [npDot3])]
    congr 1
    apply vec3_ext <;> simp [npCross, npDot3]
  · rw [sandwich_one, pointingVector, sub_zero]
    exact normalize_of_unit (npNorm_vec3 (by norm_num))

end Adcs
