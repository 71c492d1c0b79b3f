import Verif.Props.Staring

set_option autoImplicit false

/-! # C218: what errors of position and velocity do to the references of `point_and_stare` -/

namespace Adcs

open Str Ctl Sens JDay Quat Vec Dyn
open scoped Matrix

/-- Unit vectors differ by at most twice the difference over the sum of the lengths. -/
theorem unit_diff {x y : V3} (hx : x ≠ 0) (hy : y ≠ 0) :
    npNorm ((1 / npNorm x) • x - (1 / npNorm y) • y) ≤ 2 * npNorm (x - y) / (npNorm x + npNorm y) := by
  have h1 := npNorm_pos hx
  have h2 := npNorm_pos hy
  have hd := dot_le_norms x y
  have e1 := dot_self3 x
  have e2 := dot_self3 y
  obtain ⟨a, ha⟩ : ∃ a, a = npNorm x := ⟨_, rfl⟩
  obtain ⟨b, hb⟩ : ∃ b, b = npNorm y := ⟨_, rfl⟩
  obtain ⟨c, hc⟩ : ∃ c, c = x ⬝ᵥ y := ⟨_, rfl⟩
  rw [← ha] at h1 e1
  rw [← hb] at h2 e2
  rw [← ha, ← hb, ← hc, abs_le] at hd
  have hcy : y ⬝ᵥ x = c := by rw [dotProduct_comm, hc]
  have n1 : npNorm ((1 / a) • x - (1 / b) • y) ^ 2 = 2 - 2 * c / (a * b) := by
    rw [← dot_self3]
    simp only [sub_dotProduct, dotProduct_sub, smul_dotProduct, dotProduct_smul, smul_eq_mul, e1, e2, hcy, ← hc]
    field_simp; ring
  have n2 : npNorm (x - y) ^ 2 = a ^ 2 + b ^ 2 - 2 * c := by
    rw [← dot_self3]
    simp only [sub_dotProduct, dotProduct_sub, e1, e2, hcy, ← hc]
    ring
  rw [← ha, ← hb]
  have hs : 0 < a + b := by linarith
  refine abs_le_of_sq_le_sq' ?_ (by have := npNorm_nonneg (x - y); positivity) |>.2
  rw [n1, div_pow, mul_pow, n2, le_div_iff₀ (by positivity)]
  have hab : 0 < a * b := mul_pos h1 h2
  have key : (2 - 2 * c / (a * b)) * (a + b) ^ 2 * (a * b) = 2 * (a * b - c) * (a + b) ^ 2 := by
    field_simp
  have : (2 - 2 * c / (a * b)) * (a + b) ^ 2 * (a * b) ≤ 2 ^ 2 * (a ^ 2 + b ^ 2 - 2 * c) * (a * b) := by
    rw [key]
    nlinarith [mul_nonneg (sq_nonneg (a - b)) (by linarith [hd.1] : 0 ≤ a * b + c)]
  exact le_of_mul_le_mul_right this hab

/-- Inversion at the unit sphere. -/
theorem inversion_diff {x y : V3} (hx : x ≠ 0) (hy : y ≠ 0) :
    npNorm ((1 / npNorm x ^ 2) • x - (1 / npNorm y ^ 2) • y) = npNorm (x - y) / (npNorm x * npNorm y) := by
  have h1 := npNorm_pos hx
  have h2 := npNorm_pos hy
  have e1 := dot_self3 x
  have e2 := dot_self3 y
  obtain ⟨a, ha⟩ : ∃ a, a = npNorm x := ⟨_, rfl⟩
  obtain ⟨b, hb⟩ : ∃ b, b = npNorm y := ⟨_, rfl⟩
  obtain ⟨c, hc⟩ : ∃ c, c = x ⬝ᵥ y := ⟨_, rfl⟩
  rw [← ha] at h1 e1
  rw [← hb] at h2 e2
  have hcy : y ⬝ᵥ x = c := by rw [dotProduct_comm, hc]
  rw [← ha, ← hb]
  have n1 : npNorm ((1 / a ^ 2) • x - (1 / b ^ 2) • y) ^ 2 = (npNorm (x - y) / (a * b)) ^ 2 := by
    rw [div_pow, ← dot_self3, ← dot_self3]
    simp only [sub_dotProduct, dotProduct_sub, smul_dotProduct, dotProduct_smul, smul_eq_mul, e1, e2, hcy, ← hc]
    field_simp; ring
  exact (pow_left_inj₀ (npNorm_nonneg _) (div_nonneg (npNorm_nonneg _) (mul_pos h1 h2).le) two_ne_zero).1 n1

/-- The attitude that `point_and_stare` asks `tracking` for when it is given the position `p'`, and where the boresight is
in it, in inertial coordinates. -/
theorem aim_exact {p' target bore : V3} {att : V4} (hq : npNorm att = 1) (hb : npNorm bore = 1) (hne : target ≠ p')
    (hback : sandwich att (pointingVector p' target) ≠ -bore) :
    npNorm (product att (acquireTarget p' att bore target)) = 1 ∧
    sandwichOpp (product att (acquireTarget p' att bore target)) bore =
      (1 / npNorm (target - p')) • (target - p') := by
  obtain ⟨h1, d, hd, hdd, h2⟩ := C68_acquire_partial p' target bore att hq hb hne hback
  refine ⟨h1, ?_⟩
  have h3 := congrArg (fun v => sandwichOpp (product att (acquireTarget p' att bore target)) v) h2
  simp only [sandwichOpp_sandwich ((isUnit4_iff _).2 h1)] at h3
  rw [← hdd, h3]
  simp only [sandwichOpp]
  rw [sandwich_smul, smul_smul, one_div, inv_mul_cancel₀ hd.ne', one_smul]

/-- **C218** (direction). In the attitude that is commanded from a position that is off, the boresight is off the target by
at most twice the error of the position over the sum of the distances, whatever the attitude is. -/
theorem C218_aim (p p' v' target bore : V3) (att : V4) (hq : npNorm att = 1) (hb : npNorm bore = 1) (hne : target ≠ p)
    (hne' : target ≠ p') (hback : sandwich att (pointingVector p' target) ≠ -bore) :
    ∃ wRef qCmd, pointReference p' v' att bore target = .ok (wRef, qCmd) ∧ npNorm qCmd = 1 ∧
      npNorm (sandwichOpp qCmd bore - (1 / npNorm (target - p)) • (target - p)) ≤
        2 * npNorm (p' - p) / (npNorm (target - p) + npNorm (target - p')) := by
  obtain ⟨h1, h2⟩ := aim_exact hq hb hne' hback
  refine ⟨_, _, pointReference_ok (sightRate_npVDiv v' hne'), h1, ?_⟩
  rw [h2]
  refine (unit_diff (sub_ne_zero.2 hne') (sub_ne_zero.2 hne)).trans (le_of_eq ?_)
  rw [show target - p' - (target - p) = -(p' - p) by abel, npNorm_neg3, add_comm (npNorm (target - p'))]

/-- **C218** (nothing better holds). At equal distances the boresight is off by exactly the error of the position over the
distance. -/
theorem C218_sharp (p p' v' target bore : V3) (att : V4) (hq : npNorm att = 1) (hb : npNorm bore = 1) (hne : target ≠ p)
    (heq : npNorm (target - p') = npNorm (target - p)) (hback : sandwich att (pointingVector p' target) ≠ -bore) :
    ∃ wRef qCmd, pointReference p' v' att bore target = .ok (wRef, qCmd) ∧
      npNorm (sandwichOpp qCmd bore - (1 / npNorm (target - p)) • (target - p)) =
        npNorm (p' - p) / npNorm (target - p) := by
  have h0 := npNorm_pos (sub_ne_zero.2 hne)
  have hne' : target ≠ p' := fun h => by
    rw [← heq, h, sub_self] at h0
    simp [npNorm] at h0
  obtain ⟨h1, h2⟩ := aim_exact hq hb hne' hback
  refine ⟨_, _, pointReference_ok (sightRate_npVDiv v' hne'), ?_⟩
  rw [h2, heq, ← smul_sub, npNorm_smul, show target - p' - (target - p) = -(p' - p) by abel, npNorm_neg3,
    abs_of_pos (by positivity)]
  ring

/-- **C218** (rate). The rate that is commanded differs from that of the true line of sight by at most the error of the
velocity over the distance plus the speed times the error of the position over the product of the distances. -/
theorem C218_rate (p v p' v' target bore : V3) (att : V4) (hq : npNorm att = 1) (hne : target ≠ p) (hne' : target ≠ p') :
    ∃ wRef qCmd, pointReference p' v' att bore target = .ok (wRef, qCmd) ∧
      npNorm (sandwichOpp att wRef - Spec.sightRate target p v) ≤
        npNorm (v' - v) / npNorm (target - p') +
          npNorm v * npNorm (p' - p) / (npNorm (target - p) * npNorm (target - p')) := by
  refine ⟨_, _, pointReference_ok (sightRate_npVDiv v' hne'), ?_⟩
  rw [sandwichOpp_sandwich ((isUnit4_iff _).2 hq)]
  have hd := npNorm_pos (sub_ne_zero.2 hne)
  have hd' := npNorm_pos (sub_ne_zero.2 hne')
  have hs : ∀ x : V3, npNorm (x - target) = npNorm (target - x) := fun x => by rw [← npNorm_neg3, neg_sub]
  have e : Spec.sightRate target p' v' - Spec.sightRate target p v =
      ((1 / npNorm (target - p') ^ 2) • (p' - target)) ⨯₃ (v' - v) +
        ((1 / npNorm (target - p') ^ 2) • (p' - target) - (1 / npNorm (target - p) ^ 2) • (p - target)) ⨯₃ v := by
    unfold Spec.sightRate
    simp only [LinearMap.map_sub, LinearMap.map_smul, LinearMap.sub_apply, LinearMap.smul_apply]
    module
  rw [e]
  refine (npNorm_add3 _ _).trans (add_le_add ?_ ?_)
  · rw [← npCross_eq_crossProduct]
    refine (cross_norm_le _ _).trans (le_of_eq ?_)
    rw [npNorm_smul, abs_of_pos (by positivity), hs]
    field_simp
  · rw [← npCross_eq_crossProduct]
    refine (cross_norm_le _ _).trans (le_of_eq ?_)
    have := inversion_diff (sub_ne_zero.2 hne'.symm) (sub_ne_zero.2 hne.symm)
    rw [hs, hs, sub_sub_sub_cancel_right] at this
    rw [this]
    field_simp

/-- A GPS that is off by 30 m and 2 m/s, a target 500 km below: the boresight is off by no more than 0.06 mrad. -/
example : ∃ wRef qCmd, pointReference ![6.9e6, 30, 0] ![0, 7602, 0] ![1, 0, 0, 0] ![0, 0, 1] ![6.4e6, 0, 0] = .ok (wRef, qCmd) ∧
    npNorm (sandwichOpp qCmd ![0, 0, 1] - (1 / npNorm (![6.4e6, 0, 0] - ![6.9e6, 0, 0] : V3)) • (![6.4e6, 0, 0] - ![6.9e6, 0, 0]))
      ≤ 6e-5 := by
  have n1 : npNorm (![6.4e6, 0, 0] - ![6.9e6, 0, 0] : V3) = 5e5 := by
    unfold npNorm
    rw [Real.sqrt_eq_iff_mul_self_eq_of_pos (by norm_num)]
    norm_num [Fin.sum_univ_three]
  have n2 : 5e5 ≤ npNorm (![6.4e6, 0, 0] - ![6.9e6, 30, 0] : V3) := by
    unfold npNorm
    apply Real.le_sqrt_of_sq_le
    norm_num [Fin.sum_univ_three]
  have n3 : npNorm (![6.9e6, 30, 0] - ![6.9e6, 0, 0] : V3) = 30 := by
    unfold npNorm
    rw [Real.sqrt_eq_iff_mul_self_eq_of_pos (by norm_num)]
    norm_num [Fin.sum_univ_three]
  obtain ⟨wRef, qCmd, h1, -, h2⟩ := C218_aim ![6.9e6, 0, 0] ![6.9e6, 30, 0] ![0, 7602, 0] ![6.4e6, 0, 0] ![0, 0, 1] ![1, 0, 0, 0]
    (npNorm_vec4 (by norm_num)) (npNorm_vec3 (by norm_num)) (by intro h; have := congrFun h 0; norm_num at this)
    (by intro h; have := congrFun h 0; norm_num at this) (by
      rw [sandwich_one, pointingVector_eq]
      intro h
      have h2 : (1 / npNorm (![6.4e6, 0, 0] - ![6.9e6, 30, 0] : V3)) * (0 - 0) = -1 := congrFun h 2
      rw [sub_zero, mul_zero] at h2
      norm_num at h2)
  refine ⟨wRef, qCmd, h1, h2.trans ?_⟩
  rw [n1, n3, div_le_iff₀ (by linarith)]
  linarith

end Adcs
