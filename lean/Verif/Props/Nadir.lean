import Verif.Proofs.SimQuat

set_option autoImplicit false

/-! # C117: the nadir-pointing quaternion of the simulation -/

namespace Adcs

open Sim

/-- The quaternion built from a unit axis and the half angle `θ`. -/
theorem turn_axis {u : V3} (hu : npNorm u = 1) (θ : ℝ) (v : V3) :
    npNorm (![u 0 * Real.sin θ, u 1 * Real.sin θ, u 2 * Real.sin θ, Real.cos θ] : V4) = 1 ∧
    Spec.turn (Spec.toHLast ![u 0 * Real.sin θ, u 1 * Real.sin θ, u 2 * Real.sin θ, Real.cos θ]) v =
      Spec.rodrigues u (2 * θ) v := by
  have h1 := (isUnit3_iff u).2 hu
  unfold IsUnit3 at h1
  have hs := Real.sin_sq_add_cos_sq θ
  constructor
  · apply npNorm_vec4
    linear_combination hs + Real.sin θ ^ 2 * h1
  have hd : u ⬝ᵥ v = u 0 * v 0 + u 1 * v 1 + u 2 * v 2 := Matrix.vec3_dotProduct _ _
  apply vec3_ext
  · rw [turn_0]
    simp only [Spec.rodrigues, Real.cos_two_mul, Real.sin_two_mul, hd, Pi.add_apply, Pi.smul_apply,
      ← npCross_eq_crossProduct, npCross_0, smul_eq_mul, Matrix.cons_val_zero,
      Matrix.cons_val_one, cons4_2, cons4_3]
    grind
  · rw [turn_1]
    simp only [Spec.rodrigues, Real.cos_two_mul, Real.sin_two_mul, hd, Pi.add_apply, Pi.smul_apply,
      ← npCross_eq_crossProduct, npCross_1, smul_eq_mul, Matrix.cons_val_zero,
      Matrix.cons_val_one, cons4_2, cons4_3]
    grind
  · rw [turn_2]
    simp only [Spec.rodrigues, Real.cos_two_mul, Real.sin_two_mul, hd, Pi.add_apply, Pi.smul_apply,
      ← npCross_eq_crossProduct, npCross_2, smul_eq_mul, Matrix.cons_val_zero,
      Matrix.cons_val_one, cons4_2, cons4_3]
    grind

theorem cross_norm_sq (a b : V3) :
    npNorm (npCross a b) ^ 2 = npNorm a ^ 2 * npNorm b ^ 2 - npDot a b ^ 2 := by
  rw [npNorm3_sq, npNorm3_sq, npNorm3_sq, npDot3, npCross_0, npCross_1, npCross_2]; ring

/-- Unit vectors with a small cross product are close to each other or to each other's negative. -/
theorem near_of_cross {b r : V3} (hb : npNorm b = 1) (hr : npNorm r = 1) {ε : ℝ}
    (hc : npNorm (npCross b r) < ε) (hd : 0 ≤ npDot b r) : npNorm (b - r) ≤ 2 * ε := by
  have h1 := cross_norm_sq b r
  rw [hb, hr] at h1
  have hn := npNorm_nonneg (npCross b r)
  have hb2 := npNorm3_sq b
  have hr2 := npNorm3_sq r
  rw [hb] at hb2
  rw [hr] at hr2
  have e : npNorm (b - r) ^ 2 = 2 - 2 * npDot b r := by
    rw [npNorm3_sq, npDot3]; simp only [Pi.sub_apply]; linarith
  have hd1 : npDot b r ≤ 1 := by nlinarith
  have : npNorm (b - r) ^ 2 ≤ (2 * ε) ^ 2 := by rw [e]; nlinarith
  exact (pow_le_pow_iff_left₀ (npNorm_nonneg _) (by linarith) two_ne_zero).1 this

/-- C117: for every position and body axis other than zero, the quaternion is of unit norm and turns the
body axis to the direction of the centre of the Earth, to within 2e-8. -/
theorem C117_nadir {r b : V3} (hr : r ≠ 0) (hb : b ≠ 0) :
    ∃ q, nadirQuaternion r b = .ok q ∧ npNorm q = 1 ∧
      npNorm (Spec.turn (Spec.toHLast q) ((npNorm b)⁻¹ • b) - (-((npNorm r)⁻¹ • r))) ≤ 2e-8 ∧
      (1e-8 ≤ npNorm (npCross ((npNorm b)⁻¹ • b) (-((npNorm r)⁻¹ • r))) →
        Spec.turn (Spec.toHLast q) ((npNorm b)⁻¹ • b) = -((npNorm r)⁻¹ • r)) := by
  have hR : npVDiv (-r) (npNorm r) = .ok (-((npNorm r)⁻¹ • r)) := by
    rw [npVDiv, if_neg (npNorm_pos hr).ne']
    congr 1; funext i; simp [div_eq_inv_mul]
  have hRn : npNorm (-((npNorm r)⁻¹ • r)) = 1 := by
    rw [show -((npNorm r)⁻¹ • r) = (-1 : ℝ) • ((npNorm r)⁻¹ • r) by simp, npNorm_smul,
      npNorm_inv_smul hr]; norm_num
  have hBn := npNorm_inv_smul hb
  simp only [nadirQuaternion, hR, npVDiv_norm hb]
  generalize -((npNorm r)⁻¹ • r) = R at *
  generalize (npNorm b)⁻¹ • b = B at *
  have hc := cross_norm_sq B R
  rw [hBn, hRn] at hc
  have hb2 := npNorm3_sq B
  rw [hBn] at hb2
  have hr2 := npNorm3_sq R
  rw [hRn] at hr2
  by_cases hsmall : npNorm (npCross B R) < 1e-8
  · rw [if_pos hsmall]
    by_cases hd : 0 < npDot B R
    · rw [if_pos hd]
      have hid : Spec.turn (Spec.toHLast ![0, 0, 0, 1]) B = B := by
        apply vec3_ext
        · rw [turn_0]; simp
        · rw [turn_1]; simp
        · rw [turn_2]; simp
      refine ⟨_, rfl, npNorm_vec4 (by norm_num), ?_, fun h => absurd hsmall (not_lt.2 h)⟩
      rw [hid]
      calc npNorm (B - R) ≤ 2 * 1e-8 := near_of_cross hBn hRn hsmall hd.le
        _ = 2e-8 := by norm_num
    · rw [if_neg hd]
      set axis : V3 := if |B 0| < 0.9 then ![1, 0, 0] else ![0, 1, 0] with haxis
      have hp : npCross B axis ≠ 0 := by
        intro h
        have h0 := congrFun h 0
        have h1 := congrFun h 1
        have h2 := congrFun h 2
        rw [haxis] at h0 h1 h2
        split at h0
        · rename_i hlt
          rw [if_pos hlt] at h1 h2
          simp [npCross] at h1 h2
          rw [h1, h2] at hb2
          have := abs_lt.1 hlt
          nlinarith
        · rename_i hge
          rw [if_neg hge] at h1 h2
          simp [npCross] at h2
          rw [h2] at hge
          norm_num at hge
      rw [npVDiv_norm hp]
      have hu := npNorm_inv_smul hp
      have hperp : npDot ((npNorm (npCross B axis))⁻¹ • npCross B axis) B = 0 := by
        rw [npDot3]; simp [npCross]; ring
      generalize (npNorm (npCross B axis))⁻¹ • npCross B axis = u at *
      obtain ⟨ht1, ht2⟩ := turn_axis hu (Real.pi / 2) B
      have hflip : Spec.rodrigues u (2 * (Real.pi / 2)) B = -B := by
        rw [show 2 * (Real.pi / 2) = Real.pi by ring, Spec.rodrigues, ← npDot_eq_dotProduct, hperp]
        simp
      refine ⟨_, rfl, ht1, ?_, fun h => absurd hsmall (not_lt.2 h)⟩
      rw [ht2, hflip]
      have hnB : npNorm (-B) = 1 := by
        rw [show -B = (-1 : ℝ) • B by simp, npNorm_smul, hBn]; norm_num
      have hcr : npNorm (npCross (-B) R) = npNorm (npCross B R) := by
        have : npCross (-B) R = (-1 : ℝ) • npCross B R := by
          apply vec3_ext <;> simp [npCross] <;> ring
        rw [this, npNorm_smul]; norm_num
      have hdn : 0 ≤ npDot (-B) R := by
        have : npDot (-B) R = -npDot B R := by rw [npDot3, npDot3]; simp; ring
        rw [this]; push Not at hd; linarith
      calc npNorm (-B - R) ≤ 2 * 1e-8 := near_of_cross hnB hRn (by rw [hcr]; exact hsmall) hdn
        _ = 2e-8 := by norm_num
  · rw [if_neg hsmall]
    have hpos : 0 < npNorm (npCross B R) := lt_of_lt_of_le (by norm_num) (not_lt.1 hsmall)
    have hx : npCross B R ≠ 0 := fun h => hpos.ne' (npNorm_eq_zero.2 h)
    rw [npVDiv_norm hx]
    have hu := npNorm_inv_smul hx
    have hd2 : npDot B R ^ 2 ≤ 1 := by nlinarith
    obtain ⟨hd3, hd4⟩ := abs_le.1 ((sq_le_one_iff_abs_le_one _).1 hd2)
    have hclip : npClip (npDot B R) (-1) 1 = npDot B R := by
      rw [npClip, max_eq_left hd3, min_eq_left hd4]
    simp only [hclip]
    obtain ⟨ht1, ht2⟩ := turn_axis hu (Real.arccos (npDot B R) / 2) B
    have hturn : Spec.rodrigues ((npNorm (npCross B R))⁻¹ • npCross B R)
        (2 * (Real.arccos (npDot B R) / 2)) B = R := by
      have hsin : Real.sin (Real.arccos (npDot B R)) = npNorm (npCross B R) := by
        rw [Real.sin_arccos, show 1 - npDot B R ^ 2 = npNorm (npCross B R) ^ 2 by rw [hc]; ring,
          Real.sqrt_sq hpos.le]
      rw [show 2 * (Real.arccos (npDot B R) / 2) = Real.arccos (npDot B R) by ring, Spec.rodrigues, hsin,
        Real.cos_arccos hd3 hd4]
      have hz : ((npNorm (npCross B R))⁻¹ • npCross B R) ⬝ᵥ B = 0 := by
        rw [← npDot_eq_dotProduct, npDot3]; simp [npCross]; ring
      rw [hz, LinearMap.map_smul₂, smul_smul, mul_inv_cancel₀ hpos.ne', one_smul, mul_zero, zero_smul,
        add_zero, ← npCross_eq_crossProduct]
      apply vec3_ext <;> simp [npCross, npDot3] <;> grind
    refine ⟨_, rfl, ht1, ?_, fun _ => by rw [ht2, hturn]⟩
    rw [ht2, hturn, sub_self, npNorm_eq_zero.2 rfl]
    norm_num

/-- A position in a low orbit and the body's z axis. -/
example : (![7e6, 0, 1e5] : V3) ≠ 0 ∧ (![0, 0, 1] : V3) ≠ 0 :=
  ⟨fun h => by have := congrFun h 0; norm_num at this, fun h => by simpa using congrFun h 2⟩

end Adcs
