import Verif.Proofs.OlsonNewton
import Mathlib.Analysis.Real.Pi.Bounds

set_option autoImplicit false

/-! # C136, C18: `ecef_to_lla` inverts the WGS-84 ellipsoid -/

namespace Adcs

open Vec Fr

namespace Spec

/-- Square of the eccentricity of the WGS-84 ellipsoid, from its inverse flattening. -/
noncomputable def wgsEcc2 : ℝ := 2 * (1 / 298.257223563) - (1 / 298.257223563) ^ 2

/-- Length of the normal from the surface of the WGS-84 ellipsoid to its axis, at geodetic latitude `φ`. -/
noncomputable def wgsNormal (φ : ℝ) : ℝ := 6378137 / Real.sqrt (1 - wgsEcc2 * Real.sin φ ^ 2)

/-- Position at geodetic latitude `φ` and longitude `lam` (radians) and height `h` (metres). -/
noncomputable def wgs84 (φ lam h : ℝ) : V3 :=
  ![(wgsNormal φ + h) * Real.cos φ * Real.cos lam, (wgsNormal φ + h) * Real.cos φ * Real.sin lam,
    ((1 - wgsEcc2) * wgsNormal φ + h) * Real.sin φ]

/-- On or outside the ellipsoid. -/
def OutsideWgs (x : V3) : Prop :=
  1 ≤ (x 0 ^ 2 + x 1 ^ 2) / 6378137 ^ 2 + x 2 ^ 2 / (6378137 ^ 2 * (1 - wgsEcc2))

end Spec

theorem wgsEcc2_eq : Spec.wgsEcc2 = wgsE2 := by unfold Spec.wgsEcc2 wgsE2 wgsF; norm_num
theorem wgsNormal_eq (φ : ℝ) : Spec.wgsNormal φ = Olson.N φ := by
  unfold Spec.wgsNormal Olson.N wgsA; rw [wgsEcc2_eq]

/-- C136: the position at any geodetic latitude, longitude and height from 10 km below the surface of the
WGS-84 ellipsoid upwards is converted back to that latitude within 5e-11 degrees, to that longitude (except at
the poles, where there is none), and to that height within a tenth of a nanometre (and 1e-20 of the height). -/
theorem C136_inverse {φ lam h : ℝ} (hφ0 : -(Real.pi / 2) ≤ φ) (hφ1 : φ ≤ Real.pi / 2) (hl0 : -Real.pi < lam)
    (hl1 : lam ≤ Real.pi) (hh : -10000 ≤ h) :
    ∃ lat long ht, ecefToLla (Spec.wgs84 φ lam h) = .ok (lat, long, ht) ∧
      |lat - npDegrees φ| ≤ 5e-11 ∧ (|φ| < Real.pi / 2 → long = npDegrees lam) ∧
      |ht - h| ≤ 1e-10 + 1e-20 * |h| := by
  have hpi := Real.pi_pos
  have hC0 : 0 ≤ Real.cos φ := Real.cos_nonneg_of_neg_pi_div_two_le_of_le hφ0 hφ1
  have hn := (Olson.N_bounds φ).1
  have hρ : 0 < Olson.N φ + h := by linarith
  have hw : Real.sqrt ((Olson.N φ + h) * Real.cos φ * Real.cos lam * ((Olson.N φ + h) * Real.cos φ * Real.cos lam) +
      (Olson.N φ + h) * Real.cos φ * Real.sin lam * ((Olson.N φ + h) * Real.cos φ * Real.sin lam)) =
      (Olson.N φ + h) * Real.cos φ := by
    rw [← Real.sqrt_sq (show 0 ≤ (Olson.N φ + h) * Real.cos φ by positivity)]
    congr 1
    rw [Real.sqrt_sq (show 0 ≤ (Olson.N φ + h) * Real.cos φ by positivity)]
    linear_combination ((Olson.N φ + h) * Real.cos φ) ^ 2 * Real.sin_sq_add_cos_sq lam
  have hlong : |φ| < Real.pi / 2 → npDegrees (npArctan2 ((Olson.N φ + h) * Real.cos φ * Real.sin lam)
      ((Olson.N φ + h) * Real.cos φ * Real.cos lam)) = npDegrees lam := fun hlt => by
    have hC : 0 < Real.cos φ := Real.cos_pos_of_mem_Ioo (abs_lt.1 hlt)
    rw [npArctan2_polar (by positivity) hl0 hl1]
  have hdeg : ∀ a b : ℝ, |a - b| ≤ 8e-13 → |npDegrees a - npDegrees b| ≤ 5e-11 := by
    intro a b hab
    have e : npDegrees a - npDegrees b = (a - b) * (180 / Real.pi) := by unfold npDegrees; ring
    have hp : |180 / Real.pi| ≤ 60 := by
      rw [abs_of_pos (by positivity), div_le_iff₀ hpi]; linarith [Real.pi_gt_three]
    rw [e]
    exact (Olson.ab_mul hab hp).trans (by norm_num)
  have e1 := wgsE2_lt
  have hz' : 0 < Olson.N φ * (1 - wgsE2) + h := by norm_num at e1; nlinarith
  unfold Spec.wgs84
  rw [wgsNormal_eq, wgsEcc2_eq, ecefToLla_core', hw, mul_comm (1 - wgsE2)]
  rcases le_or_gt 0 φ with hs | hs
  · obtain ⟨lat, ht, hc, h1, h2⟩ := Olson.core hs hφ1 hh
    have hS : 0 ≤ Real.sin φ := Real.sin_nonneg_of_nonneg_of_le_pi hs (by linarith)
    rw [hc]
    refine ⟨_, _, _, rfl, ?_, hlong, h2⟩
    rw [if_neg (not_lt.2 (mul_nonneg hz'.le hS))]
    exact hdeg _ _ h1
  · obtain ⟨lat, ht, hc, h1, h2⟩ := Olson.core (φ := -φ) (h := h) (by linarith) (by linarith) hh
    have hS : Real.sin φ < 0 := Real.sin_neg_of_neg_of_neg_pi_lt hs (by linarith)
    have eN : Olson.N (-φ) = Olson.N φ := by unfold Olson.N; simp
    rw [eN, Real.cos_neg, Real.sin_neg, mul_neg, llaCore_neg] at hc
    rw [hc]
    refine ⟨_, _, _, rfl, ?_, hlong, h2⟩
    rw [if_pos (mul_neg_of_pos_of_neg hz' hS)]
    refine hdeg _ _ ?_
    rw [← abs_neg]
    refine le_trans (le_of_eq ?_) h1
    congr 1; ring

/-- A satellite over Portland, and a point of the surface at the south pole. -/
example : (-(Real.pi / 2) ≤ (0.795 : ℝ) ∧ (0.795 : ℝ) ≤ Real.pi / 2) ∧ -Real.pi < (-2.14 : ℝ) ∧ (-2.14 : ℝ) ≤ Real.pi ∧
    (-10000 : ℝ) ≤ 5e5 := by
  have := Real.pi_gt_three
  refine ⟨⟨?_, ?_⟩, ?_, ?_, ?_⟩ <;> norm_num <;> linarith

/-- Every point of the quadrant on or outside the ellipse is at some latitude and height. -/
theorem exists_geodetic {w z : ℝ} (hw : 0 ≤ w) (hz : 0 ≤ z)
    (ho : 1 ≤ w ^ 2 / 6378137 ^ 2 + z ^ 2 / (6378137 ^ 2 * (1 - wgsE2))) :
    ∃ φ h, 0 ≤ φ ∧ φ ≤ Real.pi / 2 ∧ 0 ≤ h ∧ w = (Olson.N φ + h) * Real.cos φ ∧
      z = ((1 - wgsE2) * Olson.N φ + h) * Real.sin φ := by
  have hpi := Real.pi_pos
  have e0 := wgsE2_pos
  have e1 := wgsE2_lt
  norm_num at e1
  have hNc : Continuous Olson.N := continuous_iff_continuousAt.2 fun x => (Olson.hasDerivAt_N x).continuousAt
  obtain ⟨φ, ⟨h0, h1⟩, hF⟩ := intermediate_value_Icc' (show (0:ℝ) ≤ Real.pi / 2 by linarith)
    (f := fun φ => -w * Real.sin φ + z * Real.cos φ + wgsE2 * Olson.N φ * Real.sin φ * Real.cos φ)
    (Continuous.continuousOn (by fun_prop)) (show (0:ℝ) ∈ Set.Icc _ _ by simp [hw, hz])
  simp only at hF
  have hS0 : 0 ≤ Real.sin φ := Real.sin_nonneg_of_nonneg_of_le_pi h0 (by linarith)
  have hC0 : 0 ≤ Real.cos φ := Real.cos_nonneg_of_neg_pi_div_two_le_of_le (by linarith) h1
  have hSC := Real.sin_sq_add_cos_sq φ
  obtain ⟨n0, -⟩ := Olson.N_bounds φ
  have hg := Olson.g_pos φ
  have hN2 : Olson.N φ ^ 2 * (1 - wgsE2 * Real.sin φ ^ 2) = 6378137 ^ 2 := by
    unfold Olson.N wgsA; rw [div_pow, Real.sq_sqrt hg.le]; field_simp
  set S := Real.sin φ
  set C := Real.cos φ
  set n := Olson.N φ
  -- the height
  have ew : w = (n + (w * C + z * S - n * (1 - wgsE2 * S ^ 2))) * C := by
    linear_combination (-S) * hF + (-w) * hSC
  have ez : z = ((1 - wgsE2) * n + (w * C + z * S - n * (1 - wgsE2 * S ^ 2))) * S := by
    linear_combination C * hF + (-z - wgsE2 * n * S) * hSC
  set h := w * C + z * S - n * (1 - wgsE2 * S ^ 2) with hh
  refine ⟨φ, h, h0, h1, ?_, ew, ez⟩
  by_contra hneg
  push Not at hneg
  -- below the surface both coordinates are smaller than on it
  have hb : 0 < 1 - wgsE2 := by linarith
  have hsurf : n ^ 2 * C ^ 2 / 6378137 ^ 2 + ((1 - wgsE2) * n) ^ 2 * S ^ 2 / (6378137 ^ 2 * (1 - wgsE2)) = 1 := by
    rw [← hN2]
    field_simp
    linear_combination hSC
  have hw2 : w ^ 2 ≤ n ^ 2 * C ^ 2 ∧ (C ≠ 0 → w ^ 2 < n ^ 2 * C ^ 2) := by
    rcases hC0.eq_or_lt with hC | hC
    · rw [ew, ← hC]; simp
    · have : 0 ≤ n + h := by
        by_contra hc; push Not at hc; nlinarith
      have : w ^ 2 < n ^ 2 * C ^ 2 := by
        rw [ew, mul_pow]
        exact mul_lt_mul_of_pos_right (pow_lt_pow_left₀ (by linarith) this two_ne_zero) (by positivity)
      exact ⟨this.le, fun _ => this⟩
  have hz2 : z ^ 2 ≤ ((1 - wgsE2) * n) ^ 2 * S ^ 2 ∧ (S ≠ 0 → z ^ 2 < ((1 - wgsE2) * n) ^ 2 * S ^ 2) := by
    rcases hS0.eq_or_lt with hS | hS
    · rw [ez, ← hS]; simp
    · have : 0 ≤ (1 - wgsE2) * n + h := by
        by_contra hc; push Not at hc; nlinarith
      have : z ^ 2 < ((1 - wgsE2) * n) ^ 2 * S ^ 2 := by
        rw [ez, mul_pow]
        exact mul_lt_mul_of_pos_right (pow_lt_pow_left₀ (by linarith) this two_ne_zero) (by positivity)
      exact ⟨this.le, fun _ => this⟩
  have d1 : w ^ 2 / 6378137 ^ 2 ≤ n ^ 2 * C ^ 2 / 6378137 ^ 2 := by gcongr; exact hw2.1
  have d2 : z ^ 2 / (6378137 ^ 2 * (1 - wgsE2)) ≤ ((1 - wgsE2) * n) ^ 2 * S ^ 2 / (6378137 ^ 2 * (1 - wgsE2)) := by
    gcongr; exact hz2.1
  by_cases hC : C = 0
  · have hS : S ≠ 0 := by rintro hS; rw [hS, hC] at hSC; norm_num at hSC
    have : z ^ 2 / (6378137 ^ 2 * (1 - wgsE2)) < ((1 - wgsE2) * n) ^ 2 * S ^ 2 / (6378137 ^ 2 * (1 - wgsE2)) := by
      gcongr; exact hz2.2 hS
    linarith
  · have : w ^ 2 / 6378137 ^ 2 < n ^ 2 * C ^ 2 / 6378137 ^ 2 := by gcongr; exact hw2.2 hC
    linarith

/-- Every position on or outside the ellipsoid is at some latitude, longitude and height. -/
theorem C136_exists (x : V3) (h : Spec.OutsideWgs x) :
    ∃ φ lam ht, -(Real.pi / 2) ≤ φ ∧ φ ≤ Real.pi / 2 ∧ -Real.pi < lam ∧ lam ≤ Real.pi ∧ 0 ≤ ht ∧
      x = Spec.wgs84 φ lam ht := by
  have hpi := Real.pi_pos
  unfold Spec.OutsideWgs at h
  rw [wgsEcc2_eq] at h
  set c : ℂ := ⟨x 0, x 1⟩ with hc
  obtain ⟨φ, ht, h0, h1, hh, ew, ez⟩ := exists_geodetic (w := ‖c‖) (z := |x 2|) (norm_nonneg _) (abs_nonneg _) (by
    rw [sq_abs, Complex.sq_norm, Complex.normSq_mk]; simpa [sq] using h)
  have hre : x 0 = ‖c‖ * Real.cos c.arg := (Complex.norm_mul_cos_arg c).symm
  have him : x 1 = ‖c‖ * Real.sin c.arg := (Complex.norm_mul_sin_arg c).symm
  rcases le_or_gt 0 (x 2) with hz | hz
  · refine ⟨φ, c.arg, ht, by linarith, h1, Complex.neg_pi_lt_arg c, Complex.arg_le_pi c, hh, ?_⟩
    unfold Spec.wgs84
    rw [wgsNormal_eq, wgsEcc2_eq, ← ew, ← ez, abs_of_nonneg hz, ← hre, ← him]
    apply vec3_ext <;> rfl
  · refine ⟨-φ, c.arg, ht, by linarith, by linarith, Complex.neg_pi_lt_arg c, Complex.arg_le_pi c, hh, ?_⟩
    have eN : Olson.N (-φ) = Olson.N φ := by unfold Olson.N; simp
    unfold Spec.wgs84
    rw [wgsNormal_eq, wgsEcc2_eq, eN, Real.cos_neg, Real.sin_neg, mul_neg, ← ew, ← ez, abs_of_neg hz, neg_neg,
      ← hre, ← him]
    apply vec3_ext <;> rfl

/-- C136: so for every position on or outside the ellipsoid the result is its geodetic latitude, longitude
and height. -/
theorem C136_accuracy (x : V3) (h : Spec.OutsideWgs x) :
    ∃ φ lam ht, x = Spec.wgs84 φ lam ht ∧ |φ| ≤ Real.pi / 2 ∧ 0 ≤ ht ∧
      ∃ lat long ht', ecefToLla x = .ok (lat, long, ht') ∧
        |lat - npDegrees φ| ≤ 5e-11 ∧ (|φ| < Real.pi / 2 → long = npDegrees lam) ∧
        |ht' - ht| ≤ 1e-10 + 1e-20 * |ht| := by
  obtain ⟨φ, lam, ht, h0, h1, h2, h3, h4, rfl⟩ := C136_exists x h
  exact ⟨φ, lam, ht, rfl, abs_le.2 ⟨h0, h1⟩, h4, C136_inverse h0 h1 h2 h3 (by linarith)⟩

/-- Positions at least the equatorial radius away from the centre are outside. -/
theorem outside_of_norm (x : V3) (h : 6378137 ≤ npNorm x) : Spec.OutsideWgs x := by
  unfold Spec.OutsideWgs
  rw [wgsEcc2_eq]
  have e0 := wgsE2_pos
  have e1 := wgsE2_lt
  norm_num at e1
  have hb : 0 < 1 - wgsE2 := by linarith
  have h2 : 6378137 ^ 2 ≤ x 0 ^ 2 + x 1 ^ 2 + x 2 ^ 2 := by
    have hn : npNorm x ^ 2 = x 0 ^ 2 + x 1 ^ 2 + x 2 ^ 2 := by
      unfold npNorm; rw [Real.sq_sqrt (Finset.sum_nonneg fun i _ => by positivity), Fin.sum_univ_three]
    rw [← hn]; exact pow_le_pow_left₀ (by norm_num) h 2
  have h3 : x 2 ^ 2 / 6378137 ^ 2 ≤ x 2 ^ 2 / (6378137 ^ 2 * (1 - wgsE2)) := by
    gcongr; nlinarith
  have h4 : 1 ≤ (x 0 ^ 2 + x 1 ^ 2) / 6378137 ^ 2 + x 2 ^ 2 / 6378137 ^ 2 := by
    rw [← add_div, le_div_iff₀ (by norm_num)]; linarith
  linarith

/-- A position in an inclined orbit. -/
example : Spec.OutsideWgs ![4e6, 3e6, 5e6] := by
  apply outside_of_norm
  apply Real.le_sqrt_of_sq_le
  simp [Fin.sum_univ_three]; norm_num

/-! ## C18: the round trip through the library's own `geodetic_to_ECEF` -/

theorem near_ecc {S : ℝ} (hS0 : 0 ≤ S) (hS1 : S ≤ 1) :
    let N' := 6378137 / Real.sqrt (1 - (0.0818 * S) ^ 2)
    let N := wgsA / Real.sqrt (1 - wgsE2 * S ^ 2)
    0 < N' ∧ N' ^ 2 * (1 - (0.0818 * S) ^ 2) = 6378137 ^ 2 ∧ 0 ≤ N - N' ∧ N - N' ≤ 10.3 ∧
      0 ≤ (wgsE2 - 0.0818 ^ 2) * N ∧ (wgsE2 - 0.0818 ^ 2) * N ≤ 20.2 := by
  intro N' N
  have l0 : 0.00669437 < wgsE2 := by unfold wgsE2 wgsF; norm_num
  have l1 : wgsE2 < 0.00669438 := by unfold wgsE2 wgsF; norm_num
  have hS2 : S ^ 2 ≤ 1 := pow_le_one₀ hS0 hS1
  have hS2' := sq_nonneg S
  norm_num at l0 l1
  have g0 : 0.9933 ≤ 1 - wgsE2 * S ^ 2 := by norm_num; nlinarith
  have g1 : 1 - wgsE2 * S ^ 2 ≤ 1 - (0.0818 * S) ^ 2 := by rw [mul_pow]; norm_num; nlinarith
  have g2 : 1 - (0.0818 * S) ^ 2 ≤ 1 := by nlinarith [sq_nonneg (0.0818 * S)]
  norm_num at g0
  have hN : N ^ 2 * (1 - wgsE2 * S ^ 2) = 6378137 ^ 2 := by
    simp only [N, wgsA]; rw [div_pow, Real.sq_sqrt (by linarith), div_mul_cancel₀]; linarith
  have hN' : N' ^ 2 * (1 - (0.0818 * S) ^ 2) = 6378137 ^ 2 := by
    simp only [N']; rw [div_pow, Real.sq_sqrt (by linarith), div_mul_cancel₀]; linarith
  have p' : 0 < N' := div_pos (by norm_num) (Real.sqrt_pos.2 (by linarith))
  have p : 0 < N := div_pos (by unfold wgsA; norm_num) (Real.sqrt_pos.2 (by linarith))
  have q' : 6378137 ≤ N' := by
    by_contra hc; push Not at hc; nlinarith [pow_lt_pow_left₀ hc p'.le two_ne_zero, sq_nonneg N']
  have q : N ≤ 6.4e6 := by
    by_contra hc; push Not at hc
    have := pow_lt_pow_left₀ hc (by norm_num) two_ne_zero
    norm_num at this
    nlinarith
  have hdiff : (N - N') * (N + N') * (1 - (0.0818 * S) ^ 2) = N ^ 2 * ((wgsE2 - 0.0818 ^ 2) * S ^ 2) := by
    linear_combination hN - hN'
  have hd0 : 0 ≤ (wgsE2 - 0.0818 ^ 2) * S ^ 2 := mul_nonneg (by norm_num; linarith) hS2'
  have hd1 : (wgsE2 - 0.0818 ^ 2) * S ^ 2 ≤ 3.15e-6 := by norm_num; nlinarith
  have hnn : 0 ≤ N - N' := by
    by_contra hc; push Not at hc
    have : (N - N') * (N + N') * (1 - (0.0818 * S) ^ 2) < 0 :=
      mul_neg_of_neg_of_pos (mul_neg_of_neg_of_pos hc (by linarith)) (by linarith)
    rw [hdiff] at this
    exact absurd this (not_lt.2 (by positivity))
  refine ⟨p', hN', hnn, ?_, ?_, ?_⟩
  · by_contra hc; push Not at hc
    have a1 : N ^ 2 * ((wgsE2 - 0.0818 ^ 2) * S ^ 2) ≤ 6.4e6 ^ 2 * 3.15e-6 := by gcongr
    rw [← hdiff] at a1
    have a2 : 10.3 * (6378137 + 6378137) ≤ (N - N') * (N + N') := by
      apply mul_le_mul hc.le (by linarith) (by norm_num) hnn
    have a3 : 10.3 * (6378137 + 6378137) * 0.9933 ≤ (N - N') * (N + N') * (1 - (0.0818 * S) ^ 2) := by
      apply mul_le_mul a2 (by norm_num; linarith) (by norm_num)
      exact mul_nonneg hnn (by linarith)
    norm_num at a1 a3
    linarith
  · exact mul_nonneg (by norm_num; linarith) p.le
  · norm_num at q ⊢; nlinarith

/-- Two latitudes in the same quadrant: the tangential displacement is at least that on a circle. -/
theorem tangential {φ φ' : ℝ} (h0 : 0 ≤ φ) (h1 : φ ≤ Real.pi / 2) (h0' : 0 ≤ φ') (h1' : φ' ≤ Real.pi / 2) :
    (φ' ≤ φ → 6.33e6 * Real.sin (φ - φ') ≤ -Real.sin φ' * (Olson.N φ * Real.cos φ - Olson.N φ' * Real.cos φ') +
      Real.cos φ' * (wgsA6 * Olson.N φ * Real.sin φ - wgsA6 * Olson.N φ' * Real.sin φ')) ∧
    (φ ≤ φ' → -Real.sin φ' * (Olson.N φ * Real.cos φ - Olson.N φ' * Real.cos φ') +
      Real.cos φ' * (wgsA6 * Olson.N φ * Real.sin φ - wgsA6 * Olson.N φ' * Real.sin φ')
        ≤ 6.33e6 * Real.sin (φ - φ')) := by
  have hs : ∀ ψ : ℝ, HasDerivAt (fun ψ => Real.sin (ψ - φ')) (Real.cos (ψ - φ')) ψ := fun ψ => by
    simpa using (Real.hasDerivAt_sin (ψ - φ')).comp_sub_const ψ φ'
  have hD : ∀ ψ, HasDerivAt (fun ψ => (-Real.sin φ' * (Olson.N ψ * Real.cos ψ) +
      Real.cos φ' * (wgsA6 * Olson.N ψ * Real.sin ψ)) - 6.33e6 * Real.sin (ψ - φ'))
      ((Olson.M ψ - 6.33e6) * Real.cos (ψ - φ')) ψ := fun ψ => by
    refine ((((Olson.hasDerivAt_X ψ).const_mul _).add ((Olson.hasDerivAt_Z ψ).const_mul _)).sub
      ((hs ψ).const_mul _)).congr_deriv ?_
    rw [Real.cos_sub]; ring
  have hm : MonotoneOn (fun ψ => (-Real.sin φ' * (Olson.N ψ * Real.cos ψ) +
      Real.cos φ' * (wgsA6 * Olson.N ψ * Real.sin ψ)) - 6.33e6 * Real.sin (ψ - φ')) (Set.Icc 0 (Real.pi / 2)) := by
    apply monotoneOn_of_deriv_nonneg (convex_Icc _ _)
    · exact fun x _ => (hD x).continuousAt.continuousWithinAt
    · exact fun x _ => (hD x).differentiableAt.differentiableWithinAt
    · intro x hx
      rw [interior_Icc] at hx
      rw [(hD x).deriv]
      refine mul_nonneg (by linarith [(Olson.M_bounds x).1]) (Real.cos_nonneg_of_neg_pi_div_two_le_of_le ?_ ?_) <;>
        linarith [hx.1, hx.2]
  constructor <;> intro hle
  · have := hm ⟨h0', h1'⟩ ⟨h0, h1⟩ hle
    simp only [sub_self, Real.sin_zero] at this
    linarith
  · have := hm ⟨h0, h1⟩ ⟨h0', h1'⟩ hle
    simp only [sub_self, Real.sin_zero] at this
    linarith

theorem near_outside {S C h N' : ℝ} (hS0 : 0 ≤ S) (hC0 : 0 ≤ C) (hSC : S ^ 2 + C ^ 2 = 1) (hh : 0 ≤ h) (p' : 0 < N')
    (hN' : N' ^ 2 * (1 - (0.0818 * S) ^ 2) = 6378137 ^ 2) :
    1 ≤ ((N' + h) * C) ^ 2 / 6378137 ^ 2 +
      ((N' * (1 - 0.0818 ^ 2) + h) * S) ^ 2 / (6378137 ^ 2 * (1 - wgsE2)) := by
  have l0 : 0.00669437 < wgsE2 := by unfold wgsE2 wgsF; norm_num
  have e1 := wgsE2_lt
  have c0 : (0:ℝ) < 1 - 0.0818 ^ 2 := by norm_num
  have c1 : 1 - wgsE2 ≤ 1 - 0.0818 ^ 2 := by norm_num at l0 ⊢; linarith
  generalize hc : (1 - 0.0818 ^ 2 : ℝ) = c at *
  have hb : 0 < 1 - wgsE2 := by norm_num at e1; linarith
  have a1 : (N' * C) ^ 2 ≤ ((N' + h) * C) ^ 2 := by gcongr; linarith
  have a2 : (N' * c * S) ^ 2 ≤ ((N' * c + h) * S) ^ 2 := by
    gcongr; linarith
  have a3 : (N' * C) ^ 2 / 6378137 ^ 2 ≤ ((N' + h) * C) ^ 2 / 6378137 ^ 2 := by gcongr
  have a4 : (N' * c * S) ^ 2 / (6378137 ^ 2 * (1 - wgsE2)) ≤
      ((N' * c + h) * S) ^ 2 / (6378137 ^ 2 * (1 - wgsE2)) := by gcongr
  have a5 : (N' * S) ^ 2 * c / 6378137 ^ 2 ≤ (N' * c * S) ^ 2 / (6378137 ^ 2 * (1 - wgsE2)) := by
    rw [div_le_div_iff₀ (by norm_num) (by positivity)]
    have : 0 ≤ (N' * S) ^ 2 * c * 6378137 ^ 2 := by positivity
    calc _ = (N' * S) ^ 2 * c * 6378137 ^ 2 * (1 - wgsE2) := by ring
      _ ≤ (N' * S) ^ 2 * c * 6378137 ^ 2 * c := mul_le_mul_of_nonneg_left c1 this
      _ = _ := by ring
  have a6 : (N' * C) ^ 2 / 6378137 ^ 2 + (N' * S) ^ 2 * c / 6378137 ^ 2 = 1 := by
    rw [← add_div, div_eq_one_iff_eq (by norm_num), ← hN', ← hc]
    linear_combination N' ^ 2 * hSC
  linarith

theorem near_offsets {S C S' C' u k : ℝ} (hS0 : 0 ≤ S) (hC0 : 0 ≤ C) (hS0' : 0 ≤ S') (hC0' : 0 ≤ C')
    (hS1 : S ≤ 1) (hC1 : C ≤ 1) (hS1' : S' ≤ 1) (hC1' : C' ≤ 1) (hcd : C * C' + S * S' ≤ 1)
    (u0 : 0 ≤ u) (u1 : u ≤ 10.3) (k0 : 0 ≤ k) (k1 : k ≤ 20.2) :
    |C * S' * u + S * C' * k - S * C' * (1 - 0.0818 ^ 2) * u| ≤ 31 ∧
      |S * S' * k - (C * C' + S * S' * (1 - 0.0818 ^ 2)) * u| ≤ 20.3 := by
  have c0 : (0:ℝ) ≤ 1 - 0.0818 ^ 2 := by norm_num
  have c1 : (1:ℝ) - 0.0818 ^ 2 ≤ 1 := by norm_num
  generalize (1 - 0.0818 ^ 2 : ℝ) = c at *
  have b1 : C * S' ≤ 1 := mul_le_one₀ hC1 hS0' hS1'
  have b2 : S * C' ≤ 1 := mul_le_one₀ hS1 hC0' hC1'
  have b3 : S * S' ≤ 1 := mul_le_one₀ hS1 hS0' hS1'
  have d1 : 0 ≤ C * S' := mul_nonneg hC0 hS0'
  have d2 : 0 ≤ S * C' := mul_nonneg hS0 hC0'
  have d3 : 0 ≤ S * S' := mul_nonneg hS0 hS0'
  have d4 : 0 ≤ C * C' := mul_nonneg hC0 hC0'
  constructor
  · have v1 : 0 ≤ C * S' * u := mul_nonneg d1 u0
    have v2 : C * S' * u ≤ 1 * 10.3 := mul_le_mul b1 u1 u0 zero_le_one
    have v3 : 0 ≤ S * C' * k := mul_nonneg d2 k0
    have v4 : S * C' * k ≤ 1 * 20.2 := mul_le_mul b2 k1 k0 zero_le_one
    have v5 : 0 ≤ S * C' * c * u := mul_nonneg (mul_nonneg d2 c0) u0
    have v6 : S * C' * c * u ≤ 1 * 1 * 10.3 := mul_le_mul (mul_le_mul b2 c1 c0 zero_le_one) u1 u0 (by norm_num)
    norm_num at v2 v4 v6
    rw [abs_le]; constructor <;> linarith
  · have v3 : 0 ≤ S * S' * k := mul_nonneg d3 k0
    have v4 : S * S' * k ≤ 1 * 20.2 := mul_le_mul b3 k1 k0 zero_le_one
    have v5 : 0 ≤ (C * C' + S * S' * c) * u := mul_nonneg (add_nonneg d4 (mul_nonneg d3 c0)) u0
    have v7 : C * C' + S * S' * c ≤ 1 := by
      have : S * S' * c ≤ S * S' * 1 := mul_le_mul_of_nonneg_left c1 d3
      linarith
    have v6 : (C * C' + S * S' * c) * u ≤ 1 * 10.3 := mul_le_mul v7 u1 u0 zero_le_one
    norm_num at v4 v6 ⊢
    rw [abs_le]; constructor <;> linarith

theorem near_angle {δ h : ℝ} (hδ : |δ| ≤ Real.pi / 2) (hh : 0 ≤ h) (hsin : (6.33e6 + h) * |Real.sin δ| ≤ 31) :
    |δ| ≤ 7.9e-6 ∧ h * (1 - Real.cos δ) ≤ 31 * 7.9e-6 ∧ 1 - Real.cos δ ≤ 7.9e-6 * 7.9e-6 := by
  have hpi := Real.pi_pos
  have j4 : 0 ≤ h * |Real.sin δ| := by positivity
  have hδb : |δ| ≤ 7.9e-6 := by
    have j := Real.mul_abs_le_abs_sin hδ
    have j2 : 2 / 3.15 ≤ 2 / Real.pi := by
      apply div_le_div_of_nonneg_left (by norm_num) hpi
      linarith [Real.pi_lt_d2]
    have j3 := mul_le_mul_of_nonneg_right j2 (abs_nonneg δ)
    norm_num at hsin j3 ⊢
    linarith
  have hs1 : |Real.sin δ| ≤ 7.9e-6 := Real.abs_sin_le_abs.trans hδb
  have hcos : 1 - Real.cos δ ≤ |Real.sin δ| * |Real.sin δ| := by
    have q1 := Real.sin_sq_add_cos_sq δ
    have q2 := Real.cos_le_one δ
    have q3 : 0 ≤ Real.cos δ := Real.cos_nonneg_of_neg_pi_div_two_le_of_le (abs_le.1 hδ).1 (abs_le.1 hδ).2
    rw [← abs_mul, abs_of_nonneg (mul_self_nonneg _)]
    nlinarith
  refine ⟨hδb, ?_, hcos.trans (mul_le_mul hs1 hs1 (abs_nonneg _) (by norm_num))⟩
  calc h * (1 - Real.cos δ) ≤ h * (|Real.sin δ| * |Real.sin δ|) := mul_le_mul_of_nonneg_left hcos hh
    _ = (h * |Real.sin δ|) * |Real.sin δ| := by ring
    _ ≤ 31 * 7.9e-6 := by
      apply mul_le_mul _ hs1 (abs_nonneg _) (by norm_num)
      have : 0 ≤ |Real.sin δ| := abs_nonneg _
      norm_num at hsin ⊢; linarith

/-- The round trip in the northern hemisphere. -/
theorem round_trip_core {φ h : ℝ} (h0 : 0 ≤ φ) (h1 : φ ≤ Real.pi / 2) (hh : 0 ≤ h) :
    let N' := 6378137 / Real.sqrt (1 - (0.0818 * Real.sin φ) ^ 2)
    ∃ lat ht, llaCore ((N' + h) * Real.cos φ) ((N' * (1 - 0.0818 ^ 2) + h) * Real.sin φ) = .ok (lat, ht) ∧
      |lat - φ| ≤ 8e-6 ∧ |ht - h| ≤ 21 + 1e-20 * h := by
  intro N'
  have hpi := Real.pi_pos
  have hS0 : 0 ≤ Real.sin φ := Real.sin_nonneg_of_nonneg_of_le_pi h0 (by linarith)
  have hC0 : 0 ≤ Real.cos φ := Real.cos_nonneg_of_neg_pi_div_two_le_of_le (by linarith) h1
  have hSC := Real.sin_sq_add_cos_sq φ
  obtain ⟨p', hN', u0, u1, k0, k1⟩ := near_ecc hS0 (Real.sin_le_one φ)
  change 0 < N' at p'
  change N' ^ 2 * _ = _ at hN'
  change 0 ≤ Olson.N φ - N' at u0
  change Olson.N φ - N' ≤ _ at u1
  change 0 ≤ _ * Olson.N φ at k0
  change _ * Olson.N φ ≤ _ at k1
  obtain ⟨φ', h', g0, g1, g2, ew, ez⟩ := exists_geodetic (w := (N' + h) * Real.cos φ)
    (z := (N' * (1 - 0.0818 ^ 2) + h) * Real.sin φ) (by positivity)
    (mul_nonneg (add_nonneg (mul_nonneg p'.le (by norm_num)) hh) hS0) (near_outside hS0 hC0 hSC hh p' hN')
  have hS0' : 0 ≤ Real.sin φ' := Real.sin_nonneg_of_nonneg_of_le_pi g0 (by linarith)
  have hC0' : 0 ≤ Real.cos φ' := Real.cos_nonneg_of_neg_pi_div_two_le_of_le (by linarith) g1
  have hSC' := Real.sin_sq_add_cos_sq φ'
  obtain ⟨t1, t2⟩ := tangential h0 h1 g0 g1
  set S := Real.sin φ with hS
  set C := Real.cos φ with hC
  set S' := Real.sin φ' with hS'
  set C' := Real.cos φ' with hC'
  set n := Olson.N φ with hn
  set n' := Olson.N φ' with hn'
  set δ := φ - φ' with hδ
  set FT := -S' * (n * C - n' * C') + C' * (wgsA6 * n * S - wgsA6 * n' * S') with hFT
  set FN := C' * (n * C - n' * C') + S' * (wgsA6 * n * S - wgsA6 * n' * S') with hFN
  have hsd : Real.sin δ = S * C' - C * S' := Real.sin_sub _ _
  have hcd : Real.cos δ = C * C' + S * S' := Real.cos_sub _ _
  -- the differences between the ellipsoids
  have eT : FT + h * Real.sin δ + (C * S' * (n - N') + S * C' * ((wgsE2 - 0.0818 ^ 2) * n)
      - S * C' * (1 - 0.0818 ^ 2) * (n - N')) = 0 := by
    rw [hFT, hsd]; unfold wgsA6
    linear_combination (-S') * ew + C' * ez
  have eN : h' = FN + h * Real.cos δ + (S * S' * ((wgsE2 - 0.0818 ^ 2) * n) -
      (C * C' + S * S' * (1 - 0.0818 ^ 2)) * (n - N')) := by
    rw [hFN, hcd]; unfold wgsA6
    linear_combination (-C') * ew - S' * ez - h' * hSC'
  obtain ⟨hdT, hdN⟩ := near_offsets hS0 hC0 hS0' hC0' (Real.sin_le_one φ) (Real.cos_le_one φ) (Real.sin_le_one φ')
    (Real.cos_le_one φ') (by have := Real.cos_le_one δ; rw [hcd] at this; exact this) u0 u1 k0 k1
  -- the latitude
  have hsin : (6.33e6 + h) * |Real.sin δ| ≤ 31 := by
    obtain ⟨w1, w2⟩ := abs_le.1 hdT
    rcases le_total φ' φ with hle | hle
    · have : 0 ≤ Real.sin δ := Real.sin_nonneg_of_nonneg_of_le_pi (by linarith) (by linarith)
      rw [abs_of_nonneg this]
      have := t1 hle
      linarith
    · have : Real.sin δ ≤ 0 := Real.sin_nonpos_of_nonpos_of_neg_pi_le (by linarith) (by linarith)
      rw [abs_of_nonpos this]
      have := t2 hle
      linarith
  obtain ⟨hδb, hhc, hcos⟩ := near_angle (abs_le.2 ⟨by linarith, by linarith⟩) hh hsin
  have hcos1 := Real.cos_le_one δ
  have hhc0 : 0 ≤ h * (1 - Real.cos δ) := mul_nonneg hh (by linarith)
  have hd2 := (Olson.displacement hδb).2
  obtain ⟨m0, m1⟩ := Olson.M_bounds φ'
  have hMc : Olson.M φ' * (1 - Real.cos δ) ≤ 6.45e6 * (7.9e-6 * 7.9e-6) :=
    mul_le_mul m1 hcos (by linarith) (by norm_num)
  have hMc0 : 0 ≤ Olson.M φ' * (1 - Real.cos δ) := mul_nonneg (by norm_num at m0; linarith) (by linarith)
  have hFNb := abs_le.1 hd2
  have hhd : |h' - h| ≤ 20.5 := by
    obtain ⟨w1, w2⟩ := abs_le.1 hdN
    obtain ⟨w3, w4⟩ := hFNb
    norm_num at w1 w2 w3 w4 hMc hhc ⊢
    rw [abs_le, eN]
    constructor <;> linarith
  -- the conversion back
  obtain ⟨lat, ht, hc, r1, r2⟩ := Olson.core g0 g1 (show -10000 ≤ h' by linarith)
  rw [mul_comm (Olson.N φ') (1 - wgsE2)] at hc
  rw [ew, ez]
  refine ⟨lat, ht, hc, ?_, ?_⟩
  · have := Olson.ab_sub r1 hδb
    refine le_trans (le_of_eq ?_) (this.trans (by norm_num))
    rw [hδ]; congr 1; ring
  · have := Olson.ab_add r2 hhd
    have hp : |h'| ≤ h + 20.5 := by
      have := abs_le.1 hhd
      rw [abs_of_nonneg g2]; linarith
    refine le_trans (le_of_eq ?_) (this.trans ?_)
    · congr 1; ring
    · norm_num at hp ⊢; linarith

/-- C18, the part that holds everywhere: with the angles converted, the round trip returns the latitude within
5e-4 degrees, the longitude exactly and the height within 21 m (and 1e-20 of the height).
Missing against the full property: the unit conversion inside the library, and equality, since the two
functions use different ellipsoids (`C18_pole_height_error`). -/
theorem C18_close_partial {lat long h : ℝ} (h0 : -(Real.pi / 2) ≤ lat) (h1 : lat ≤ Real.pi / 2)
    (hl0 : -Real.pi < long) (hl1 : long ≤ Real.pi) (hh : 0 ≤ h) :
    ∃ lat' long' h', ecefToLla (geodeticToEcef lat long h) = .ok (lat', long', h') ∧
      |lat' - npDegrees lat| ≤ 5e-4 ∧ (|lat| < Real.pi / 2 → long' = npDegrees long) ∧
      |h' - h| ≤ 21 + 1e-20 * h := by
  have hpi := Real.pi_pos
  have hC0 : 0 ≤ Real.cos lat := Real.cos_nonneg_of_neg_pi_div_two_le_of_le h0 h1
  have hk : ∀ S : ℝ, S ^ 2 ≤ 1 → 0 < 1 - (0.0818 * S) ^ 2 := fun S hS => by rw [mul_pow]; norm_num; linarith
  have hN : ∀ S : ℝ, S ^ 2 ≤ 1 → 0 < 6378137 / Real.sqrt (1 - (0.0818 * S) ^ 2) :=
    fun S hS => div_pos (by norm_num) (Real.sqrt_pos.2 (hk S hS))
  have hn := hN (Real.sin lat) (Real.sin_sq_le_one lat)
  set n := 6378137 / Real.sqrt (1 - (0.0818 * Real.sin lat) ^ 2) with hnd
  have hρ : 0 < n + h := by linarith
  have hw : Real.sqrt ((n + h) * Real.cos lat * Real.cos long * ((n + h) * Real.cos lat * Real.cos long) +
      (n + h) * Real.cos lat * Real.sin long * ((n + h) * Real.cos lat * Real.sin long)) =
      (n + h) * Real.cos lat := by
    rw [← Real.sqrt_sq (show 0 ≤ (n + h) * Real.cos lat by positivity)]
    congr 1
    rw [Real.sqrt_sq (show 0 ≤ (n + h) * Real.cos lat by positivity)]
    linear_combination ((n + h) * Real.cos lat) ^ 2 * Real.sin_sq_add_cos_sq long
  have hlong : |lat| < Real.pi / 2 → npDegrees (npArctan2 ((n + h) * Real.cos lat * Real.sin long)
      ((n + h) * Real.cos lat * Real.cos long)) = npDegrees long := fun hlt => by
    have hC : 0 < Real.cos lat := Real.cos_pos_of_mem_Ioo (abs_lt.1 hlt)
    rw [npArctan2_polar (by positivity) hl0 hl1]
  have hdeg : ∀ a b : ℝ, |a - b| ≤ 8e-6 → |npDegrees a - npDegrees b| ≤ 5e-4 := by
    intro a b hab
    have e : npDegrees a - npDegrees b = (a - b) * (180 / Real.pi) := by unfold npDegrees; ring
    have hp : |180 / Real.pi| ≤ 60 := by
      rw [abs_of_pos (by positivity), div_le_iff₀ hpi]; linarith [Real.pi_gt_three]
    rw [e]
    exact (Olson.ab_mul hab hp).trans (by norm_num)
  have hz' : 0 < n * (1 - 0.0818 ^ 2) + h := add_pos_of_pos_of_nonneg (mul_pos hn (by norm_num)) hh
  have e : geodeticToEcef lat long h = ![(n + h) * Real.cos lat * Real.cos long,
      (n + h) * Real.cos lat * Real.sin long, (n * (1 - 0.0818 ^ 2) + h) * Real.sin lat] := rfl
  rw [e, ecefToLla_core', hw]
  rcases le_or_gt 0 lat with hs | hs
  · obtain ⟨la, ht, hc, r1, r2⟩ := round_trip_core hs h1 hh
    have hS : 0 ≤ Real.sin lat := Real.sin_nonneg_of_nonneg_of_le_pi hs (by linarith)
    rw [hc]
    refine ⟨_, _, _, rfl, ?_, hlong, r2⟩
    rw [if_neg (not_lt.2 (mul_nonneg hz'.le hS))]
    exact hdeg _ _ r1
  · obtain ⟨la, ht, hc, r1, r2⟩ := round_trip_core (φ := -lat) (by linarith) (by linarith) hh
    have hS : Real.sin lat < 0 := Real.sin_neg_of_neg_of_neg_pi_lt hs (by linarith)
    rw [Real.sin_neg, mul_neg, neg_sq, ← hnd, Real.cos_neg, mul_neg, llaCore_neg] at hc
    rw [hc]
    refine ⟨_, _, _, rfl, ?_, hlong, r2⟩
    rw [if_pos (mul_neg_of_pos_of_neg hz' hS)]
    refine hdeg _ _ ?_
    rw [← abs_neg]
    refine le_trans (le_of_eq ?_) r1
    congr 1; ring

/-- The hypotheses: 45 degrees north, 100 degrees west, 400 km up. -/
example : ∃ lat' long' h', ecefToLla (geodeticToEcef (Real.pi / 4) (-(5 * Real.pi / 9)) 400000) = .ok (lat', long', h') ∧
    |lat' - npDegrees (Real.pi / 4)| ≤ 5e-4 ∧ |h' - 400000| ≤ 22 := by
  have hpi := Real.pi_pos
  obtain ⟨a, b, c, h1, h2, -, h4⟩ := C18_close_partial (lat := Real.pi / 4) (long := -(5 * Real.pi / 9)) (h := 400000)
    (by linarith) (by linarith) (by linarith) (by linarith) (by norm_num)
  exact ⟨a, b, c, h1, h2, h4.trans (by norm_num)⟩

end Adcs
