import Verif.Proofs.Height
import Verif.Props.State

set_option autoImplicit false

/-! # C127: geodetic coordinates of every position in space -/

namespace Adcs

open Fr Vec Dyn JDay
open scoped Matrix

/-! ## C127 -/

/-- C127: every position at least 6300 km from the centre of the Earth has geodetic coordinates: latitude within
90 degrees on the side of the equator it is on, longitude within 180 degrees, and a height between the
distances to the smallest enclosing and the largest enclosed sphere of the ellipsoid, up to 400 m. -/
theorem C127_defined (x : V3) (h : 6.3e6 ≤ npNorm x) :
    ∃ lat long ht, ecefToLla x = .ok (lat, long, ht) ∧ |lat| ≤ 90 ∧ 0 ≤ lat * x 2 ∧ |long| ≤ 180 ∧
      npNorm x - 6378137 - 150 ≤ ht ∧ ht ≤ npNorm x - 6356752 + 400 := by
  have hr : Real.sqrt (x 2 * x 2 + Real.sqrt (x 0 * x 0 + x 1 * x 1) * Real.sqrt (x 0 * x 0 + x 1 * x 1))
      = npNorm x := by
    rw [Real.mul_self_sqrt (add_nonneg (mul_self_nonneg _) (mul_self_nonneg _))]
    simp only [npNorm, Fin.sum_univ_three]
    congr 1; ring
  obtain ⟨lat, ht, he, h0, h1, h2, h3⟩ := llaCore_ok (Real.sqrt_nonneg _) hr h
  rw [ecefToLla_core, he]
  refine ⟨_, _, _, rfl, ?_, ?_, ?_, by linarith, by linarith⟩
  · have hp := Real.pi_pos
    have : |npDegrees (if x 2 < 0 then -lat else lat)| = lat * 180 / Real.pi := by
      split_ifs <;> simp [npDegrees, abs_div, abs_mul, abs_of_nonneg h0, abs_of_pos hp]
    rw [this, div_le_iff₀ hp]; linarith
  · have hp := Real.pi_pos
    split_ifs with hz
    · have : 0 ≤ lat * 180 / Real.pi * -x 2 := mul_nonneg (by positivity) (by linarith)
      simp only [npDegrees]; linarith [show -lat * 180 / Real.pi * x 2 = lat * 180 / Real.pi * -x 2 by ring]
    · simp only [npDegrees]; exact mul_nonneg (by positivity) (not_lt.1 hz)
  · have hp := Real.pi_pos
    rw [npDegrees, abs_div, abs_mul, abs_of_pos hp, abs_of_pos (by norm_num : (0 : ℝ) < 180),
      div_le_iff₀ hp, npArctan2]
    have := Complex.abs_arg_le_pi ⟨x 0, x 1⟩
    linarith

theorem ecef_norm (θ : ℝ) (x : V3) : npNorm (inertialToEcef θ *ᵥ x) = npNorm x := by
  have h := Real.sin_sq_add_cos_sq θ
  simp only [npNorm, Fin.sum_univ_three, inertialToEcef_mulVec]
  congr 1
  simp
  linear_combination (x 0 ^ 2 + x 1 ^ 2) * h

/-- C127: a state at least 6300 km from the centre of the Earth can be constructed at any time, whatever
its other entries, and its height is that of C127. -/
theorem C127_new {n : ℕ} (a : Raw n) (c : JClock) (h : 6.3e6 ≤ npNorm a.pos) :
    ∃ s, SatState.new a (some c) = .ok s ∧
      npNorm a.pos - 6378137 - 150 ≤ s.attrs.h ∧ s.attrs.h ≤ npNorm a.pos - 6356752 + 400 := by
  obtain ⟨lat, long, ht, he, -, -, -, h1, h2⟩ := C127_defined (inertialToEcef c.thetaGmst *ᵥ a.pos)
    (by rw [ecef_norm]; exact h)
  rw [ecef_norm] at h1 h2
  exact ⟨_, mkState_ok.2 ⟨c, lat, long, ht, rfl, he, rfl⟩, h1, h2⟩

/-- C127: updating such a state, after any change to it that leaves it a clock, does not raise. -/
theorem C127_update {n : ℕ} (s : SatState n) (hc : s.clock ≠ none) (h : 6.3e6 ≤ npNorm s.arr.pos) :
    ∃ s', s.update = .ok s' := by
  obtain ⟨c, hc⟩ := Option.ne_none_iff_exists'.1 hc
  obtain ⟨s', hs, -⟩ := C127_new s.arr c h
  exact ⟨s', by unfold SatState.update; rw [hc]; exact hs⟩

/-- A position over the pole, in an orbit of 500 km. -/
example : 6.3e6 ≤ npNorm (![0, 0, 6.878e6] : V3) := by
  have : npNorm (![0, 0, 6.878e6] : V3) = 6.878e6 := by
    simp only [npNorm, Fin.sum_univ_three]; simp; exact Real.sqrt_sq (by norm_num)
  rw [this]; norm_num

/-- C127: some bound is needed: at the centre of the Earth no state exists. -/
theorem C127_centre {n : ℕ} (a : Raw n) (c : JClock) (h : a.pos = 0) :
    SatState.new a (some c) = .error .zeroDivision := by
  have : inertialToEcef c.thetaGmst *ᵥ a.pos = ![0, 0, 0] := by
    rw [h, Matrix.mulVec_zero]; apply vec3_ext <;> rfl
  simp only [SatState.new, mkState, attrsOf, this, C17_centre]

end Adcs
