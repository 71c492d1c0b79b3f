import Verif.Proofs.OlsonStart
import Mathlib.Analysis.SpecialFunctions.Sqrt
import Mathlib.Analysis.SpecialFunctions.Trigonometric.Bounds

set_option autoImplicit false

/-! # The correction of the latitude estimate of `ecef_to_lla` -/

namespace Adcs

open Fr

namespace Olson

/-- Radius of curvature of the prime vertical and of the meridian. -/
noncomputable def N (ψ : ℝ) : ℝ := wgsA / Real.sqrt (1 - wgsE2 * Real.sin ψ ^ 2)
noncomputable def M (ψ : ℝ) : ℝ := wgsA6 * N ψ / (1 - wgsE2 * Real.sin ψ ^ 2)

theorem g_bounds (ψ : ℝ) : 0.9933 ≤ 1 - wgsE2 * Real.sin ψ ^ 2 ∧ 1 - wgsE2 * Real.sin ψ ^ 2 ≤ 1 := by
  have e0 := wgsE2_pos
  have e1 := wgsE2_lt
  have h := Real.sin_sq_le_one ψ
  have h0 := sq_nonneg (Real.sin ψ)
  have h2 := mul_nonneg e0.le h0
  norm_num at e1 ⊢
  exact ⟨by nlinarith, by linarith⟩

theorem g_pos (ψ : ℝ) : 0 < 1 - wgsE2 * Real.sin ψ ^ 2 := by
  have := (g_bounds ψ).1; norm_num at this; linarith

theorem N_bounds (ψ : ℝ) : 6378137 ≤ N ψ ∧ N ψ ≤ 6.3998e6 := by
  obtain ⟨h0, h1⟩ := g_bounds ψ
  have hG := Real.sqrt_pos.2 (g_pos ψ)
  have hG2 := Real.sq_sqrt (g_pos ψ).le
  have hG1 : Real.sqrt (1 - wgsE2 * Real.sin ψ ^ 2) ≤ 1 := Real.sqrt_le_one.2 h1
  have hG0 : 0.99664 ≤ Real.sqrt (1 - wgsE2 * Real.sin ψ ^ 2) :=
    Real.le_sqrt_of_sq_le (by norm_num at h0 ⊢; linarith)
  unfold N wgsA
  rw [le_div_iff₀ hG, div_le_iff₀ hG]
  norm_num at hG0 ⊢
  constructor <;> linarith

theorem hasDerivAt_N (ψ : ℝ) :
    HasDerivAt N (N ψ * wgsE2 * Real.sin ψ * Real.cos ψ / (1 - wgsE2 * Real.sin ψ ^ 2)) ψ := by
  have hg := g_pos ψ
  have hG := Real.sqrt_pos.2 hg
  have hG2 := Real.sq_sqrt hg.le
  have h1 : HasDerivAt (fun ψ => 1 - wgsE2 * Real.sin ψ ^ 2) (-(wgsE2 * (2 * Real.sin ψ * Real.cos ψ))) ψ := by
    have := (((Real.hasDerivAt_sin ψ).pow 2).const_mul wgsE2).const_sub 1
    simpa using this
  have := (hasDerivAt_const ψ wgsA).div (h1.sqrt hg.ne') hG.ne'
  refine this.congr_deriv ?_
  unfold N
  rw [hG2]
  field_simp
  ring

theorem hasDerivAt_X (ψ : ℝ) : HasDerivAt (fun ψ => N ψ * Real.cos ψ) (-(M ψ * Real.sin ψ)) ψ := by
  have hg := (g_pos ψ).ne'
  refine ((hasDerivAt_N ψ).mul (Real.hasDerivAt_cos ψ)).congr_deriv ?_
  unfold M wgsA6
  field_simp
  linear_combination (N ψ * wgsE2 * Real.sin ψ) * Real.sin_sq_add_cos_sq ψ

theorem hasDerivAt_Z (ψ : ℝ) : HasDerivAt (fun ψ => wgsA6 * N ψ * Real.sin ψ) (M ψ * Real.cos ψ) ψ := by
  have hg := (g_pos ψ).ne'
  refine (((hasDerivAt_N ψ).const_mul wgsA6).mul (Real.hasDerivAt_sin ψ)).congr_deriv ?_
  unfold M
  field_simp
  ring

theorem M_bounds (ψ : ℝ) : 6.33e6 ≤ M ψ ∧ M ψ ≤ 6.45e6 := by
  obtain ⟨h0, h1⟩ := g_bounds ψ
  obtain ⟨n0, n1⟩ := N_bounds ψ
  have e0 := wgsE2_pos
  have e1 := wgsE2_lt
  have hg := g_pos ψ
  unfold M wgsA6
  rw [le_div_iff₀ hg, div_le_iff₀ hg]
  norm_num at h0 h1 n0 n1 e1 ⊢
  constructor <;> nlinarith

theorem hasDerivAt_M (ψ : ℝ) : HasDerivAt M
    (3 * M ψ * wgsE2 * Real.sin ψ * Real.cos ψ / (1 - wgsE2 * Real.sin ψ ^ 2)) ψ := by
  have hg := (g_pos ψ).ne'
  have h1 : HasDerivAt (fun ψ => 1 - wgsE2 * Real.sin ψ ^ 2) (-(wgsE2 * (2 * Real.sin ψ * Real.cos ψ))) ψ := by
    have := (((Real.hasDerivAt_sin ψ).pow 2).const_mul wgsE2).const_sub 1
    simpa using this
  refine (((hasDerivAt_N ψ).const_mul wgsA6).div h1 hg).congr_deriv ?_
  unfold M
  field_simp
  ring

theorem M_lipschitz (ψ φ₀ : ℝ) : |M ψ - M φ₀| ≤ 66000 * |ψ - φ₀| := by
  have := convex_univ.norm_image_sub_le_of_norm_hasDerivWithin_le (f := M) (C := 66000)
    (fun x _ => (hasDerivAt_M x).hasDerivWithinAt) (fun x _ => ?_) (Set.mem_univ φ₀) (Set.mem_univ ψ)
  · simpa using this
  · obtain ⟨h0, h1⟩ := g_bounds x
    obtain ⟨m0, m1⟩ := M_bounds x
    have e0 := wgsE2_pos
    have e1 := wgsE2_lt
    have hg := g_pos x
    have hsc : |Real.sin x * Real.cos x| ≤ 1 / 2 := by
      rw [abs_le]
      constructor <;> nlinarith [Real.sin_sq_add_cos_sq x, sq_nonneg (Real.sin x + Real.cos x), sq_nonneg (Real.sin x - Real.cos x)]
    have hM : |3 * M x * wgsE2| ≤ 3 * 6.45e6 * 0.0067 := by
      norm_num at m0 m1 e1
      refine ab_of (by positivity) ?_
      norm_num
      nlinarith
    rw [Real.norm_eq_abs, abs_div, abs_of_pos hg, div_le_iff₀ hg,
      show 3 * M x * wgsE2 * Real.sin x * Real.cos x = 3 * M x * wgsE2 * (Real.sin x * Real.cos x) by ring]
    refine (ab_mul hM hsc).trans ?_
    norm_num at h0 ⊢
    linarith

/-- Components of the displacement on the ellipsoid along the tangent and the normal at `φ₀`. -/
theorem displacement {φ φ₀ d : ℝ} (hd : |φ - φ₀| ≤ d) :
    |(-Real.sin φ₀ * (N φ * Real.cos φ - N φ₀ * Real.cos φ₀) +
      Real.cos φ₀ * (wgsA6 * N φ * Real.sin φ - wgsA6 * N φ₀ * Real.sin φ₀)) - M φ₀ * Real.sin (φ - φ₀)|
        ≤ 66000 * d * d ∧
    |(Real.cos φ₀ * (N φ * Real.cos φ - N φ₀ * Real.cos φ₀) +
      Real.sin φ₀ * (wgsA6 * N φ * Real.sin φ - wgsA6 * N φ₀ * Real.sin φ₀)) - M φ₀ * (Real.cos (φ - φ₀) - 1)|
        ≤ 66000 * d * d * d := by
  have hd0 : 0 ≤ d := (abs_nonneg _).trans hd
  have hmem : φ ∈ Metric.closedBall φ₀ d := by rw [Metric.mem_closedBall, Real.dist_eq]; exact hd
  have hmem0 : φ₀ ∈ Metric.closedBall φ₀ d := Metric.mem_closedBall_self hd0
  have hs : ∀ ψ : ℝ, HasDerivAt (fun ψ => Real.sin (ψ - φ₀)) (Real.cos (ψ - φ₀)) ψ := fun ψ => by
    simpa using (Real.hasDerivAt_sin (ψ - φ₀)).comp_sub_const ψ φ₀
  have hc : ∀ ψ : ℝ, HasDerivAt (fun ψ => Real.cos (ψ - φ₀)) (-Real.sin (ψ - φ₀)) ψ := fun ψ => by
    simpa using (Real.hasDerivAt_cos (ψ - φ₀)).comp_sub_const ψ φ₀
  have hML : ∀ ψ ∈ Metric.closedBall φ₀ d, |M ψ - M φ₀| ≤ 66000 * d := fun ψ hψ => by
    rw [Metric.mem_closedBall, Real.dist_eq] at hψ
    exact (M_lipschitz ψ φ₀).trans (by linarith)
  constructor
  · have hD : ∀ ψ, HasDerivAt (fun ψ => (-Real.sin φ₀ * (N ψ * Real.cos ψ) + Real.cos φ₀ * (wgsA6 * N ψ * Real.sin ψ))
        - M φ₀ * Real.sin (ψ - φ₀)) ((M ψ - M φ₀) * Real.cos (ψ - φ₀)) ψ := fun ψ => by
      refine ((((hasDerivAt_X ψ).const_mul _).add ((hasDerivAt_Z ψ).const_mul _)).sub ((hs ψ).const_mul _)).congr_deriv ?_
      rw [Real.cos_sub]; ring
    have := (convex_closedBall φ₀ d).norm_image_sub_le_of_norm_hasDerivWithin_le (C := 66000 * d)
      (fun x _ => (hD x).hasDerivWithinAt) (fun x hx => ?_) hmem0 hmem
    · rw [Real.norm_eq_abs, Real.norm_eq_abs] at this
      refine le_trans (le_of_eq ?_) (this.trans (mul_le_mul_of_nonneg_left hd (by positivity)))
      congr 1
      simp only [sub_self, Real.sin_zero]; ring
    · rw [Real.norm_eq_abs]
      simpa using ab_mul (hML x hx) (Real.abs_cos_le_one (x - φ₀))
  · have hD : ∀ ψ, HasDerivAt (fun ψ => (Real.cos φ₀ * (N ψ * Real.cos ψ) + Real.sin φ₀ * (wgsA6 * N ψ * Real.sin ψ))
        - M φ₀ * Real.cos (ψ - φ₀)) (-((M ψ - M φ₀) * Real.sin (ψ - φ₀))) ψ := fun ψ => by
      refine ((((hasDerivAt_X ψ).const_mul _).add ((hasDerivAt_Z ψ).const_mul _)).sub ((hc ψ).const_mul _)).congr_deriv ?_
      rw [Real.sin_sub]; ring
    have := (convex_closedBall φ₀ d).norm_image_sub_le_of_norm_hasDerivWithin_le (C := 66000 * d * d)
      (fun x _ => (hD x).hasDerivWithinAt) (fun x hx => ?_) hmem0 hmem
    · rw [Real.norm_eq_abs, Real.norm_eq_abs] at this
      refine le_trans (le_of_eq ?_) (this.trans (mul_le_mul_of_nonneg_left hd (by positivity)))
      congr 1
      simp only [sub_self, Real.cos_zero]; ring
    · rw [Real.norm_eq_abs, abs_neg]
      refine ab_mul (hML x hx) ?_
      rw [Metric.mem_closedBall, Real.dist_eq] at hx
      exact Real.abs_sin_le_abs.trans hx

theorem trig_small {δ : ℝ} (h : |δ| ≤ 8e-6) :
    |Real.sin δ - δ * Real.cos δ| ≤ 6e-16 ∧ |Real.cos δ - 1 + δ * Real.sin δ / 2| ≤ 5e-21 ∧
      0.999 ≤ Real.cos δ ∧ |Real.sin δ| ≤ 8e-6 := by
  have h1 : |δ| ≤ 1 := h.trans (by norm_num)
  have hs := Real.sin_bound h1
  have hc := Real.cos_bound h1
  have h2 : |δ * δ| ≤ 8e-6 * 8e-6 := ab_mul h h
  have h3 := ab_mul h2 h
  have h4 := ab_mul h3 h
  have e4 : |δ| ^ 4 = |δ * δ * δ * δ| := by simp only [abs_mul]; ring
  rw [e4] at hc
  rw [show |δ| ^ 5 = |δ| ^ 4 * |δ| by ring, e4] at hs
  have hs' : |Real.sin δ - (δ - δ ^ 3 / 6)| ≤ 8e-6 * 8e-6 * 8e-6 * 8e-6 * 1 / 100 := hs.trans (by gcongr)
  have hc' : |Real.cos δ - (1 - δ ^ 2 / 2)| ≤ 8e-6 * 8e-6 * 8e-6 * 8e-6 * (5 / 96) := hc.trans (by gcongr)
  refine ⟨?_, ?_, ?_, Real.abs_sin_le_abs.trans h⟩
  · have := ab_add (ab_sub hs' (ab_mul h hc')) (ab_mul h3 (show |(1 / 3 : ℝ)| ≤ 1 / 3 by norm_num [abs_of_pos]))
    refine le_trans (le_of_eq ?_) (this.trans (by norm_num))
    congr 1; ring
  · have := ab_sub (ab_add hc' (ab_mul (ab_mul h hs') (show |(1 / 2 : ℝ)| ≤ 1 / 2 by norm_num [abs_of_pos])))
      (ab_mul h4 (show |(1 / 12 : ℝ)| ≤ 1 / 12 by norm_num [abs_of_pos]))
    refine le_trans (le_of_eq ?_) (this.trans (by norm_num))
    congr 1; ring
  · have a := (abs_le.1 hc').1
    have b := (abs_le.1 h2).2
    norm_num at a b ⊢
    nlinarith

/-- The correction: `m` and `f` are the tangential and normal offsets, `R` the distance to the centre of
curvature. -/
theorem newton {R δ E1 E2 h M₀ m f : ℝ} (hR : 6.3e6 ≤ R) (hRh : R ≤ 6.5e6 + |h|) (hδ : |δ| ≤ 8e-6)
    (h1 : |E1| ≤ 66000 * 8e-6 * 8e-6) (h2 : |E2| ≤ 66000 * 8e-6 * 8e-6 * 8e-6) (hM : M₀ + h = R)
    (hm : m = R * Real.sin δ + E1) (hf : f = h + R * (Real.cos δ - 1) + E2) :
    M₀ + f ≠ 0 ∧ |m / (M₀ + f) - δ| ≤ 8e-13 ∧ |f + m * (m / (M₀ + f)) / 2 - h| ≤ 1e-10 + 1e-20 * |h| := by
  obtain ⟨t1, t2, t3, t4⟩ := trig_small hδ
  have hR0 : 0 < R := by norm_num at hR; linarith
  have hD : M₀ + f = R * Real.cos δ + E2 := by rw [hf]; linear_combination hM
  have hE2 := (abs_le.1 h2).1
  have hDl : 0.998 * R ≤ M₀ + f := by
    rw [hD]; norm_num at hE2 t3 hR ⊢; nlinarith
  have hD0 : 0 < M₀ + f := by norm_num at hDl; nlinarith
  -- the error of the correction
  have hnum : |m - δ * (M₀ + f)| ≤ R * 6e-16 + 4.3e-6 := by
    have := ab_sub (ab_add (ab_mul (abs_of_pos hR0).le t1) h1) (ab_mul hδ h2)
    refine le_trans (le_of_eq ?_) (this.trans (by norm_num; linarith))
    rw [hm, hD]; congr 1; ring
  have e : (m / (M₀ + f) - δ) * (M₀ + f) = m - δ * (M₀ + f) := by field_simp
  have hε : 0.998 * R * |m / (M₀ + f) - δ| ≤ R * 6e-16 + 4.3e-6 := by
    rw [← e, abs_mul, abs_of_pos hD0] at hnum
    have := mul_le_mul_of_nonneg_left hDl (abs_nonneg (m / (M₀ + f) - δ))
    linarith
  set ε := m / (M₀ + f) - δ with hεd
  have hp : m / (M₀ + f) = δ + ε := by rw [hεd]; ring
  have hεb : |ε| ≤ 8e-13 := by
    by_contra hc
    push Not at hc
    have : 0.998 * R * 8e-13 < 0.998 * R * |ε| := mul_lt_mul_of_pos_left hc (by positivity)
    norm_num at hR hε this
    linarith
  refine ⟨hD0.ne', hεb, ?_⟩
  rw [hp]
  have hRε : |R * ε| ≤ R * 6.1e-16 + 4.4e-6 := by
    rw [abs_mul, abs_of_pos hR0]; norm_num at hε ⊢; linarith
  have hpb : |δ + ε| ≤ 8.1e-6 := (ab_add hδ hεb).trans (by norm_num)
  have half : |(1 / 2 : ℝ)| ≤ 1 / 2 := by norm_num [abs_of_pos]
  have := ab_add (ab_add (ab_add (ab_mul (abs_of_pos hR0).le t2) h2) (ab_mul (ab_mul t4 half) hRε))
    (ab_mul (ab_mul h1 hpb) half)
  refine le_trans (le_of_eq ?_) (this.trans ?_)
  · rw [hf, hm]; congr 1; ring
  · norm_num at hRh ⊢
    linarith

/-- Latitude and height of the point at geodetic latitude `φ` and height `h`, northern hemisphere. -/
theorem core {φ h : ℝ} (h0 : 0 ≤ φ) (h1 : φ ≤ Real.pi / 2) (hh : -10000 ≤ h) :
    ∃ lat ht, llaCore ((N φ + h) * Real.cos φ) ((N φ * (1 - wgsE2) + h) * Real.sin φ) = .ok (lat, ht) ∧
      |lat - φ| ≤ 8e-13 ∧ |ht - h| ≤ 1e-10 + 1e-20 * |h| := by
  obtain ⟨φ₀, hφ0, hφ1, hd, hst⟩ := start h0 h1 hh
  have hS0 : 0 ≤ Real.sin φ := Real.sin_nonneg_of_nonneg_of_le_pi h0 (by linarith [Real.pi_pos])
  have hz : 0 ≤ (N φ * (1 - wgsE2) + h) * Real.sin φ := by
    have := (N_bounds φ).1
    have e1 := wgsE2_lt
    norm_num at e1
    exact mul_nonneg (by nlinarith) hS0
  change llaStart ((N φ + h) * Real.cos φ) ((N φ * (1 - wgsE2) + h) * Real.sin φ) = _ at hst
  obtain ⟨d1, d2⟩ := displacement hd
  set E1 := _ - M φ₀ * Real.sin (φ - φ₀) with hE1
  set E2 := _ - M φ₀ * (Real.cos (φ - φ₀) - 1) with hE2
  obtain ⟨m0, m1⟩ := M_bounds φ₀
  have hsc0 := Real.sin_sq_add_cos_sq φ₀
  obtain ⟨n1, n2, n3⟩ := newton (R := M φ₀ + h) (δ := φ - φ₀) (h := h) (M₀ := M φ₀)
    (m := Real.cos φ₀ * ((N φ * (1 - wgsE2) + h) * Real.sin φ - wgsA6 * N φ₀ * Real.sin φ₀) -
      Real.sin φ₀ * ((N φ + h) * Real.cos φ - N φ₀ * Real.cos φ₀))
    (f := Real.cos φ₀ * ((N φ + h) * Real.cos φ - N φ₀ * Real.cos φ₀) +
      Real.sin φ₀ * ((N φ * (1 - wgsE2) + h) * Real.sin φ - wgsA6 * N φ₀ * Real.sin φ₀))
    (by norm_num at m0 ⊢; linarith) (by norm_num at m1 ⊢; linarith [le_abs_self h]) hd d1 d2 rfl
    (by rw [hE1, Real.sin_sub]; unfold wgsA6; ring)
    (by rw [hE2, Real.cos_sub]; unfold wgsA6; ring)
  simp only [llaCore, hst, abs_of_nonneg hz, ← sq]
  have eN : wgsA / Real.sqrt (1 - wgsE2 * Real.sin φ₀ ^ 2) = N φ₀ := rfl
  have eM : wgsA6 * N φ₀ / (1 - wgsE2 * Real.sin φ₀ ^ 2) = M φ₀ := rfl
  simp only [eN, eM, if_neg n1]
  refine ⟨_, _, rfl, ?_, n3⟩
  refine le_trans (le_of_eq ?_) n2
  congr 1
  ring

end Olson

end Adcs
