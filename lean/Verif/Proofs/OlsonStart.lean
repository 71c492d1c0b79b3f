import Verif.Proofs.OlsonHigh
import Mathlib.Analysis.Calculus.Deriv.MeanValue

set_option autoImplicit false

/-! # The first latitude estimate of `ecef_to_lla` -/

namespace Adcs

open Fr

namespace Olson

/-- Angles in the first quadrant with nearby sines. -/
theorem angle_of_sin {a b m K : ℝ} (ha0 : 0 ≤ a) (ha : a ≤ Real.pi / 2) (hb0 : 0 ≤ b) (hb : b ≤ Real.pi / 2)
    (hm : 0 < m) (hca : m ≤ Real.cos a) (hcb : m ≤ Real.cos b) (h : |Real.sin a - Real.sin b| ≤ K) :
    |a - b| ≤ K / m := by
  have key : ∀ u v : ℝ, 0 ≤ u → v ≤ Real.pi / 2 → u < v → m ≤ Real.cos v →
      m * (v - u) ≤ Real.sin v - Real.sin u := by
    intro u v hu hv huv hc
    obtain ⟨c, hc1, hc2⟩ := exists_hasDerivAt_eq_slope Real.sin Real.cos huv Real.continuous_sin.continuousOn
      (fun x _ => Real.hasDerivAt_sin x)
    have hvu : 0 < v - u := by linarith
    rw [eq_div_iff hvu.ne'] at hc2
    rw [← hc2]
    have : Real.cos v ≤ Real.cos c :=
      Real.cos_le_cos_of_nonneg_of_le_pi (by linarith [hc1.1]) (by linarith [Real.pi_pos]) hc1.2.le
    nlinarith
  rw [le_div_iff₀ hm]
  obtain ⟨h1, h2⟩ := abs_le.1 h
  rcases lt_trichotomy a b with hab | rfl | hab
  · have := key a b ha0 hb hab hcb
    rw [abs_of_neg (by linarith)]; linarith
  · have := abs_nonneg (Real.sin a - Real.sin a); simp at *; linarith
  · have := key b a hb0 ha hab hca
    rw [abs_of_pos (by linarith)]; linarith

/-- Length of the normal down to the axis, in units of `a`, and the ratio behind the series. -/
theorem normal_bounds {σ h : ℝ} (hs0 : 0 ≤ σ) (hs1 : σ ≤ 1) (hh : -10000 ≤ h) :
    let G := Real.sqrt (1 - wgsE2 * σ)
    let ρ := wgsA / G + h
    0.99 ≤ G ∧ G ≤ 1 ∧ G ^ 2 = 1 - wgsE2 * σ ∧ 6.36e6 ≤ ρ ∧ 0 ≤ wgsE2 * (wgsA / G) / ρ ∧
      wgsE2 * (wgsA / G) / ρ ≤ 0.00672 := by
  intro G ρ
  have e0 := wgsE2_pos
  have e1 := wgsE2_lt
  have h1 : wgsE2 * σ ≤ 0.0067 := by nlinarith
  have h2 : 0 ≤ wgsE2 * σ := by positivity
  have hG2 : G ^ 2 = 1 - wgsE2 * σ := Real.sq_sqrt (by norm_num at h1; linarith)
  have hG0 : 0 ≤ G := Real.sqrt_nonneg _
  have hG : 0.99 ≤ G := by norm_num at h1 ⊢; nlinarith
  have hG1 : G ≤ 1 := by nlinarith
  have hGp : 0 < G := by norm_num at hG; linarith
  have hN : 6378137 ≤ wgsA / G := by
    rw [le_div_iff₀ hGp]; unfold wgsA; linarith
  have hρ : 6.36e6 ≤ ρ := by norm_num; simp only [ρ]; linarith
  have hρ0 : 0 < ρ := by norm_num at hρ; linarith
  refine ⟨hG, hG1, hG2, hρ, by positivity, ?_⟩
  rw [div_le_iff₀ hρ0]
  simp only [ρ]
  norm_num at e1 ⊢
  nlinarith

theorem low_angle {φ B : ℝ} (h0 : 0 ≤ φ) (h1 : φ ≤ Real.pi / 2) (hC2 : 0.294 ≤ Real.cos φ ^ 2)
    (hB : |B - 1| ≤ 4.4e-6) :
    0 ≤ Real.sin φ * B ∧ Real.sin φ * B ≤ 1 ∧ |φ - Real.arcsin (Real.sin φ * B)| ≤ 8e-6 := by
  have hpi := Real.pi_pos
  have hS0 : 0 ≤ Real.sin φ := Real.sin_nonneg_of_nonneg_of_le_pi h0 (by linarith)
  have hC0 : 0 ≤ Real.cos φ := Real.cos_nonneg_of_neg_pi_div_two_le_of_le (by linarith) h1
  have hSC := Real.sin_sq_add_cos_sq φ
  set S := Real.sin φ with hS
  have hSb : S ≤ 0.8403 := by norm_num at hC2 ⊢; nlinarith
  have hBb := abs_le.1 hB
  have hd : |S - S * B| ≤ 3.7e-6 := by
    have : |S * (B - 1)| ≤ 0.8403 * 4.4e-6 := ab_mul (ab_of hS0 hSb) hB
    rw [← abs_neg]
    refine le_trans (le_of_eq ?_) (this.trans (by norm_num))
    congr 1; ring
  have hs0 : 0 ≤ S * B := mul_nonneg hS0 (by norm_num at hBb; linarith [hBb.1])
  have hs1 : S * B ≤ 0.8404 := by
    have := (abs_le.1 hd).1; norm_num at hSb this ⊢; linarith
  have hs1' : S * B ≤ 1 := by norm_num at hs1; linarith
  have hsin := Real.sin_arcsin (show -1 ≤ S * B by linarith) hs1'
  refine ⟨hs0, hs1', (angle_of_sin (m := 0.54) (K := 3.7e-6) h0 h1 (Real.arcsin_nonneg.2 hs0)
    (Real.arcsin_le_pi_div_two _) (by norm_num) ?_ ?_ (by rw [hsin]; exact hd)).trans (by norm_num)⟩
  · norm_num at hC2 ⊢; nlinarith
  · rw [Real.cos_arcsin]
    apply Real.le_sqrt_of_sq_le
    norm_num at hs1 ⊢; nlinarith

theorem high_angle {φ B : ℝ} (h0 : 0 ≤ φ) (h1 : φ ≤ Real.pi / 2) (hC2 : Real.cos φ ^ 2 ≤ 0.3)
    (hB : |B - 1| ≤ 8e-6) :
    0 ≤ Real.cos φ * B ∧ Real.cos φ * B ≤ 1 ∧ |φ - Real.arccos (Real.cos φ * B)| ≤ 8e-6 := by
  have hpi := Real.pi_pos
  have hS0 : 0 ≤ Real.sin φ := Real.sin_nonneg_of_nonneg_of_le_pi h0 (by linarith)
  have hC0 : 0 ≤ Real.cos φ := Real.cos_nonneg_of_neg_pi_div_two_le_of_le (by linarith) h1
  have hSC := Real.sin_sq_add_cos_sq φ
  set C := Real.cos φ with hC
  have hCb : C ≤ 0.55 := by norm_num at hC2 ⊢; nlinarith
  have hBb := abs_le.1 hB
  have hd : |C - C * B| ≤ 4.4e-6 := by
    have : |C * (B - 1)| ≤ 0.55 * 8e-6 := ab_mul (ab_of hC0 hCb) hB
    rw [← abs_neg]
    refine le_trans (le_of_eq ?_) (this.trans (by norm_num))
    congr 1; ring
  have hs0 : 0 ≤ C * B := mul_nonneg hC0 (by norm_num at hBb; linarith [hBb.1])
  have hs1 : C * B ≤ 0.551 := by
    have := (abs_le.1 hd).1; norm_num at hCb this ⊢; linarith
  have hs1' : C * B ≤ 1 := by norm_num at hs1; linarith
  have hcos := Real.cos_arccos (show -1 ≤ C * B by linarith) hs1'
  have hle : Real.arccos (C * B) ≤ Real.pi / 2 := Real.arccos_le_pi_div_two.2 hs0
  refine ⟨hs0, hs1', ?_⟩
  have := angle_of_sin (a := Real.pi / 2 - φ) (b := Real.pi / 2 - Real.arccos (C * B)) (m := 0.8) (K := 4.4e-6)
    (by linarith) (by linarith) (by linarith) (by linarith [Real.arccos_nonneg (C * B)]) (by norm_num)
    (by rw [Real.cos_pi_div_two_sub]; norm_num at hC2 ⊢; nlinarith)
    (by
      rw [Real.cos_pi_div_two_sub, Real.sin_arccos]
      apply Real.le_sqrt_of_sq_le
      norm_num at hs1 ⊢; nlinarith)
    (by rw [Real.sin_pi_div_two_sub, Real.sin_pi_div_two_sub, hcos]; exact hd)
  rw [← abs_neg]
  refine le_trans (le_of_eq ?_) (this.trans (by norm_num))
  congr 1; ring

theorem q_bounds {x σ : ℝ} (hx0 : 0 ≤ x) (hx : x ≤ 0.00672) (hs0 : 0 ≤ σ) (hs1 : σ ≤ 1) :
    0.98 ≤ 1 - 2 * x * σ + x ^ 2 * σ ∧ 1 - 2 * x * σ + x ^ 2 * σ ≤ 1 := by
  have h1 : x * σ ≤ 0.00672 := by nlinarith
  have h2 : 0 ≤ x * σ := mul_nonneg hx0 hs0
  have h3 : x ^ 2 * σ ≤ x * σ := by nlinarith
  have h4 : 0 ≤ x ^ 2 * σ := by positivity
  norm_num at h1 ⊢
  constructor <;> linarith

theorem c2_lower {C q : ℝ} (hq : 0 < q) (h1 : 0.98 ≤ q ^ 2) (h : C ^ 2 * (1 / q) ^ 2 > 0.3) : 0.294 ≤ C ^ 2 := by
  have e : C ^ 2 = C ^ 2 * (1 / q) ^ 2 * q ^ 2 := by field_simp
  rw [e]
  calc (0.294 : ℝ) = 0.3 * 0.98 := by norm_num
    _ ≤ _ := mul_le_mul h.le h1 (by norm_num) (by positivity)

theorem c2_upper {C q : ℝ} (hq : 0 < q) (h1 : q ^ 2 ≤ 1) (h : ¬ C ^ 2 * (1 / q) ^ 2 > 0.3) : C ^ 2 ≤ 0.3 := by
  have e : C ^ 2 = C ^ 2 * (1 / q) ^ 2 * q ^ 2 := by field_simp
  rw [e]
  calc _ ≤ (0.3 : ℝ) * 1 := mul_le_mul (not_lt.1 h) h1 (by positivity) (by norm_num)
    _ = 0.3 := by norm_num

/-- The first estimate of the latitude of the point at geodetic latitude `φ` and height `h`. -/
theorem start {φ h : ℝ} (h0 : 0 ≤ φ) (h1 : φ ≤ Real.pi / 2) (hh : -10000 ≤ h) :
    let N := wgsA / Real.sqrt (1 - wgsE2 * Real.sin φ ^ 2)
    ∃ φ₀, 0 ≤ φ₀ ∧ φ₀ ≤ Real.pi / 2 ∧ |φ - φ₀| ≤ 8e-6 ∧
      llaStart ((N + h) * Real.cos φ) ((N * (1 - wgsE2) + h) * Real.sin φ) =
        .ok (Real.sin φ₀, Real.cos φ₀, Real.sin φ₀ * Real.sin φ₀, φ₀) := by
  intro N
  have hpi := Real.pi_pos
  have hS0 : 0 ≤ Real.sin φ := Real.sin_nonneg_of_nonneg_of_le_pi h0 (by linarith)
  have hC0 : 0 ≤ Real.cos φ := Real.cos_nonneg_of_neg_pi_div_two_le_of_le (by linarith) h1
  have hSC := Real.sin_sq_add_cos_sq φ
  have hy0 := wgsE2_pos
  have hy1 := wgsE2_lt
  obtain ⟨hG, hG1, hG2, hρ, hx0, hx⟩ := normal_bounds (sq_nonneg (Real.sin φ)) (by nlinarith [sq_nonneg (Real.cos φ)]) hh
  set S := Real.sin φ with hS
  set C := Real.cos φ with hC
  set G := Real.sqrt (1 - wgsE2 * S ^ 2) with hGd
  set ρ := wgsA / G + h with hρd
  set x := wgsE2 * (wgsA / G) / ρ with hxd
  have hρ0 : 0 < ρ := by norm_num at hρ; linarith
  have hG0 : 0 < G := by norm_num at hG; linarith
  have hw : (N + h) * C = ρ * C := rfl
  have hxρ : x * ρ = wgsE2 * (wgsA / G) := div_mul_cancel₀ _ hρ0.ne'
  have hz : (N * (1 - wgsE2) + h) * S = ρ * (1 - x) * S := by
    simp only [N]; linear_combination S * hxρ
  rw [hw, hz]
  have hx1 : 0 < 1 - x := by norm_num at hx; linarith
  obtain ⟨hqge, hqle⟩ := q_bounds hx0 hx (sq_nonneg S) (by nlinarith [sq_nonneg C])
  have hq : 0 < 1 - 2 * x * S ^ 2 + x ^ 2 * S ^ 2 := by norm_num at hqge; linarith
  set q := Real.sqrt (1 - 2 * x * S ^ 2 + x ^ 2 * S ^ 2) with hqd
  have hq0 : 0 < q := Real.sqrt_pos.2 hq
  have hq2 : q ^ 2 = 1 - 2 * x * S ^ 2 + x ^ 2 * S ^ 2 := Real.sq_sqrt hq.le
  rw [← hq2] at hqge hqle
  have hQ0 : 0 < 1 / q := by positivity
  have hQ2 : (1 / q) ^ 2 * (1 - 2 * x * S ^ 2 + x ^ 2 * S ^ 2) = 1 := by
    rw [← hq2]; field_simp
  have hr2 : ρ * (1 - x) * S * (ρ * (1 - x) * S) + ρ * C * (ρ * C) = (ρ * q) ^ 2 := by
    rw [mul_pow, hq2]; linear_combination ρ ^ 2 * hSC
  have hr : Real.sqrt ((ρ * q) ^ 2) = ρ * q := Real.sqrt_sq (by positivity)
  have hrp : 0 < ρ * q := by positivity
  have hA1 : wgsA1 / (ρ * q) = x * (G * (1 / q)) := by
    unfold wgsA1; rw [hxd]; field_simp
  have hs2 : ρ * (1 - x) * S * (ρ * (1 - x) * S) / (ρ * q) ^ 2 = S ^ 2 * ((1 - x) * (1 / q)) ^ 2 := by
    field_simp
  have hc2 : ρ * C * (ρ * C) / (ρ * q) ^ 2 = C ^ 2 * (1 / q) ^ 2 := by field_simp
  have hzr : |ρ * (1 - x) * S| / (ρ * q) = S * ((1 - x) * (1 / q)) := by
    rw [abs_of_nonneg (by positivity)]; field_simp
  have hwr : ρ * C / (ρ * q) = C * (1 / q) := by field_simp
  have hlow := series_low (A := (1 - x) * (1 / q)) (t := wgsA1 / (ρ * q)) hx0 hx hy0.le (by norm_num at hy1 ⊢; linarith)
    (sq_nonneg S) (sq_nonneg C) hSC hQ0 hG0.le hQ2 hG2 rfl hA1
  have hhigh := series_high (A := (1 - x) * (1 / q)) (t := wgsA1 / (ρ * q)) hx0 hx hy0.le (by norm_num at hy1 ⊢; linarith)
    (sq_nonneg S) (sq_nonneg C) hSC hQ0 hG0.le hQ2 hG2 rfl hA1
  rw [llaStart]
  simp only [hr2, hr, if_neg hrp.ne', hs2, hc2, hzr, hwr]
  by_cases hcc : C ^ 2 * (1 / q) ^ 2 > 0.3
  · rw [if_pos hcc]
    have es : S * ((1 - x) * (1 / q)) * (1 + C ^ 2 * (1 / q) ^ 2 *
        (wgsA1 + wgsA2 / (ρ * q) + S ^ 2 * ((1 - x) * (1 / q)) ^ 2 * (wgsA3 - wgsA4 / (ρ * q))) / (ρ * q)) =
        S * ((1 - x) * (1 / q) * (1 + C ^ 2 * (1 / q) ^ 2 * (wgsA1 / (ρ * q) + (wgsA1 / (ρ * q)) ^ 2 +
          S ^ 2 * ((1 - x) * (1 / q)) ^ 2 *
            (wgsE2 * (wgsA1 / (ρ * q)) / 2 - 2.5 * (wgsA1 / (ρ * q)) ^ 2)))) := by
      simp only [wgsA2, wgsA3, wgsA4]; ring
    rw [es]
    set B := (1 - x) * (1 / q) * (1 + C ^ 2 * (1 / q) ^ 2 * (wgsA1 / (ρ * q) + (wgsA1 / (ρ * q)) ^ 2 +
          S ^ 2 * ((1 - x) * (1 / q)) ^ 2 *
            (wgsE2 * (wgsA1 / (ρ * q)) / 2 - 2.5 * (wgsA1 / (ρ * q)) ^ 2))) with hB
    obtain ⟨hs0, hs1, hd⟩ := low_angle h0 h1 (c2_lower hq0 hqge hcc) hlow
    rw [if_neg (not_or.2 ⟨not_lt.2 ((by norm_num : (-1:ℝ) ≤ 0).trans hs0), not_lt.2 hs1⟩)]
    refine ⟨Real.arcsin (S * B), Real.arcsin_nonneg.2 hs0, Real.arcsin_le_pi_div_two _, hd, ?_⟩
    rw [Real.sin_arcsin ((by norm_num : (-1:ℝ) ≤ 0).trans hs0) hs1, Real.cos_arcsin, sq]
  · rw [if_neg hcc]
    have es : C * (1 / q) * (1 - S ^ 2 * ((1 - x) * (1 / q)) ^ 2 *
        (wgsA5 - wgsA2 / (ρ * q) - C ^ 2 * (1 / q) ^ 2 * (wgsA3 - wgsA4 / (ρ * q))) / (ρ * q)) =
        C * (1 / q * (1 - S ^ 2 * ((1 - x) * (1 / q)) ^ 2 * (wgsA1 / (ρ * q) + wgsE2 * (wgsA1 / (ρ * q)) / 2 -
          (wgsA1 / (ρ * q)) ^ 2 - C ^ 2 * (1 / q) ^ 2 *
            (wgsE2 * (wgsA1 / (ρ * q)) / 2 - 2.5 * (wgsA1 / (ρ * q)) ^ 2)))) := by
      simp only [wgsA2, wgsA3, wgsA4, wgsA5]; ring
    rw [es]
    set B := 1 / q * (1 - S ^ 2 * ((1 - x) * (1 / q)) ^ 2 * (wgsA1 / (ρ * q) + wgsE2 * (wgsA1 / (ρ * q)) / 2 -
          (wgsA1 / (ρ * q)) ^ 2 - C ^ 2 * (1 / q) ^ 2 *
            (wgsE2 * (wgsA1 / (ρ * q)) / 2 - 2.5 * (wgsA1 / (ρ * q)) ^ 2))) with hB
    obtain ⟨hs0, hs1, hd⟩ := high_angle h0 h1 (c2_upper hq0 hqle hcc) hhigh
    rw [if_neg (not_or.2 ⟨not_lt.2 ((by norm_num : (-1:ℝ) ≤ 0).trans hs0), not_lt.2 hs1⟩)]
    refine ⟨Real.arccos (C * B), Real.arccos_nonneg _, Real.arccos_le_pi_div_two.2 hs0, hd, ?_⟩
    have hsq : Real.sqrt (1 - (C * B) ^ 2) * Real.sqrt (1 - (C * B) ^ 2) = 1 - C * B * (C * B) := by
      rw [Real.mul_self_sqrt (sub_nonneg.2 (pow_le_one₀ hs0 hs1))]; ring
    rw [Real.sin_arccos, Real.cos_arccos ((by norm_num : (-1:ℝ) ≤ 0).trans hs0) hs1, hsq, ← sq]

end Olson

end Adcs
