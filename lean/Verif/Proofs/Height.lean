import Verif.Props.Geodetic
import Mathlib.Analysis.SpecialFunctions.Trigonometric.Bounds

set_option autoImplicit false

/-! # Lemmas on the geodetic conversion away from the centre of the Earth -/

namespace Adcs

open Fr Vec

theorem prod_quarter {k q : ℝ} (hkq : k ^ 2 + q ^ 2 = 1) : q ^ 2 * k ^ 2 ≤ 1 / 4 := by
  nlinarith [sq_nonneg (q ^ 2 - k ^ 2)]

/-- Branch away from the poles. -/
theorem low_lat {k q x T : ℝ} (hk0 : 0 ≤ k) (hq0 : 0 ≤ q) (hkq : k ^ 2 + q ^ 2 = 1) (hc : 0.3 < q ^ 2)
    (hx0 : 0 ≤ x) (hx1 : x ≤ q ^ 2 * T) (hT1 : T ≤ 0.00686) :
    (k * (1 + x)) ^ 2 < 1 ∧ k ≤ k * (1 + x) ∧ k * (1 + x) ≤ 1.2 * k ∧
    Real.sqrt (1 - k * (1 + x) * (k * (1 + x))) ≤ q ∧ (k * (1 + x) - k) ^ 2
      + (Real.sqrt (1 - k * (1 + x) * (k * (1 + x))) - q) ^ 2 ≤ (43400 / 43200 * T) ^ 2 := by
  have hqk := prod_quarter hkq
  have hx2 : x ≤ 0.00686 := by nlinarith
  have hk7 : k ^ 2 ≤ 0.7 := by linarith
  have hs1 : (k * (1 + x)) ^ 2 < 1 := by
    have : (1 + x) ^ 2 ≤ 1.1 := by nlinarith
    rw [mul_pow]; nlinarith [sq_nonneg k]
  refine ⟨hs1, by nlinarith, by nlinarith, ?_⟩
  have hcc : Real.sqrt (1 - k * (1 + x) * (k * (1 + x))) ^ 2 = 1 - (k * (1 + x)) ^ 2 := by
    rw [Real.sq_sqrt (by nlinarith)]; ring
  have hc0 := Real.sqrt_nonneg (1 - k * (1 + x) * (k * (1 + x)))
  generalize Real.sqrt (1 - k * (1 + x) * (k * (1 + x))) = c at *
  have hqpos : 0 < q := by
    rcases hq0.lt_or_eq with h | h
    · exact h
    · rw [← h] at hc; norm_num at hc
  have hd : (q - c) * (q + c) = k ^ 2 * (2 * x + x ^ 2) := by
    linear_combination hkq - hcc
  have hqc : 0 ≤ q - c := by
    have : 0 ≤ (q - c) * (q + c) := by rw [hd]; positivity
    exact nonneg_of_mul_nonneg_left this (by linarith)
  refine ⟨by linarith, ?_⟩
  have hd1 : q - c ≤ 2.007 * k ^ 2 * T * q := by
    have h1 : q * (q - c) ≤ q * (2.007 * k ^ 2 * T * q) := by
      calc q * (q - c) ≤ (q - c) * (q + c) := by nlinarith
        _ = k ^ 2 * (2 * x + x ^ 2) := hd
        _ ≤ k ^ 2 * (2.007 * (q ^ 2 * T)) := by
            refine mul_le_mul_of_nonneg_left ?_ (by positivity)
            nlinarith
        _ = _ := by ring
    exact le_of_mul_le_mul_left h1 hqpos
  have hd2 : k * (1 + x) - k ≤ k * (q ^ 2 * T) := by
    have := mul_le_mul_of_nonneg_left hx1 hk0
    linarith
  have hsk : 0 ≤ k * (1 + x) - k := by have := mul_nonneg hk0 hx0; linarith
  have b1 := pow_le_pow_left₀ hsk hd2 2
  have b2 : (c - q) ^ 2 ≤ (2.007 * k ^ 2 * T * q) ^ 2 := by
    rw [show (c - q) ^ 2 = (q - c) ^ 2 by ring]; exact pow_le_pow_left₀ hqc hd1 2
  have b3 : (k * (q ^ 2 * T)) ^ 2 + (2.007 * k ^ 2 * T * q) ^ 2
      ≤ 2.007 ^ 2 * T ^ 2 * (q ^ 2 * k ^ 2) := by
    have : 2.007 ^ 2 * T ^ 2 * (q ^ 2 * k ^ 2)
        = 2.007 ^ 2 * T ^ 2 * (q ^ 2 * k ^ 2) * (k ^ 2 + q ^ 2) := by rw [hkq, mul_one]
    rw [this]
    have : 0 ≤ (q ^ 2 * k * T) ^ 2 := sq_nonneg _
    linarith
  have b4 : 2.007 ^ 2 * T ^ 2 * (q ^ 2 * k ^ 2) ≤ 2.007 ^ 2 * T ^ 2 * (1 / 4) :=
    mul_le_mul_of_nonneg_left hqk (by positivity)
  have b5 : 0 ≤ T ^ 2 := sq_nonneg T
  rw [mul_pow]
  linarith

/-- Branch near the poles. -/
theorem high_lat {k q x T : ℝ} (hk0 : 0 ≤ k) (hq0 : 0 ≤ q) (hkq : k ^ 2 + q ^ 2 = 1) (hc : q ^ 2 ≤ 0.3)
    (hx0 : 0 ≤ x) (hx1 : x ≤ k ^ 2 * T) (hT1 : T ≤ 0.00686) :
    0 ≤ q * (1 - x) ∧ (q * (1 - x)) ^ 2 < 1 ∧ q * (1 - x) ≤ q ∧
    k ≤ Real.sqrt (1 - q * (1 - x) * (q * (1 - x))) ∧
    Real.sqrt (1 - q * (1 - x) * (q * (1 - x))) ≤ 1.2 * k ∧ (Real.sqrt (1 - q * (1 - x) * (q * (1 - x))) - k) ^ 2
      + (q * (1 - x) - q) ^ 2 ≤ (43400 / 43200 * T) ^ 2 := by
  have hqk := prod_quarter hkq
  have hk1 : k ^ 2 ≤ 1 := by nlinarith [sq_nonneg q]
  have hx2 : x ≤ 0.00686 := by nlinarith
  have hc0 : 0 ≤ q * (1 - x) := mul_nonneg hq0 (by linarith)
  have hcq : q * (1 - x) ≤ q := by have := mul_nonneg hq0 hx0; linarith
  have hc1 : (q * (1 - x)) ^ 2 < 1 := by
    have := pow_le_pow_left₀ hc0 hcq 2; linarith
  refine ⟨hc0, hc1, hcq, ?_⟩
  have hcc : Real.sqrt (1 - q * (1 - x) * (q * (1 - x))) ^ 2 = 1 - (q * (1 - x)) ^ 2 := by
    rw [Real.sq_sqrt (by linarith)]; ring
  have hs0 := Real.sqrt_nonneg (1 - q * (1 - x) * (q * (1 - x)))
  generalize Real.sqrt (1 - q * (1 - x) * (q * (1 - x))) = s at *
  have hkpos : 0 < k := by
    rcases hk0.lt_or_eq with h | h
    · exact h
    · rw [← h] at hkq; linarith
  have hd : (s - k) * (s + k) = q ^ 2 * (2 * x - x ^ 2) := by
    linear_combination hcc - hkq
  have hsk : 0 ≤ s - k := by
    have : 0 ≤ (s - k) * (s + k) := by
      rw [hd]; apply mul_nonneg (sq_nonneg q); nlinarith
    exact nonneg_of_mul_nonneg_left this (by linarith)
  refine ⟨by linarith, ?_, ?_⟩
  · nlinarith [sq_nonneg (q * (1 - x))]
  have hd1 : s - k ≤ q ^ 2 * T * k := by
    have h1 : (2 * k) * (s - k) ≤ (2 * k) * (q ^ 2 * T * k) := by
      calc (2 * k) * (s - k) ≤ (s - k) * (s + k) := by nlinarith
        _ = q ^ 2 * (2 * x - x ^ 2) := hd
        _ ≤ q ^ 2 * (2 * (k ^ 2 * T)) := by
            refine mul_le_mul_of_nonneg_left ?_ (by positivity)
            nlinarith
        _ = _ := by ring
    exact le_of_mul_le_mul_left h1 (by linarith)
  have hd2 : q - q * (1 - x) ≤ q * (k ^ 2 * T) := by
    have := mul_le_mul_of_nonneg_left hx1 hq0
    linarith
  have hqc : 0 ≤ q - q * (1 - x) := by linarith
  have b1 : (s - k) ^ 2 ≤ (q ^ 2 * T * k) ^ 2 := pow_le_pow_left₀ hsk hd1 2
  have b2 : (q * (1 - x) - q) ^ 2 ≤ (q * (k ^ 2 * T)) ^ 2 := by
    rw [show (q * (1 - x) - q) ^ 2 = (q - q * (1 - x)) ^ 2 by ring]; exact pow_le_pow_left₀ hqc hd2 2
  have b3 : (q ^ 2 * T * k) ^ 2 + (q * (k ^ 2 * T)) ^ 2 = T ^ 2 * (q ^ 2 * k ^ 2) := by
    linear_combination (T ^ 2 * (q ^ 2 * k ^ 2)) * hkq
  have b4 : T ^ 2 * (q ^ 2 * k ^ 2) ≤ T ^ 2 * (1 / 4) :=
    mul_le_mul_of_nonneg_left hqk (by positivity)
  have b5 : 0 ≤ T ^ 2 := sq_nonneg T
  rw [mul_pow]
  linarith

theorem wgs_bounds {r : ℝ} (h : 6.3e6 ≤ r) :
    (42695 ≤ wgsA1 ∧ wgsA1 ≤ 42734) ∧ (0 ≤ wgsA3 ∧ wgsA3 ≤ 144) ∧
    (0 ≤ wgsA2 / r ∧ wgsA2 / r ≤ 290) ∧ (-725 ≤ wgsA3 - wgsA4 / r ∧ wgsA3 - wgsA4 / r ≤ 144) := by
  have hr0 : 0 < r := by linarith
  have e1 := wgsE2_lt
  have e0 := wgsE2_gt
  have hA1 : 42695 ≤ wgsA1 ∧ wgsA1 ≤ 42734 := by
    unfold wgsA1 wgsA; constructor <;> linarith
  have hA2 : 0 ≤ wgsA2 ∧ wgsA2 ≤ 1.8262e9 := by
    unfold wgsA2; constructor <;> nlinarith
  have hA3 : 0 ≤ wgsA3 ∧ wgsA3 ≤ 144 := by
    unfold wgsA3; constructor <;> nlinarith
  have hu : 0 ≤ wgsA2 / r ∧ wgsA2 / r ≤ 290 := by
    refine ⟨div_nonneg hA2.1 hr0.le, ?_⟩
    rw [div_le_iff₀ hr0]; linarith
  have e4 : wgsA4 / r = 2.5 * (wgsA2 / r) := by unfold wgsA4; ring
  refine ⟨hA1, hA3, hu, ?_, ?_⟩ <;> rw [e4] <;> linarith

/-- The first estimate: a unit vector close to the geocentric direction. -/
theorem llaStart_ok {w z r : ℝ} (hw : 0 ≤ w) (hr : Real.sqrt (z * z + w * w) = r) (h : 6.3e6 ≤ r) :
    ∃ s c, llaStart w z = .ok (s, c, s * s, Real.arcsin s) ∧ 0 ≤ s ∧ 0 ≤ c ∧ s ^ 2 + c ^ 2 = 1 ∧
      |z| / r ≤ s ∧ s ≤ 1.2 * (|z| / r) ∧ c ≤ w / r ∧
      (s - |z| / r) ^ 2 + (c - w / r) ^ 2 ≤ (43400 / r) ^ 2 ∧
      (|z| / r) ^ 2 + (w / r) ^ 2 = 1 := by
  have hr0 : 0 < r := by linarith
  have hrr : z * z + w * w = r ^ 2 := by
    rw [← hr, Real.sq_sqrt (add_nonneg (mul_self_nonneg z) (mul_self_nonneg w))]
  obtain ⟨hA1, hA3, hu, hv⟩ := wgs_bounds h
  have hsq : Real.sqrt (r ^ 2) = r := Real.sqrt_sq hr0.le
  have hk0 : 0 ≤ |z| / r := by positivity
  have hq0 : 0 ≤ w / r := by positivity
  have hkq : (|z| / r) ^ 2 + (w / r) ^ 2 = 1 := by
    rw [div_pow, div_pow, sq_abs, ← add_div, show z ^ 2 + w ^ 2 = r ^ 2 by rw [← hrr]; ring]
    exact div_self (by positivity)
  have es2 : z * z / r ^ 2 = (|z| / r) ^ 2 := by rw [div_pow, sq_abs, sq z]
  have ec2 : w * w / r ^ 2 = (w / r) ^ 2 := by rw [div_pow, sq w]
  have hT0 : 0 ≤ 43200 / r := by positivity
  have hT1 : 43200 / r ≤ 0.00686 := by rw [div_le_iff₀ hr0]; linarith
  have hT' : 43400 / r = 43400 / 43200 * (43200 / r) := by ring
  rw [hT', llaStart]
  simp only [hrr, hsq, hr0.ne', if_false, es2, ec2]
  generalize |z| / r = k at *
  generalize w / r = q at *
  generalize wgsA2 / r = u at *
  generalize wgsA3 - wgsA4 / r = v at *
  have hk1 : k ^ 2 ≤ 1 := by linarith [sq_nonneg q]
  have hq1 : q ^ 2 ≤ 1 := by linarith [sq_nonneg k]
  have hk2 := sq_nonneg k
  have hq2 := sq_nonneg q
  by_cases hc : q ^ 2 > 0.3
  · rw [if_pos hc]
    have hB0 : 0 ≤ wgsA1 + u + k ^ 2 * v := by nlinarith
    have hB1 : wgsA1 + u + k ^ 2 * v ≤ 43200 := by nlinarith
    have hx0 : 0 ≤ q ^ 2 * (wgsA1 + u + k ^ 2 * v) / r := by positivity
    have hx1 : q ^ 2 * (wgsA1 + u + k ^ 2 * v) / r ≤ q ^ 2 * (43200 / r) := by
      rw [← mul_div_assoc]
      exact div_le_div_of_nonneg_right (mul_le_mul_of_nonneg_left hB1 hq2) hr0.le
    generalize q ^ 2 * (wgsA1 + u + k ^ 2 * v) / r = x at *
    obtain ⟨hs1, i1, i2, i3, hb⟩ := low_lat hk0 hq0 hkq hc hx0 hx1 hT1
    have hs0 : 0 ≤ k * (1 + x) := by positivity
    generalize k * (1 + x) = s at *
    rw [if_neg (by push Not; exact ⟨by linarith, by nlinarith⟩)]
    refine ⟨s, _, rfl, hs0, Real.sqrt_nonneg _, ?_, i1, i2, i3, hb, hkq⟩
    rw [Real.sq_sqrt (by linarith)]; ring
  · rw [if_neg hc]
    have hB0 : 0 ≤ wgsA5 - u - q ^ 2 * v := by unfold wgsA5; nlinarith
    have hc' : q ^ 2 ≤ 0.3 := not_lt.1 hc
    have hB1 : wgsA5 - u - q ^ 2 * v ≤ 43200 := by unfold wgsA5; nlinarith
    have hx0 : 0 ≤ k ^ 2 * (wgsA5 - u - q ^ 2 * v) / r := by positivity
    have hx1 : k ^ 2 * (wgsA5 - u - q ^ 2 * v) / r ≤ k ^ 2 * (43200 / r) := by
      rw [← mul_div_assoc]
      exact div_le_div_of_nonneg_right (mul_le_mul_of_nonneg_left hB1 hk2) hr0.le
    generalize k ^ 2 * (wgsA5 - u - q ^ 2 * v) / r = x at *
    obtain ⟨hc0, hs1, i1, i2, i3, hb⟩ := high_lat hk0 hq0 hkq hc' hx0 hx1 hT1
    generalize q * (1 - x) = c at *
    rw [if_neg (by push Not; exact ⟨by linarith, by nlinarith⟩)]
    have hss : 0 ≤ 1 - c * c := by linarith
    have hlat : Real.arccos c = Real.arcsin (Real.sqrt (1 - c * c)) := by
      rw [Real.arccos_eq_arcsin hc0, sq]
    refine ⟨Real.sqrt (1 - c * c), c, by rw [Real.mul_self_sqrt hss, hlat], Real.sqrt_nonneg _, hc0, ?_,
      i2, i3, i1, hb, hkq⟩
    rw [Real.sq_sqrt hss]; ring

/-- The radii of curvature of the ellipsoid. -/
theorem radii {s : ℝ} (hs1 : s ^ 2 ≤ 1) {g G : ℝ} (hg : g = 1 - wgsE2 * (s * s)) (hG : Real.sqrt g = G) :
    0 < g ∧ 0 < G ∧ G ^ 2 = g ∧ 0.99664 ≤ G ∧ G ≤ 1 ∧ 6335402 ≤ wgsA6 * (wgsA / G) / g ∧
    0 ≤ wgsE2 * (wgsA / G) ∧ wgsE2 * (wgsA / G) ≤ 42880 := by
  have e1 := wgsE2_lt
  have e0 := wgsE2_pos
  have hg1 : g ≤ 1 := by rw [hg]; nlinarith [mul_nonneg e0.le (mul_self_nonneg s)]
  have hg0 : 0.9933 ≤ g := by
    rw [hg]
    have := mul_le_mul_of_nonneg_left hs1 e0.le
    linarith
  have hgp : 0 < g := by linarith
  have hG2 : G ^ 2 = g := by rw [← hG]; exact Real.sq_sqrt hgp.le
  have hGp : 0 < G := by rw [← hG]; exact Real.sqrt_pos.2 hgp
  have hG1 : G ≤ 1 := by nlinarith
  have hG0 : 0.99664 ≤ G := by
    by_contra h
    push Not at h
    have := mul_self_lt_mul_self hGp.le h
    linarith
  have hrg1 : wgsA / G ≤ 6.4e6 := by
    rw [div_le_iff₀ hGp]; unfold wgsA; linarith
  have hrg0 : wgsA ≤ wgsA / G := by
    rw [le_div_iff₀ hGp]; unfold wgsA; linarith
  have hrgp : 0 ≤ wgsA / G := by unfold wgsA; positivity
  refine ⟨hgp, hGp, hG2, hG0, hG1, ?_, mul_nonneg e0.le hrgp, ?_⟩
  · have h1 : (0.9933 : ℝ) ≤ wgsA6 := by unfold wgsA6; linarith
    have h2 : wgsA6 * wgsA ≤ wgsA6 * (wgsA / G) := mul_le_mul_of_nonneg_left hrg0 (by linarith)
    have h4 : 0.9933 * wgsA ≤ wgsA6 * wgsA := mul_le_mul_of_nonneg_right h1 (by unfold wgsA; norm_num)
    rw [le_div_iff₀ hgp]
    have h5 : (6335402 : ℝ) ≤ 0.9933 * wgsA := by unfold wgsA; norm_num
    linarith
  · calc wgsE2 * (wgsA / G) ≤ 0.0067 * 6.4e6 := mul_le_mul e1.le hrg1 hrgp (by norm_num)
      _ = 42880 := by norm_num

/-- Two unit vectors at a small angle. -/
theorem cone {r s c k q : ℝ} (h : 6.3e6 ≤ r) (hsc : s ^ 2 + c ^ 2 = 1) (hkq : k ^ 2 + q ^ 2 = 1)
    (hd : (s - k) ^ 2 + (c - q) ^ 2 ≤ (43400 / r) ^ 2) :
    r * (c * q + s * k) ≤ r ∧ r - 150 ≤ r * (c * q + s * k) ∧ |r * (c * k - s * q)| ≤ 43400 ∧
    r * q - r * c ≤ 43400 := by
  have hr0 : 0 < r := by linarith
  have hdot : (s - k) ^ 2 + (c - q) ^ 2 = 2 - 2 * (c * q + s * k) := by linear_combination hsc + hkq
  have hle : c * q + s * k ≤ 1 := by linarith [sq_nonneg (s - k), sq_nonneg (c - q)]
  refine ⟨?_, ?_, ?_, ?_⟩
  · have := mul_le_mul_of_nonneg_left hle hr0.le
    linarith
  · have h1 : 1 - (43400 / r) ^ 2 / 2 ≤ c * q + s * k := by linarith
    have h2 : r * (1 - (43400 / r) ^ 2 / 2) = r - 43400 ^ 2 / 2 / r := by field_simp
    have h3 : 43400 ^ 2 / 2 / r ≤ 150 := by rw [div_le_iff₀ hr0]; linarith
    have := mul_le_mul_of_nonneg_left h1 hr0.le
    linarith
  · rw [abs_mul, abs_of_pos hr0]
    have h1 : (c * k - s * q) ^ 2 ≤ (43400 / r) ^ 2 := by
      have : (c * k - s * q) ^ 2 + (c * q + s * k) ^ 2 = 1 := by
        linear_combination (s ^ 2 + c ^ 2) * hkq + hsc
      linarith [sq_nonneg (1 - (c * q + s * k))]
    have h2 := abs_le_of_sq_le_sq h1 (by positivity)
    calc r * |c * k - s * q| ≤ r * (43400 / r) := mul_le_mul_of_nonneg_left h2 hr0.le
      _ = 43400 := by field_simp
  · have h6 : q - c ≤ 43400 / r := by
      have : (q - c) ^ 2 ≤ (43400 / r) ^ 2 := by
        rw [show (q - c) ^ 2 = (c - q) ^ 2 by ring]; linarith [sq_nonneg (s - k)]
      exact (abs_le_of_sq_le_sq' this (by positivity)).2
    have := mul_le_mul_of_nonneg_left h6 hr0.le
    rw [mul_div_cancel₀ _ hr0.ne'] at this
    linarith

/-- The corrected latitude is not beyond the equator. -/
theorem lat_low {r s c k q D E : ℝ} (h : 6.3e6 ≤ r) (hs0 : 0 ≤ s) (hc0 : 0 ≤ c) (hk0 : 0 ≤ k)
    (hq1 : q ≤ 1) (hs1 : s ≤ 1) (hsk : s ≤ 1.2 * k) (h7 : r * q - r * c ≤ 43400)
    (hD : r - 42885 ≤ D) (hE : 0 ≤ E) :
    0 ≤ Real.arcsin s + (r * (c * k - s * q) + E * (s * c)) / D := by
  have hDp : 0 < D := by linarith
  have hE0 : 0 ≤ E * (s * c) := mul_nonneg hE (mul_nonneg hs0 hc0)
  have h1 : s ≤ Real.arcsin s := by
    have := Real.sin_le (Real.arcsin_nonneg.2 hs0)
    rwa [Real.sin_arcsin (by linarith) hs1] at this
  have h2 : -s ≤ (r * (c * k - s * q) + E * (s * c)) / D := by
    rw [le_div_iff₀ hDp]
    by_cases hneg : r * q ≤ D
    · have h3 := mul_le_mul_of_nonneg_left hneg hs0
      have h4 : 0 ≤ r * (c * k) := by positivity
      linarith
    · push Not at hneg
      have hrq : r * q ≤ r := by
        have := mul_le_mul_of_nonneg_left hq1 (by linarith : 0 ≤ r); linarith
      have h3 : s * (r * q - D) ≤ 1.2 * k * 42885 :=
        mul_le_mul hsk (by linarith) (by linarith) (by positivity)
      have h8 : k * 6e6 ≤ k * (r * c) := mul_le_mul_of_nonneg_left (by linarith) hk0
      linarith
  linarith

/-- The corrected latitude is not beyond the pole. -/
theorem lat_high {r s c k q D E : ℝ} (h : 6.3e6 ≤ r) (hs0 : 0 ≤ s) (hc0 : 0 ≤ c) (hk0 : 0 ≤ k)
    (hq0 : 0 ≤ q) (hsc : s ^ 2 + c ^ 2 = 1) (hks : k ≤ s) (hcq : c ≤ q)
    (hD : r - 42885 ≤ D) (hE3 : E ≤ 42880) :
    Real.arcsin s + (r * (c * k - s * q) + E * (s * c)) / D ≤ Real.pi / 2 := by
  have hDp : 0 < D := by linarith
  have hc1 : c ≤ 1 := by nlinarith
  have hs1 : s ≤ 1 := by nlinarith
  have h1 : Real.arcsin s + c ≤ Real.pi / 2 := by
    have h2 := Real.sin_le (Real.arcsin_nonneg.2 hc0)
    rw [Real.sin_arcsin (by linarith) hc1] at h2
    have h3 : Real.arcsin c = Real.arccos s := by
      rw [Real.arccos_eq_arcsin hs0, show 1 - s ^ 2 = c ^ 2 by linarith, Real.sqrt_sq hc0]
    have h4 := Real.arccos_eq_pi_div_two_sub_arcsin s
    linarith
  have h2 : (r * (c * k - s * q) + E * (s * c)) / D ≤ c := by
    rw [div_le_iff₀ hDp]
    have h3 : r * (c * k) ≤ r * (s * q) :=
      mul_le_mul_of_nonneg_left (by
        calc c * k ≤ q * k := mul_le_mul_of_nonneg_right hcq hk0
          _ ≤ q * s := mul_le_mul_of_nonneg_left hks hq0
          _ = s * q := mul_comm _ _) (by linarith)
    have h4 : E * (s * c) ≤ c * 42880 := by
      have h6 : E * s ≤ 42880 * 1 := mul_le_mul hE3 hs1 hs0 (by norm_num)
      have := mul_le_mul_of_nonneg_right h6 hc0
      linarith
    have h5 : c * 42880 ≤ c * D := mul_le_mul_of_nonneg_left (by linarith) hc0
    linarith
  linarith

/-- Latitude and height of a position at a distance `r` from the centre. -/
theorem llaCore_ok {w z r : ℝ} (hw : 0 ≤ w) (hr : Real.sqrt (z * z + w * w) = r) (h : 6.3e6 ≤ r) :
    ∃ lat ht, llaCore w z = .ok (lat, ht) ∧ 0 ≤ lat ∧ lat ≤ Real.pi / 2 ∧
      r - 6378287 ≤ ht ∧ ht ≤ r - 6356360 := by
  have hr0 : 0 < r := by linarith
  obtain ⟨s, c, hst, hs0, hc0, hsc, hks, hsk, hcq, hd, hkq⟩ := llaStart_ok hw hr h
  rw [llaCore, hst]
  simp only
  have ez : |z| = r * (|z| / r) := by field_simp
  have ew : w = r * (w / r) := by field_simp
  have hk0 : 0 ≤ |z| / r := by positivity
  have hq0 : 0 ≤ w / r := by positivity
  generalize |z| / r = k at *
  generalize w / r = q at *
  rw [ez, ew]
  clear ez ew hst hr hw
  have hs1 : s ^ 2 ≤ 1 := by linarith [sq_nonneg c]
  have hs1' : s ≤ 1 := by nlinarith
  have hq1 : q ≤ 1 := by nlinarith
  generalize hg : 1 - wgsE2 * (s * s) = g
  generalize hG : Real.sqrt g = G
  obtain ⟨hgp, hGp, hG2, hG0, hG1, hrfg, hE2, hE3⟩ := radii hs1 hg.symm hG
  obtain ⟨hrle, hge, hcross, h7⟩ := cone h hsc hkq hd
  -- the height above the first estimate of the foot point
  have hf : c * (r * q - wgsA / G * c) + s * (r * k - wgsA6 * (wgsA / G) * s)
      = r * (c * q + s * k) - wgsA * G := by
    have : wgsA / G * (c ^ 2 + (1 - wgsE2) * s ^ 2) = wgsA * G := by
      rw [show c ^ 2 + (1 - wgsE2) * s ^ 2 = G ^ 2 by rw [hG2, ← hg]; linear_combination hsc]
      field_simp
    unfold wgsA6
    linear_combination -this
  have hm : c * (r * k - wgsA6 * (wgsA / G) * s) - s * (r * q - wgsA / G * c)
      = r * (c * k - s * q) + wgsE2 * (wgsA / G) * (s * c) := by
    unfold wgsA6; ring
  rw [hf, hm]
  have hfl : r - 150 - 6378137 ≤ r * (c * q + s * k) - wgsA * G := by
    have : wgsA * G ≤ 6378137 := by unfold wgsA; linarith
    linarith
  have hfu : r * (c * q + s * k) - wgsA * G ≤ r - 6356700 := by
    have : 6356700 ≤ wgsA * G := by unfold wgsA; linarith
    linarith
  generalize wgsA6 * (wgsA / G) / g = D0 at *
  clear hf hm
  generalize wgsE2 * (wgsA / G) = E at *
  generalize r * (c * q + s * k) - wgsA * G = f at *
  have hD : r - 42885 ≤ D0 + f := by linarith
  have hDp : 0 < D0 + f := by linarith
  rw [if_neg hDp.ne']
  refine ⟨_, _, rfl, lat_low h hs0 hc0 hk0 hq1 hs1' hsk h7 hD hE2,
    lat_high h hs0 hc0 hk0 hq0 hsc hks hcq hD hE3, ?_, ?_⟩
  · have : 0 ≤ (r * (c * k - s * q) + E * (s * c)) * ((r * (c * k - s * q) + E * (s * c)) / (D0 + f)) / 2 := by
      rw [← mul_div_assoc, ← sq]; positivity
    linarith
  · have hE0 : 0 ≤ E * (s * c) := mul_nonneg hE2 (mul_nonneg hs0 hc0)
    have hE1 : E * (s * c) ≤ 42880 * (1 / 2) :=
      mul_le_mul hE3 (by linarith [sq_nonneg (s - c)]) (mul_nonneg hs0 hc0) (by norm_num)
    rw [abs_le] at hcross
    have hM : |r * (c * k - s * q) + E * (s * c)| ≤ 64840 := by
      rw [abs_le]; constructor <;> linarith
    have : (r * (c * k - s * q) + E * (s * c)) * ((r * (c * k - s * q) + E * (s * c)) / (D0 + f)) / 2
        ≤ 340 := by
      rw [← mul_div_assoc, ← sq, div_div, div_le_iff₀ (by linarith)]
      have := pow_le_pow_left₀ (abs_nonneg _) hM 2
      rw [sq_abs] at this
      linarith
    linarith

end Adcs
