import Verif.Proofs.Olson

set_option autoImplicit false

/-! # The first latitude estimate of `ecef_to_lla` near the poles, to third order -/

namespace Adcs

namespace Olson

/-- The estimate of the cosine, used near the poles, to third order. -/
theorem series_high {x y σ k Q G A t : ℝ} (hx0 : 0 ≤ x) (hx : x ≤ 0.00672) (hy0 : 0 ≤ y) (hy : y ≤ 0.00672)
    (hs0 : 0 ≤ σ) (hk0 : 0 ≤ k) (hsk : σ + k = 1) (hQ : 0 < Q) (hG : 0 ≤ G)
    (h : Q ^ 2 * (1 - 2 * x * σ + x ^ 2 * σ) = 1) (hg : G ^ 2 = 1 - y * σ)
    (hA : A = (1 - x) * Q) (ht : t = x * (G * Q)) :
    |Q * (1 - σ * A ^ 2 * (t + y * t / 2 - t ^ 2 - k * Q ^ 2 * (y * t / 2 - 2.5 * t ^ 2))) - 1| ≤ 8e-6 := by
  obtain ⟨hQ1, hGQ, hκ, ha⟩ := series_common hx0 hx hy0 hy hs0 hk0 hsk hQ hG h hg
  have hα := series_Q hx0 hx hs0 (show σ ≤ 1 by linarith) hQ h
  rw [← hA] at ha
  have hx' := ab_of hx0 hx
  have hy' := ab_of hy0 hy
  have hs' := ab_of hs0 (show σ ≤ 1 by linarith)
  have hk' := ab_of hk0 (show k ≤ 1 by linarith)
  have h1' : |(1:ℝ)| ≤ 1 := by norm_num
  have h2' : |(2:ℝ)| ≤ 2 := by norm_num
  have h15' : |(1.5:ℝ)| ≤ 1.5 := by norm_num [abs_of_pos]
  have hx2 : |x ^ 2| ≤ 0.00672 ^ 2 := by rw [sq, sq]; exact ab_mul hx' hx'
  have hx3 : |x ^ 3| ≤ 0.00672 ^ 3 := by rw [pow_succ, pow_succ _ 2]; exact ab_mul hx2 hx'
  have hks : |k * σ| ≤ 1 / 4 := ab_of (mul_nonneg hk0 hs0) (by nlinarith [sq_nonneg (σ - k)])
  generalize hκe : G * Q - 1 = κ at hκ
  generalize hτe : G * Q - (1 + x * σ - y * σ / 2) = τ at hGQ
  generalize hγe : Q - (1 + x * σ) = γ at hQ1
  have htκ : t = x + x * κ := by rw [ht, ← hκe]; ring
  have htτ : t = x * (1 + x * σ - y * σ / 2) + x * τ := by rw [ht, ← hτe]; ring
  -- the square of A
  have ha' : |A - (1 - k * x)| ≤ 1.8e-5 := by
    have := ab_sub ha (ab_mul (ab_mul h15' hks) hx2)
    refine le_trans (le_of_eq ?_) (this.trans (by norm_num))
    congr 1; ring
  have hμ : |A ^ 2 - (1 - 2 * k * x)| ≤ 8.5e-5 := by
    have hkx : |1 - k * x| ≤ 1 := by
      have : k * x ≤ 1 := by nlinarith
      exact ab_of (by linarith) (by linarith [mul_nonneg hk0 hx0])
    have := ab_add (ab_add (ab_mul (ab_mul hk' hk') hx2) (ab_mul (ab_mul h2' ha') hkx)) (ab_mul ha' ha')
    refine le_trans (le_of_eq ?_) (this.trans (by norm_num))
    congr 1; ring
  have hA2 : |A ^ 2| ≤ 1.0136 := by
    have := ab_add hμ (ab_sub h1' (ab_mul (ab_mul h2' hk') hx'))
    refine le_trans (le_of_eq ?_) (this.trans (by norm_num))
    congr 1; ring
  have hQd : |Q - 1| ≤ 0.0068 := by
    have := ab_add hQ1 (ab_mul hx' hs')
    refine le_trans (le_of_eq ?_) (this.trans (by norm_num))
    rw [← hγe]; congr 1; ring
  have hQb : |Q| ≤ 1.0068 := by
    have := ab_add hQd h1'
    refine le_trans (le_of_eq ?_) (this.trans (by norm_num))
    congr 1; ring
  have hκ2 : |2 * κ + κ ^ 2| ≤ 0.01365 := by
    rw [sq]
    exact (ab_add (ab_mul h2' hκ) (ab_mul hκ hκ)).trans (by norm_num)
  have hyx := yx_bound hx0 hx hy0 hy
  have hyκ : |y * x * κ * (1 / 2)| ≤ 1.55e-7 :=
    (ab_mul (ab_mul (ab_mul hy' hx') hκ) (show |(1/2:ℝ)| ≤ 1 / 2 by norm_num [abs_of_pos])).trans (by norm_num)
  have hr2 : |y * x * κ * (1 / 2) - 2.5 * (x ^ 2 * (2 * κ + κ ^ 2))| ≤ 1.71e-6 :=
    (ab_sub hyκ (ab_mul (show |(2.5:ℝ)| ≤ 2.5 by norm_num [abs_of_pos]) (ab_mul hx2 hκ2))).trans (by norm_num)
  have hW : |Q ^ 2 * (y * t / 2 - 2.5 * t ^ 2) - (y * x / 2 - 2.5 * x ^ 2)| ≤ 3.35e-6 := by
    have := ab_add (ab_mul (ab_mul hQd (ab_add hQb h1')) hyx) (ab_mul (ab_mul hQb hQb) hr2)
    refine le_trans (le_of_eq ?_) (this.trans (by norm_num))
    rw [htκ]; congr 1; ring
  set U := t + y * t / 2 - t ^ 2 - k * Q ^ 2 * (y * t / 2 - 2.5 * t ^ 2) with hU
  have hω : |U - (x + 1.5 * k * x ^ 2)| ≤ 4.7e-6 := by
    have := ab_sub (ab_sub (ab_add (ab_mul hx' hGQ) hyκ) (ab_mul hx2 hκ2)) (ab_mul hk' hW)
    refine le_trans (le_of_eq ?_) (this.trans (by norm_num))
    congr 1
    have e2 : t ^ 2 = x ^ 2 + x ^ 2 * (2 * κ + κ ^ 2) := by rw [htκ]; ring
    rw [hU]
    obtain rfl : σ = 1 - k := by linarith
    linear_combination htτ - e2 + y / 2 * htκ
  have hm : |x + 1.5 * k * x ^ 2| ≤ 0.0068 :=
    (ab_add hx' (ab_mul (ab_mul h15' hk') hx2)).trans (by norm_num)
  have hz : |σ * A ^ 2 * U - σ * (x - k * x ^ 2 / 2)| ≤ 6.4e-6 := by
    have := ab_mul hs' (ab_add (ab_sub (ab_mul hμ hm) (ab_mul (ab_mul (ab_mul (show |(3:ℝ)| ≤ 3 by norm_num) hk') hk') hx3)) (ab_mul hA2 hω))
    refine le_trans (le_of_eq ?_) (this.trans (by norm_num))
    congr 1; ring
  obtain ⟨hmain, hB⟩ := main_high hx0 hx hs0 hk0 hsk
  have := ab_sub (ab_add hmain (ab_mul hα hB)) (ab_mul hQb hz)
  refine le_trans (le_of_eq ?_) (this.trans (by norm_num))
  congr 1
  ring

end Olson

end Adcs
