import Verif.Props.Geodetic

set_option autoImplicit false

/-! # Series behind the first latitude estimate of `ecef_to_lla` -/

namespace Adcs

namespace Olson

theorem ab_add {a b A B : ℝ} (h1 : |a| ≤ A) (h2 : |b| ≤ B) : |a + b| ≤ A + B :=
  (abs_add_le a b).trans (add_le_add h1 h2)
theorem ab_sub {a b A B : ℝ} (h1 : |a| ≤ A) (h2 : |b| ≤ B) : |a - b| ≤ A + B :=
  (abs_sub a b).trans (add_le_add h1 h2)
theorem ab_mul {a b A B : ℝ} (h1 : |a| ≤ A) (h2 : |b| ≤ B) : |a * b| ≤ A * B := by
  rw [abs_mul]; exact mul_le_mul h1 h2 (abs_nonneg _) ((abs_nonneg _).trans h1)
theorem ab_of {a A : ℝ} (h0 : 0 ≤ a) (h : a ≤ A) : |a| ≤ A := by rwa [abs_of_nonneg h0]

/-- Inverse length of the position, in units of the length of the normal. -/
theorem series_Q {x σ Q : ℝ} (hx0 : 0 ≤ x) (hx : x ≤ 0.00672) (hs0 : 0 ≤ σ) (hs1 : σ ≤ 1) (hQ : 0 < Q)
    (h : Q ^ 2 * (1 - 2 * x * σ + x ^ 2 * σ) = 1) :
    |Q - (1 + x * σ + x ^ 2 * (3 * σ ^ 2 - σ) / 2)| ≤ 3.8e-7 := by
  have hx' := ab_of hx0 hx
  have hs' := ab_of hs0 hs1
  have hx2 : |x ^ 2| ≤ 0.00672 ^ 2 := by rw [sq, sq]; exact ab_mul hx' hx'
  have hx3 : |x ^ 3| ≤ 0.00672 ^ 3 := by rw [pow_succ, pow_succ _ 2]; exact ab_mul hx2 hx'
  have hs2 : |σ ^ 2| ≤ 1 := by rw [sq]; simpa using ab_mul hs' hs'
  have hs3 : |σ ^ 3| ≤ 1 := by rw [pow_succ]; simpa using ab_mul hs2 hs'
  set Q2 := 1 + x * σ + x ^ 2 * (3 * σ ^ 2 - σ) / 2 with hQ2
  have hR : |3 * σ ^ 2 - 5 * σ ^ 3 + x * (-3 / 4 * σ ^ 2 + 9 / 2 * σ ^ 3 - 15 / 4 * σ ^ 4)
      + x ^ 2 * (-3 / 2 * σ ^ 3 + 6 * σ ^ 4 - 9 / 2 * σ ^ 5)
      + x ^ 3 * (1 / 4 * σ ^ 3 - 3 / 2 * σ ^ 4 + 9 / 4 * σ ^ 5)| ≤ 2.1 := by
    have h0 : |3 * σ ^ 2 - 5 * σ ^ 3| ≤ 2 := by
      rw [abs_le]; constructor
      · nlinarith [mul_nonneg hs0 hs0, mul_nonneg (mul_nonneg hs0 hs0) (sub_nonneg.2 hs1),
          mul_nonneg hs0 (sub_nonneg.2 hs1)]
      · nlinarith [mul_nonneg hs0 hs0, mul_nonneg (mul_nonneg hs0 hs0) hs0]
    have h1 : |σ ^ 2 * (-3 / 4 + 9 / 2 * σ - 15 / 4 * σ ^ 2)| ≤ 1 * (3 / 4 + 9 / 2 * 1 + 15 / 4 * 1) :=
      ab_mul hs2 (ab_sub (ab_add (by norm_num [abs_of_neg]) (ab_mul (by norm_num [abs_of_pos]) hs')) (ab_mul (by norm_num [abs_of_pos]) hs2))
    have h2 : |σ ^ 3 * (-3 / 2 + 6 * σ - 9 / 2 * σ ^ 2)| ≤ 1 * (3 / 2 + 6 * 1 + 9 / 2 * 1) :=
      ab_mul hs3 (ab_sub (ab_add (by norm_num [abs_of_neg]) (ab_mul (by norm_num [abs_of_pos]) hs')) (ab_mul (by norm_num [abs_of_pos]) hs2))
    have h3 : |σ ^ 3 * (1 / 4 - 3 / 2 * σ + 9 / 4 * σ ^ 2)| ≤ 1 * (1 / 4 + 3 / 2 * 1 + 9 / 4 * 1) :=
      ab_mul hs3 (ab_add (ab_sub (by norm_num [abs_of_pos]) (ab_mul (by norm_num [abs_of_pos]) hs')) (ab_mul (by norm_num [abs_of_pos]) hs2))
    have := ab_add (ab_add (ab_add h0 (ab_mul hx' h1)) (ab_mul hx2 h2)) (ab_mul hx3 h3)
    refine le_trans (le_of_eq ?_) (this.trans (by norm_num))
    congr 1; ring
  have e : (Q - Q2) * ((1 - 2 * x * σ + x ^ 2 * σ) * (Q + Q2)) = - (x ^ 3 *
      (3 * σ ^ 2 - 5 * σ ^ 3 + x * (-3 / 4 * σ ^ 2 + 9 / 2 * σ ^ 3 - 15 / 4 * σ ^ 4)
      + x ^ 2 * (-3 / 2 * σ ^ 3 + 6 * σ ^ 4 - 9 / 2 * σ ^ 5)
      + x ^ 3 * (1 / 4 * σ ^ 3 - 3 / 2 * σ ^ 4 + 9 / 4 * σ ^ 5))) := by
    rw [hQ2]; linear_combination h
  have hxs : x * σ ≤ 0.00672 := by nlinarith
  have hxs0 : 0 ≤ x * σ := mul_nonneg hx0 hs0
  have hq : 0.986 ≤ 1 - 2 * x * σ + x ^ 2 * σ := by nlinarith [mul_nonneg (sq_nonneg x) hs0]
  have hq1 : 1 - 2 * x * σ + x ^ 2 * σ ≤ 1 := by nlinarith [mul_nonneg hx0 hxs0]
  have hQ1 : 1 ≤ Q := by
    by_contra hc
    push Not at hc
    nlinarith [mul_pos hQ hQ, mul_nonneg (sq_nonneg Q) (sub_nonneg.2 hq1)]
  have hQ21 : 0.9999 ≤ Q2 := by
    rw [hQ2]; nlinarith [mul_nonneg (sq_nonneg x) (sq_nonneg σ), mul_nonneg (sq_nonneg x) (sub_nonneg.2 hs1), abs_le.1 hx2]
  have hd : 1.97 ≤ (1 - 2 * x * σ + x ^ 2 * σ) * (Q + Q2) := by nlinarith
  have hP := ab_mul hx3 hR
  rw [← abs_neg, ← e, abs_mul, abs_of_pos (a := _ * (Q + Q2)) (by linarith)] at hP
  have := mul_le_mul_of_nonneg_left hd (abs_nonneg (Q - Q2))
  norm_num at hP this ⊢
  linarith

theorem series_G {y σ G : ℝ} (hy0 : 0 ≤ y) (hy : y ≤ 0.00672) (hs0 : 0 ≤ σ) (hs1 : σ ≤ 1) (hG : 0 ≤ G)
    (h : G ^ 2 = 1 - y * σ) : |G - (1 - y * σ / 2)| ≤ 6e-6 := by
  have hys0 : 0 ≤ y * σ := mul_nonneg hy0 hs0
  have hys : y * σ ≤ 0.00672 := by nlinarith
  have e : (G - (1 - y * σ / 2)) * (G + (1 - y * σ / 2)) = - ((y * σ) ^ 2 / 4) := by
    linear_combination h
  have hG1 : 0.99 ≤ G := by nlinarith
  have h2 : |(y * σ) ^ 2 / 4| ≤ 0.00672 ^ 2 / 4 := by
    rw [abs_of_nonneg (by positivity)]; gcongr
  rw [← abs_neg, ← e, abs_mul, abs_of_pos (a := G + _) (by linarith)] at h2
  have := mul_le_mul_of_nonneg_left (show 1.98 ≤ G + (1 - y * σ / 2) by linarith) (abs_nonneg (G - (1 - y * σ / 2)))
  norm_num at h2 this ⊢
  linarith

/-- The common remainders. -/
theorem series_common {x y σ k Q G : ℝ} (hx0 : 0 ≤ x) (hx : x ≤ 0.00672) (hy0 : 0 ≤ y) (hy : y ≤ 0.00672)
    (hs0 : 0 ≤ σ) (hk0 : 0 ≤ k) (hsk : σ + k = 1) (hQ : 0 < Q) (hG : 0 ≤ G)
    (h : Q ^ 2 * (1 - 2 * x * σ + x ^ 2 * σ) = 1) (hg : G ^ 2 = 1 - y * σ) :
    |Q - (1 + x * σ)| ≤ 4.6e-5 ∧ |G * Q - (1 + x * σ - y * σ / 2)| ≤ 7.6e-5 ∧ |G * Q - 1| ≤ 0.0068 ∧
    |(1 - x) * Q - (1 - k * x - 1.5 * (σ * k) * x ^ 2)| ≤ 7e-7 := by
  have hs1 : σ ≤ 1 := by linarith
  have hq := series_Q hx0 hx hs0 hs1 hQ h
  have hgg := series_G hy0 hy hs0 hs1 hG hg
  have hx' := ab_of hx0 hx
  have hy' := ab_of hy0 hy
  have hs' := ab_of hs0 hs1
  have hx2 : |x ^ 2| ≤ 0.00672 ^ 2 := by rw [sq, sq]; exact ab_mul hx' hx'
  have hx3 : |x ^ 3| ≤ 0.00672 ^ 3 := by rw [pow_succ, pow_succ _ 2]; exact ab_mul hx2 hx'
  have h3 : |(3 * σ ^ 2 - σ) / 2| ≤ 1 := by
    rw [abs_le]; constructor <;> nlinarith
  have hQ1 : |Q - (1 + x * σ)| ≤ 4.6e-5 := by
    have := ab_add hq (ab_mul hx2 h3)
    refine le_trans (le_of_eq ?_) (this.trans (by norm_num))
    congr 1; ring
  have hQb : |Q| ≤ 1.007 := by
    have := ab_add hQ1 (ab_add (show |(1:ℝ)| ≤ 1 by norm_num) (ab_mul hx' hs'))
    refine le_trans (le_of_eq ?_) (this.trans (by norm_num))
    congr 1; ring
  have hGQ : |G * Q - (1 + x * σ - y * σ / 2)| ≤ 7.6e-5 := by
    have h1 : |(1 - y * σ / 2)| ≤ 1 := by
      have : 0 ≤ y * σ := mul_nonneg hy0 hs0
      rw [abs_le]; constructor <;> nlinarith
    have h2 : |x * (y / 2) * σ ^ 2| ≤ 0.00672 * (0.00672 / 2) * 1 := by
      refine ab_mul (ab_mul hx' (ab_of (by positivity) (by linarith))) ?_
      rw [sq]; simpa using ab_mul hs' hs'
    have := ab_sub (ab_add (ab_mul hgg hQb) (ab_mul h1 hQ1)) h2
    refine le_trans (le_of_eq ?_) (this.trans (by norm_num))
    congr 1; ring
  refine ⟨hQ1, hGQ, ?_, ?_⟩
  · have h1 : |x * σ - y * σ / 2| ≤ 0.00672 := by
      have a1 : 0 ≤ x * σ := mul_nonneg hx0 hs0
      have a2 : 0 ≤ y * σ := mul_nonneg hy0 hs0
      rw [abs_le]; constructor <;> nlinarith
    have := ab_add hGQ h1
    refine le_trans (le_of_eq ?_) (this.trans (by norm_num))
    congr 1; ring
  · have h1 : |1 - x| ≤ 1 := ab_of (by linarith) (by linarith)
    have := ab_sub (ab_mul h1 hq) (ab_mul hx3 h3)
    refine le_trans (le_of_eq ?_) (this.trans (by norm_num))
    obtain rfl : k = 1 - σ := by linarith
    congr 1; ring

theorem yx_bound {x y : ℝ} (hx0 : 0 ≤ x) (hx : x ≤ 0.00672) (hy0 : 0 ≤ y) (hy : y ≤ 0.00672) :
    |y * x / 2 - 2.5 * x ^ 2| ≤ 2.5 * 0.00672 ^ 2 := by
  have h1 : y * x ≤ 0.00672 ^ 2 := by rw [sq]; exact mul_le_mul hy hx hx0 (by norm_num)
  have h2 : x ^ 2 ≤ 0.00672 ^ 2 := pow_le_pow_left₀ hx0 hx 2
  have hyx0 : 0 ≤ y * x := mul_nonneg hy0 hx0
  have := sq_nonneg x
  rw [abs_le]; constructor <;> linarith

theorem main_high {x σ k : ℝ} (hx0 : 0 ≤ x) (hx : x ≤ 0.00672)
    (hs0 : 0 ≤ σ) (hk0 : 0 ≤ k) (hsk : σ + k = 1) :
    |(1 + x * σ + x ^ 2 * (3 * σ ^ 2 - σ) / 2) * (1 - σ * (x - k * x ^ 2 / 2)) - 1| ≤ 4e-7 ∧
      |1 - σ * (x - k * x ^ 2 / 2)| ≤ 1 := by
  have hx' := ab_of hx0 hx
  have hs' := ab_of hs0 (show σ ≤ 1 by linarith)
  have hx2 : |x ^ 2| ≤ 0.00672 ^ 2 := by rw [sq, sq]; exact ab_mul hx' hx'
  have hx3 : |x ^ 3| ≤ 0.00672 ^ 3 := by rw [pow_succ, pow_succ _ 2]; exact ab_mul hx2 hx'
  constructor
  · have a1 : |σ * (σ * (1 - 2 * σ))| ≤ 1 * (1 * 1) :=
      ab_mul hs' (ab_mul hs' (by rw [abs_le]; constructor <;> linarith))
    have a2 : |x * (σ * (σ * (3 * σ - 1) * (k / 4)))| ≤ 0.00672 * (1 * (1 * 2 * (1 / 4))) :=
      ab_mul hx' (ab_mul hs' (ab_mul (ab_mul hs' (by rw [abs_le]; constructor <;> linarith)) (ab_of (by linarith) (by linarith))))
    have := ab_mul hx3 (ab_add a1 a2)
    refine le_trans (le_of_eq ?_) (this.trans (by norm_num))
    congr 1
    obtain rfl : k = 1 - σ := by linarith
    ring
  · have h3 : x ^ 2 ≤ x := by nlinarith
    have h4 : 0 ≤ x - k * x ^ 2 / 2 := by nlinarith [sq_nonneg x]
    have h5 : x - k * x ^ 2 / 2 ≤ 1 := by nlinarith [mul_nonneg hk0 (sq_nonneg x)]
    have h6 : σ * (x - k * x ^ 2 / 2) ≤ 1 := by nlinarith
    exact ab_of (by linarith) (by linarith [mul_nonneg hs0 h4])

theorem main_low {x σ k : ℝ} (hx0 : 0 ≤ x) (hx : x ≤ 0.00672)
    (hs0 : 0 ≤ σ) (hk0 : 0 ≤ k) (hsk : σ + k = 1) :
    |(1 - k * x - 1.5 * (σ * k) * x ^ 2) * (1 + k * (x + x ^ 2 * (1 + σ / 2))) - 1| ≤ 5e-7 := by
  have hx' := ab_of hx0 hx
  have hs' := ab_of hs0 (show σ ≤ 1 by linarith)
  have hk' := ab_of hk0 (show k ≤ 1 by linarith)
  have hx2 : |x ^ 2| ≤ 0.00672 ^ 2 := by rw [sq, sq]; exact ab_mul hx' hx'
  have hx3 : |x ^ 3| ≤ 0.00672 ^ 3 := by rw [pow_succ, pow_succ _ 2]; exact ab_mul hx2 hx'
  have hks : |k * σ| ≤ 1 / 4 := ab_of (mul_nonneg hk0 hs0) (by nlinarith [sq_nonneg (σ - k)])
  have hp : |k * (k * (-(1 + 2 * σ)) + x * k * σ * (-(3 / 2) * (1 + σ / 2)))| ≤ 1.25 := by
    have a1 : |k * (k * (1 + 2 * σ))| ≤ 1.2 := by
      refine ab_of (by positivity) ?_
      obtain rfl : σ = 1 - k := by linarith
      nlinarith [mul_nonneg hk0 (sq_nonneg (k - 1)), sq_nonneg (k - 1)]
    have a2 : |k * (x * k * σ * (3 / 2 * (1 + σ / 2)))| ≤ 1 * (0.00672 * 1 * 1 * (3 / 2 * (1 + 1 / 2))) :=
      ab_mul hk' (ab_mul (ab_mul (ab_mul hx' hk') hs') (ab_of (by positivity) (by linarith)))
    have := ab_add a1 a2
    rw [← abs_neg]
    refine le_trans (le_of_eq ?_) (this.trans (by norm_num))
    congr 1; ring
  have := ab_mul hx3 hp
  refine le_trans (le_of_eq ?_) (this.trans (by norm_num))
  congr 1
  obtain rfl : k = 1 - σ := by linarith
  ring

theorem main_A {x σ k : ℝ} (hx0 : 0 ≤ x) (hx : x ≤ 0.00672)
    (hs0 : 0 ≤ σ) (hk0 : 0 ≤ k) (hsk : σ + k = 1) :
    |1 - k * x - 1.5 * (σ * k) * x ^ 2| ≤ 1 := by
  have hx' := ab_of hx0 hx
  have hs' := ab_of hs0 (show σ ≤ 1 by linarith)
  have hk' := ab_of hk0 (show k ≤ 1 by linarith)
  have hx2 : |x ^ 2| ≤ 0.00672 ^ 2 := by rw [sq, sq]; exact ab_mul hx' hx'
  have hx3 : |x ^ 3| ≤ 0.00672 ^ 3 := by rw [pow_succ, pow_succ _ 2]; exact ab_mul hx2 hx'
  have hks : |k * σ| ≤ 1 / 4 := ab_of (mul_nonneg hk0 hs0) (by nlinarith [sq_nonneg (σ - k)])
  have h1 : k * x ≤ 0.00672 := by nlinarith
  have h2 : 0 ≤ k * x := mul_nonneg hk0 hx0
  have h3 := abs_le.1 (ab_mul hks hx2)
  have h4 : 0 ≤ σ * k * x ^ 2 := by positivity
  norm_num at h3
  rw [abs_le]; constructor <;> nlinarith

/-- The estimate of the sine, used away from the poles, to third order. -/
theorem series_low {x y σ k Q G A t : ℝ} (hx0 : 0 ≤ x) (hx : x ≤ 0.00672) (hy0 : 0 ≤ y) (hy : y ≤ 0.00672)
    (hs0 : 0 ≤ σ) (hk0 : 0 ≤ k) (hsk : σ + k = 1) (hQ : 0 < Q) (hG : 0 ≤ G)
    (h : Q ^ 2 * (1 - 2 * x * σ + x ^ 2 * σ) = 1) (hg : G ^ 2 = 1 - y * σ)
    (hA : A = (1 - x) * Q) (ht : t = x * (G * Q)) :
    |A * (1 + k * Q ^ 2 * (t + t ^ 2 + σ * A ^ 2 * (y * t / 2 - 2.5 * t ^ 2))) - 1| ≤ 4.4e-6 := by
  obtain ⟨hQ1, hGQ, hκ, ha⟩ := series_common hx0 hx hy0 hy hs0 hk0 hsk hQ hG h hg
  rw [← hA] at ha
  have hx' := ab_of hx0 hx
  have hy' := ab_of hy0 hy
  have hs' := ab_of hs0 (show σ ≤ 1 by linarith)
  have hk' := ab_of hk0 (show k ≤ 1 by linarith)
  have hx2 : |x ^ 2| ≤ 0.00672 ^ 2 := by rw [sq, sq]; exact ab_mul hx' hx'
  have hx3 : |x ^ 3| ≤ 0.00672 ^ 3 := by rw [pow_succ, pow_succ _ 2]; exact ab_mul hx2 hx'
  have hks : |k * σ| ≤ 1 / 4 := ab_of (mul_nonneg hk0 hs0) (by nlinarith [sq_nonneg (σ - k)])
  generalize hκe : G * Q - 1 = κ at hκ
  generalize hτe : G * Q - (1 + x * σ - y * σ / 2) = τ at hGQ
  generalize hγe : Q - (1 + x * σ) = γ at hQ1
  generalize hae : A - (1 - k * x - 1.5 * (σ * k) * x ^ 2) = a at ha
  have htκ : t = x + x * κ := by rw [ht, ← hκe]; ring
  have htτ : t = x * (1 + x * σ - y * σ / 2) + x * τ := by rw [ht, ← hτe]; ring
  have hA1 : |A - 1| ≤ 0.0068 := by
    have := ab_sub (ab_sub ha (ab_mul hk' hx')) (ab_mul (ab_mul (show |(1.5:ℝ)| ≤ 1.5 by norm_num [abs_of_pos]) hks) hx2)
    refine le_trans (le_of_eq ?_) (this.trans (by norm_num))
    rw [← hae]; congr 1; ring
  have hAb : |A| ≤ 1.0068 := by
    have := ab_add hA1 (show |(1:ℝ)| ≤ 1 by norm_num)
    refine le_trans (le_of_eq ?_) (this.trans (by norm_num))
    congr 1; ring
  have hκ2 : |2 * κ + κ ^ 2| ≤ 0.01365 := by
    rw [sq]
    exact (ab_add (ab_mul (show |(2:ℝ)| ≤ 2 by norm_num) hκ) (ab_mul hκ hκ)).trans (by norm_num)
  have hyx := yx_bound hx0 hx hy0 hy
  have hr2 : |y * x * κ / 2 - 2.5 * (x ^ 2 * (2 * κ + κ ^ 2))| ≤ 1.71e-6 := by
    have := ab_sub (ab_mul (ab_mul (ab_mul hy' hx') hκ) (show |(1/2:ℝ)| ≤ 1 / 2 by norm_num [abs_of_pos]))
      (ab_mul (show |(2.5:ℝ)| ≤ 2.5 by norm_num [abs_of_pos]) (ab_mul hx2 hκ2))
    refine le_trans (le_of_eq ?_) (this.trans (by norm_num))
    congr 1; ring
  have hW : |A ^ 2 * (y * t / 2 - 2.5 * t ^ 2) - (y * x / 2 - 2.5 * x ^ 2)| ≤ 3.35e-6 := by
    have hA2 : |A ^ 2 - 1| ≤ 0.01365 := by
      have := ab_mul hA1 (ab_add hAb (show |(1:ℝ)| ≤ 1 by norm_num))
      refine le_trans (le_of_eq ?_) (this.trans (by norm_num))
      congr 1; ring
    have := ab_add (ab_mul hA2 hyx) (ab_mul (ab_mul hAb hAb) hr2)
    refine le_trans (le_of_eq ?_) (this.trans (by norm_num))
    rw [htκ]; congr 1; ring
  set U := t + t ^ 2 + σ * A ^ 2 * (y * t / 2 - 2.5 * t ^ 2) with hU
  have hω : |k * (U - (x + x ^ 2 * (1 - 1.5 * σ)))| ≤ 1.97e-6 := by
    have := ab_add (ab_mul hk' (ab_add (ab_mul hx' hGQ) (ab_mul hx2 hκ2))) (ab_mul hks hW)
    refine le_trans (le_of_eq ?_) (this.trans (by norm_num))
    congr 1
    have e2 : t ^ 2 = x ^ 2 + x ^ 2 * (2 * κ + κ ^ 2) := by rw [htκ]; ring
    rw [hU]
    linear_combination k * htτ + k * e2
  have hη : |Q ^ 2 - 1 - 2 * x * σ| ≤ 1.4e-4 := by
    have := ab_add (ab_add (ab_mul hx2 (ab_mul hs' hs')) (ab_mul (ab_mul (show |(2:ℝ)| ≤ 2 by norm_num) hQ1)
      (ab_add (show |(1:ℝ)| ≤ 1 by norm_num) (ab_mul hx' hs')))) (ab_mul hQ1 hQ1)
    refine le_trans (le_of_eq ?_) (this.trans (by norm_num))
    congr 1
    rw [← hγe]; ring
  have hQ2 : |Q ^ 2| ≤ 1.0137 := by
    have := ab_add hη (ab_add (show |(1:ℝ)| ≤ 1 by norm_num) (ab_mul (ab_mul (show |(2:ℝ)| ≤ 2 by norm_num) hx') hs'))
    refine le_trans (le_of_eq ?_) (this.trans (by norm_num))
    congr 1; ring
  have h15 : |1 - 1.5 * σ| ≤ 1 := by rw [abs_le]; constructor <;> linarith
  have hm : |x + x ^ 2 * (1 - 1.5 * σ)| ≤ 0.0068 := (ab_add hx' (ab_mul hx2 h15)).trans (by norm_num)
  have hb : |k * Q ^ 2 * U - k * (x + x ^ 2 * (1 + σ / 2))| ≤ 3.11e-6 := by
    have := ab_add (ab_add (ab_mul (ab_mul (ab_mul (show |(2:ℝ)| ≤ 2 by norm_num) hks) hx3) h15)
      (ab_mul hk' (ab_mul hη hm))) (ab_mul hQ2 hω)
    refine le_trans (le_of_eq ?_) (this.trans (by norm_num))
    congr 1; ring
  generalize hbe : k * Q ^ 2 * U - k * (x + x ^ 2 * (1 + σ / 2)) = b at hb
  have hB : |1 + k * Q ^ 2 * U| ≤ 1.007 := by
    have h1 : |k * (x + x ^ 2 * (1 + σ / 2))| ≤ 1 * (0.00672 + 0.00672 ^ 2 * 1.5) :=
      ab_mul hk' (ab_add hx' (ab_mul hx2 (ab_of (by linarith) (by linarith))))
    have := ab_add (show |(1:ℝ)| ≤ 1 by norm_num) (ab_add hb h1)
    refine le_trans (le_of_eq ?_) (this.trans (by norm_num))
    rw [← hbe]; congr 1; ring
  have hmain := main_low hx0 hx hs0 hk0 hsk
  have hA0 := main_A hx0 hx hs0 hk0 hsk
  have := ab_add (ab_add hmain (ab_mul ha hB)) (ab_mul hA0 hb)
  refine le_trans (le_of_eq ?_) (this.trans (by norm_num))
  congr 1
  rw [← hae, ← hbe]; ring

end Olson

end Adcs
