import Verif.Model.FloatEquatorial
import Verif.Props.FloatSeq

set_option autoImplicit false

/-! # C220: `_quat2equatorial` with rounding -/

namespace Adcs

open Fl

local macro "fle" : tactic => `(tactic| exact Fl.Nearest.of_exact ‹_› (by norm_num) (by norm_num [F]))
local macro "fln" : tactic => `(tactic|
  exact Fl.Nearest.of_near ‹_› (by norm_num) (by norm_num) (by norm_num [F, abs_lt]))

section consts

variable {fl : ℝ → ℝ} (H : Nearest fl)
include H

theorem fl_pi : fl Real.pi = F 7074237752028440 (-51) := by
  have h1 := Real.pi_gt_d20
  have h2 := Real.pi_lt_d20
  refine H.of_near (by norm_num) (by norm_num) ?_
  rw [abs_lt]
  norm_num [F] at h1 h2 ⊢
  constructor <;> linarith

theorem fl_half_pi : fl (Real.pi / 2) = F 7074237752028440 (-52) := by
  have h1 := Real.pi_gt_d20
  have h2 := Real.pi_lt_d20
  refine H.of_near (by norm_num) (by norm_num) ?_
  rw [abs_lt]
  norm_num [F] at h1 h2 ⊢
  constructor <;> linarith

theorem fl_degree : fl (180 / fl Real.pi) = F 8063664102031864 (-47) := by
  rw [fl_pi H]
  fln

/-- An angle up to the float next to a half turn is at most 180 degrees. -/
theorem degrees_turn {x : ℝ} (h : |x| ≤ fl Real.pi) : |degrees fl x| ≤ 180 := by
  unfold degrees
  rw [fl_degree H]
  rw [fl_pi H] at h
  have e1 : fl (F 7074237752028440 (-51) * F 8063664102031864 (-47)) = F 6333186975989760 (-45) := by fln
  have e2 : fl (F (-7074237752028440) (-51) * F 8063664102031864 (-47)) = F (-6333186975989760) (-45) := by fln
  have k : (0 : ℝ) ≤ F 8063664102031864 (-47) := by norm_num [F]
  obtain ⟨h1, h2⟩ := abs_le.1 h
  have f1 := H.mono (mul_le_mul_of_nonneg_right h2 k)
  have f2 := H.mono (mul_le_mul_of_nonneg_right h1 k)
  rw [show -F 7074237752028440 (-51) = F (-7074237752028440) (-51) by norm_num [F], e2] at f2
  rw [e1] at f1
  norm_num [F] at f1 f2
  rw [abs_le]
  norm_num [F] at *
  exact ⟨f2, f1⟩

theorem degrees_half {x : ℝ} (h : |x| ≤ fl (Real.pi / 2)) : |degrees fl x| ≤ 90 := by
  unfold degrees
  rw [fl_degree H]
  rw [fl_half_pi H] at h
  have e1 : fl (F 7074237752028440 (-52) * F 8063664102031864 (-47)) = F 6333186975989760 (-46) := by fln
  have e2 : fl (F (-7074237752028440) (-52) * F 8063664102031864 (-47)) = F (-6333186975989760) (-46) := by fln
  have k : (0 : ℝ) ≤ F 8063664102031864 (-47) := by norm_num [F]
  obtain ⟨h1, h2⟩ := abs_le.1 h
  have f1 := H.mono (mul_le_mul_of_nonneg_right h2 k)
  have f2 := H.mono (mul_le_mul_of_nonneg_right h1 k)
  rw [show -F 7074237752028440 (-52) = F (-7074237752028440) (-52) by norm_num [F], e2] at f2
  rw [e1] at f1
  rw [abs_le]
  norm_num [F] at *
  exact ⟨f2, f1⟩

/-- What one conversion to degrees does, in radians. -/
theorem degrees_err (x : ℝ) : |degrees fl x * Real.pi / 180 - x| ≤ 4 * ulp * |x| := by
  unfold degrees
  rw [fl_degree H]
  obtain ⟨k, hk⟩ : ∃ k, k = F 8063664102031864 (-47) := ⟨_, rfl⟩
  rw [← hk]
  have h1 := Real.pi_gt_d20
  have h2 := Real.pi_lt_d20
  have e0 : |k * Real.pi / 180 - 1| ≤ 2 * ulp := by
    rw [abs_le, hk]
    norm_num [F, ulp] at h1 h2 ⊢
    constructor <;> linarith
  have e1 := H.err (x * k)
  have hk0 : 0 < k := by rw [hk]; norm_num [F]
  rw [abs_mul, abs_of_pos hk0] at e1
  have hp := Real.pi_pos
  have e2 : |fl (x * k) * Real.pi / 180 - x| ≤ |fl (x * k) - x * k| * (Real.pi / 180) + |x| * |k * Real.pi / 180 - 1| := by
    rw [show fl (x * k) * Real.pi / 180 - x = (fl (x * k) - x * k) * (Real.pi / 180) + x * (k * Real.pi / 180 - 1) by ring]
    refine (abs_add_le _ _).trans ?_
    rw [abs_mul, abs_mul, abs_of_pos (by positivity : 0 < Real.pi / 180)]
  have e3 := mul_le_mul_of_nonneg_right e1 (by positivity : 0 ≤ Real.pi / 180)
  have e4 := mul_le_mul_of_nonneg_left e0 (abs_nonneg x)
  have e5 : k * (Real.pi / 180) ≤ 2 := by
    have := (abs_le.1 e0).2
    have := ulp_small
    linarith
  have u0 := ulp_pos
  have e6 := mul_le_mul_of_nonneg_left e5 (mul_nonneg u0.le (abs_nonneg x))
  nlinarith

/-- Twice the sum of two rounded numbers. -/
theorem two_sum {x y p r S : ℝ} (hx : |x| + |y| ≤ S / 2) (e1 : |p - x| ≤ ulp * |x|) (e2 : |r - y| ≤ ulp * |y|) :
    |fl (2 * fl (p + r)) - 2 * (x + y)| ≤ 4 * ulp * S ∧ |2 * (x + y)| ≤ S := by
  have u0 := ulp_pos
  have u1 := ulp_small
  have hS0 : 0 ≤ S := by linarith [abs_nonneg x, abs_nonneg y]
  obtain ⟨d, hd⟩ : ∃ d, d = fl (p + r) := ⟨_, rfl⟩
  have e3 := H.err (p + r)
  have e4 := H.err (2 * d)
  rw [← hd]
  rw [← hd] at e3
  have t0 : |x + y| ≤ S / 2 := (abs_add_le _ _).trans hx
  have t1 : |(p + r) - (x + y)| ≤ ulp * (S / 2) := by
    rw [show (p + r) - (x + y) = (p - x) + (r - y) by ring]
    refine (abs_add_le _ _).trans ((add_le_add e1 e2).trans ?_)
    rw [← mul_add]
    exact mul_le_mul_of_nonneg_left hx u0.le
  have t2 : |p + r| ≤ S / 2 * (1 + ulp) := by
    have := abs_sub_abs_le_abs_sub (p + r) (x + y)
    linarith
  have t3 := mul_le_mul_of_nonneg_left t2 u0.le
  have t4 : |d| ≤ S / 2 * (1 + ulp) + ulp * (S / 2 * (1 + ulp)) := by
    have := abs_sub_abs_le_abs_sub d (p + r)
    linarith
  rw [abs_mul, abs_two] at e4
  have t5 := mul_le_mul_of_nonneg_left t4 u0.le
  have hu : ulp * ulp * S ≤ 1 / 1000000 * (ulp * S) := by
    have := mul_le_mul_of_nonneg_right u1 (mul_nonneg u0.le hS0)
    linarith
  have hu3 : ulp * ulp * ulp * S ≤ 1 / 1000000 * (ulp * S) := by
    have := mul_le_mul_of_nonneg_left hu u0.le
    have := mul_le_mul_of_nonneg_right u1 (mul_nonneg u0.le hS0)
    nlinarith
  refine ⟨?_, by rw [abs_mul, abs_two]; linarith⟩
  rw [show fl (2 * d) - 2 * (x + y) = (fl (2 * d) - 2 * d) + (2 * (d - (p + r)) + 2 * ((p + r) - (x + y))) by ring]
  refine (abs_add_le _ _).trans ?_
  refine (add_le_add_right (abs_add_le _ _) _).trans ?_
  rw [abs_mul, abs_mul, abs_two]
  nlinarith

/-- An alternating sum of squares, from left to right. -/
theorem four_sum {a b c d s1 s2 s3 S : ℝ} (h1 : |s1| = 1) (h2 : |s2| = 1) (h3 : |s3| = 1) (hS : S = a ^ 2 + b ^ 2 + c ^ 2 + d ^ 2) :
    |fl (fl (fl (fl (a * a) + s1 * fl (b * b)) + s2 * fl (c * c)) + s3 * fl (d * d)) -
      (a ^ 2 + s1 * b ^ 2 + s2 * c ^ 2 + s3 * d ^ 2)| ≤ 5 * ulp * S := by
  have u0 := ulp_pos
  have u1 := ulp_small
  have hS0 : 0 ≤ S := by rw [hS]; positivity
  have hA := H.err (a * a)
  have hB := H.err (b * b)
  have hC := H.err (c * c)
  have hD := H.err (d * d)
  rw [← sq, abs_of_nonneg (sq_nonneg a)] at hA
  rw [← sq, abs_of_nonneg (sq_nonneg b)] at hB
  rw [← sq, abs_of_nonneg (sq_nonneg c)] at hC
  rw [← sq, abs_of_nonneg (sq_nonneg d)] at hD
  rw [← sq, ← sq, ← sq, ← sq]
  have hsum : ulp * a ^ 2 + ulp * b ^ 2 + ulp * c ^ 2 + ulp * d ^ 2 = ulp * S := by rw [hS]; ring
  have na := mul_nonneg u0.le (sq_nonneg a)
  have nb := mul_nonneg u0.le (sq_nonneg b)
  have nc := mul_nonneg u0.le (sq_nonneg c)
  have nd := mul_nonneg u0.le (sq_nonneg d)
  have pa := sq_nonneg a
  have pb := sq_nonneg b
  have pc := sq_nonneg c
  have pd := sq_nonneg d
  have hb' : |s1 * fl (b ^ 2) - s1 * b ^ 2| ≤ ulp * b ^ 2 := by rw [← mul_sub, abs_mul, h1, one_mul]; exact hB
  have hc' : |s2 * fl (c ^ 2) - s2 * c ^ 2| ≤ ulp * c ^ 2 := by rw [← mul_sub, abs_mul, h2, one_mul]; exact hC
  have hd' : |s3 * fl (d ^ 2) - s3 * d ^ 2| ≤ ulp * d ^ 2 := by rw [← mul_sub, abs_mul, h3, one_mul]; exact hD
  have mb : |s1 * b ^ 2| = b ^ 2 := by rw [abs_mul, h1, one_mul, abs_of_nonneg pb]
  have mc : |s2 * c ^ 2| = c ^ 2 := by rw [abs_mul, h2, one_mul, abs_of_nonneg pc]
  have md : |s3 * d ^ 2| = d ^ 2 := by rw [abs_mul, h3, one_mul, abs_of_nonneg pd]
  generalize s1 * fl (b ^ 2) = B at hb' ⊢
  generalize s2 * fl (c ^ 2) = C at hc' ⊢
  generalize s3 * fl (d ^ 2) = D at hd' ⊢
  generalize s1 * b ^ 2 = b2 at hb' mb ⊢
  generalize s2 * c ^ 2 = c2 at hc' mc ⊢
  generalize s3 * d ^ 2 = d2 at hd' md ⊢
  generalize fl (a ^ 2) = A at hA ⊢
  have ab := abs_le.1 (mb.le)
  have ac := abs_le.1 (mc.le)
  have ad := abs_le.1 (md.le)
  rw [abs_le] at hA hb' hc' hd'
  -- the three additions
  have k1 := H.err (A + B)
  generalize fl (A + B) = P at k1 ⊢
  have k2 := H.err (P + C)
  generalize fl (P + C) = Q at k2 ⊢
  have k3 := H.err (Q + D)
  generalize fl (Q + D) = R at k3 ⊢
  have uS : ulp * S ≤ 1 / 1000000 * S := mul_le_mul_of_nonneg_right u1 hS0
  have z1 : |A + B| ≤ 1.01 * S := by rw [abs_le]; constructor <;> linarith
  have w1 := mul_le_mul_of_nonneg_left z1 u0.le
  rw [abs_le] at k1
  have z2 : |P + C| ≤ 1.01 * S := by rw [abs_le]; constructor <;> linarith
  have w2 := mul_le_mul_of_nonneg_left z2 u0.le
  rw [abs_le] at k2
  have z3 : |Q + D| ≤ 1.01 * S := by rw [abs_le]; constructor <;> linarith
  have w3 := mul_le_mul_of_nonneg_left z3 u0.le
  rw [abs_le] at k3
  rw [abs_le]
  constructor <;> nlinarith

omit H in
/-- Half the sum of the squares bounds the products. -/
theorem pair_le (a b c d : ℝ) : |a * c| + |b * d| ≤ (a ^ 2 + b ^ 2 + c ^ 2 + d ^ 2) / 2 := by
  rw [abs_mul, abs_mul]
  nlinarith [sq_nonneg (|a| - |c|), sq_nonneg (|b| - |d|), sq_abs a, sq_abs b, sq_abs c, sq_abs d]

/-- The sine of the declination before the arctangent. -/
theorem eqXn_err {q : V4} {S : ℝ} (hS : S = q 0 ^ 2 + q 1 ^ 2 + q 2 ^ 2 + q 3 ^ 2) :
    |eqXn fl q - 2 * (q 0 * q 2 - q 1 * q 3)| ≤ 4 * ulp * S ∧ |2 * (q 0 * q 2 - q 1 * q 3)| ≤ S := by
  have := two_sum H (x := q 0 * q 2) (y := -(q 1 * q 3)) (p := fl (q 0 * q 2)) (r := -fl (q 1 * q 3)) (S := S)
    (by rw [abs_neg, hS]; exact pair_le _ _ _ _) (H.err _)
    (by rw [← neg_sub', abs_neg, abs_neg]; exact H.err _)
  rwa [← sub_eq_add_neg, ← sub_eq_add_neg] at this

/-- An angle of `_quat2equatorial` that is a whole turn wide points where the exact one does. -/
theorem turn_err {A : ℝ → ℝ → ℝ} (hA : Atan2 fl A) {x y x' y' n r : ℝ} (hx : |x' - x| ≤ 8 * ulp) (hy : |y' - y| ≤ 8 * ulp)
    (hn0 : 0 ≤ n) (hn : n ^ 2 = x ^ 2 + y ^ 2) (hn1 : n ≤ 1.01)
    (hr : r = wrap fl (degrees fl (A y' x'))) :
    |n * Real.cos (r * Real.pi / 180) - x| ≤ 1e-14 ∧ |n * Real.sin (r * Real.pi / 180) - y| ≤ 1e-14 := by
  have u0 := ulp_pos
  have u1 := ulp_small
  have hp := Real.pi_lt_d2
  have hp0 := Real.pi_pos
  obtain ⟨θ, hθ⟩ : ∃ θ, θ = npArctan2 y' x' := ⟨_, rfl⟩
  obtain ⟨m, hm⟩ : ∃ m, m = ‖(⟨x', y'⟩ : ℂ)‖ := ⟨_, rfl⟩
  have hm0 : 0 ≤ m := hm ▸ norm_nonneg _
  have c1 : m * Real.cos θ = x' := by
    rw [hm, hθ]; exact Complex.norm_mul_cos_arg _
  have c2 : m * Real.sin θ = y' := by
    rw [hm, hθ]; exact Complex.norm_mul_sin_arg _
  have hnm : |n - m| ≤ 16 * ulp := by
    have e1 : n = ‖(⟨x, y⟩ : ℂ)‖ := by
      have := Complex.sq_norm (⟨x, y⟩ : ℂ)
      rw [Complex.normSq_mk] at this
      exact (pow_left_inj₀ hn0 (norm_nonneg _) two_ne_zero).1 (by rw [hn, this]; ring)
    rw [e1, hm]
    refine (abs_norm_sub_norm_le _ _).trans ((Complex.norm_le_abs_re_add_abs_im _).trans ?_)
    show |x - x'| + |y - y'| ≤ _
    rw [abs_sub_comm x, abs_sub_comm y]
    linarith
  have hm1 : m ≤ 1.02 := by
    have := (abs_le.1 hnm).1
    norm_num at *
    linarith
  -- the angle
  have hθa : |θ| ≤ Real.pi := hθ ▸ Complex.abs_arg_le_pi _
  have a1 := hA.near y' x'
  rw [← hθ] at a1
  have a2 : |A y' x' - θ| ≤ 6.3 * ulp := a1.trans (by nlinarith)
  have a3 : |A y' x'| ≤ 3.16 := by
    have := abs_sub_abs_le_abs_sub (A y' x') θ
    norm_num at *
    linarith
  have a4 := degrees_err H (A y' x')
  have a5 : |degrees fl (A y' x') * Real.pi / 180 - A y' x'| ≤ 12.64 * ulp := a4.trans (by nlinarith)
  obtain ⟨k, hk⟩ : ∃ k : ℕ, |r * Real.pi / 180 - (θ + k * (2 * Real.pi))| ≤ 26 * ulp := by
    have h0 : |degrees fl (A y' x') * Real.pi / 180 - θ| ≤ 19 * ulp := by
      have := abs_sub_le (degrees fl (A y' x') * Real.pi / 180) (A y' x') θ
      linarith
    have hd := abs_le.1 (degrees_turn H (hA.turn y' x'))
    generalize degrees fl (A y' x') = d at *
    unfold wrap at hr
    split_ifs at hr with h
    · refine ⟨1, ?_⟩
      have e := H.err (d + 360)
      rw [← hr, abs_of_pos (by linarith : 0 < d + 360)] at e
      have e' : |r - (d + 360)| ≤ 360 * ulp := e.trans (by nlinarith)
      rw [show r * Real.pi / 180 - (θ + (1 : ℕ) * (2 * Real.pi)) =
        (r - (d + 360)) * (Real.pi / 180) + (d * Real.pi / 180 - θ) by push_cast; ring]
      refine (abs_add_le _ _).trans ?_
      rw [abs_mul, abs_of_pos (by positivity : 0 < Real.pi / 180)]
      have := mul_le_mul_of_nonneg_right e' (by positivity : 0 ≤ Real.pi / 180)
      nlinarith
    · refine ⟨0, ?_⟩
      rw [hr, Nat.cast_zero, zero_mul, add_zero]
      linarith
  have t : 90 * ulp ≤ 1e-14 := by unfold ulp; norm_num
  have s1 := Real.abs_cos_sub_cos_le (r * Real.pi / 180) (θ + k * (2 * Real.pi))
  have s2 := Real.abs_sin_sub_sin_le (r * Real.pi / 180) (θ + k * (2 * Real.pi))
  rw [Real.cos_add_nat_mul_two_pi] at s1
  rw [Real.sin_add_nat_mul_two_pi] at s2
  have key : ∀ {p q z z' : ℝ}, |p| ≤ 1 → |p - q| ≤ 26 * ulp → m * q = z' → |z' - z| ≤ 8 * ulp → |n * p - z| ≤ 1e-14 := by
    intro p q z z' h1 h2 h3 h4
    rw [show n * p - z = (n - m) * p + m * (p - q) + (z' - z) by rw [← h3]; ring]
    refine (abs_add_le _ _).trans ((add_le_add (abs_add_le _ _) le_rfl).trans ?_)
    rw [abs_mul, abs_mul, abs_of_nonneg hm0]
    have k1 := mul_le_of_le_one_right (abs_nonneg (n - m)) h1
    have k2 : m * |p - q| ≤ 1.02 * (26 * ulp) := mul_le_mul hm1 h2 (abs_nonneg _) (by norm_num)
    linarith
  exact ⟨key (Real.abs_cos_le_one _) (s1.trans hk) c1 hx, key (Real.abs_sin_le_one _) (s2.trans hk) c2 hy⟩

/-- What is under the root, for a quaternion of length 1 up to five roundings. -/
theorem eqRoot {q : V4} (hq : |npNorm q - 1| ≤ 5 / 2 ^ 53) :
    |eqXn fl q - 2 * (q 0 * q 2 - q 1 * q 3)| ≤ 5 * ulp ∧ -fl 1e-12 ≤ fl (1 - fl (eqXn fl q * eqXn fl q)) ∧
      ∀ om, om = (if fl (1 - fl (eqXn fl q * eqXn fl q)) < 0 then 0 else fl (1 - fl (eqXn fl q * eqXn fl q))) →
        |eqXn fl q ^ 2 + fl (Real.sqrt om) ^ 2 - 1| ≤ 50 * ulp ∧ 0 ≤ fl (Real.sqrt om) := by
  have u0 := ulp_pos
  have u1 := ulp_small
  rw [show (5 : ℝ) / 2 ^ 53 = 5 * ulp by unfold ulp; ring] at hq
  obtain ⟨q1, q2⟩ := abs_le.1 hq
  have uu : ulp * ulp ≤ 1 / 1000000 * ulp := mul_le_mul_of_nonneg_right u1 u0.le
  have hS : npNorm q ^ 2 = q 0 ^ 2 + q 1 ^ 2 + q 2 ^ 2 + q 3 ^ 2 := by
    rw [npNorm_sq, Fin.sum_univ_four]
  have hS1 : npNorm q ^ 2 ≤ 1 + 11 * ulp := by nlinarith [npNorm_nonneg q]
  obtain ⟨e1, e2⟩ := eqXn_err H hS
  obtain ⟨X, hX⟩ : ∃ X, X = eqXn fl q := ⟨_, rfl⟩
  rw [← hX] at e1 ⊢
  have e3 : |X - 2 * (q 0 * q 2 - q 1 * q 3)| ≤ 5 * ulp := e1.trans (by nlinarith)
  have hXa : |X| ≤ 1 + 16 * ulp := by
    have := abs_sub_abs_le_abs_sub X (2 * (q 0 * q 2 - q 1 * q 3))
    linarith
  have hX2 : X ^ 2 ≤ 1 + 33 * ulp := by
    rw [← sq_abs]
    have := abs_nonneg X
    nlinarith
  have hX0 := sq_nonneg X
  obtain ⟨s, hs⟩ : ∃ s, s = fl (X * X) := ⟨_, rfl⟩
  have f1 := H.err (X * X)
  rw [← hs, ← sq, abs_of_nonneg hX0, abs_le] at f1
  have f2 : ulp * X ^ 2 ≤ 2 * ulp := by nlinarith
  have s0 : 0 ≤ s := by rw [hs]; exact H.nonneg (mul_self_nonneg X)
  obtain ⟨o, ho⟩ : ∃ o, o = fl (1 - s) := ⟨_, rfl⟩
  have g1 := H.err (1 - s)
  rw [← ho, abs_le] at g1
  have g2 : |1 - s| ≤ 1 := by rw [abs_le]; constructor <;> linarith
  have g3 := mul_le_mul_of_nonneg_left g2 u0.le
  rw [← hs, ← ho]
  have hlow : -(38 * ulp) ≤ o := by linarith
  refine ⟨e3, ?_, fun om hom => ?_⟩
  · have : (1 - ulp) * 1e-12 ≤ fl 1e-12 := H.mul_le (by norm_num)
    have : 38 * ulp ≤ 1e-14 := by unfold ulp; norm_num
    have : (1 - ulp) * 1e-12 ≥ (1 - 1 / 1000000) * 1e-12 := by
      refine mul_le_mul_of_nonneg_right ?_ (by norm_num); linarith
    norm_num at *
    linarith
  · have h0 : 0 ≤ om ∧ |om - (1 - X ^ 2)| ≤ 40 * ulp ∧ om ≤ 2 := by
      rw [hom]
      split_ifs with h
      · refine ⟨le_rfl, ?_, by norm_num⟩
        rw [abs_le]; constructor <;> linarith
      · push Not at h
        refine ⟨h, ?_, by linarith⟩
        rw [abs_le]; constructor <;> linarith
    obtain ⟨h1, h2, h3⟩ := h0
    have r0 := Real.sqrt_nonneg om
    have r1 := H.le_mul r0
    have r2 := H.mul_le r0
    have r3 := Real.sq_sqrt h1
    refine ⟨?_, H.nonneg r0⟩
    have w0 := H.nonneg r0
    obtain ⟨w, hw⟩ : ∃ w, w = fl (Real.sqrt om) := ⟨_, rfl⟩
    rw [← hw] at r1 r2 w0 ⊢
    have k1 : w ^ 2 ≤ (1 + ulp) ^ 2 * om := by
      rw [← r3, ← mul_pow]; exact pow_le_pow_left₀ w0 r1 2
    have k2 : (1 - ulp) ^ 2 * om ≤ w ^ 2 := by
      rw [← r3, ← mul_pow]; exact pow_le_pow_left₀ (mul_nonneg (by linarith) r0) r2 2
    have k3 : ulp * om ≤ 2 * ulp := by nlinarith
    have k4 : ulp * ulp * om ≤ 1 / 1000000 * (2 * ulp) := by nlinarith
    have k5 : 0 ≤ ulp * ulp * om := by positivity
    obtain ⟨h4, h5⟩ := abs_le.1 h2
    have k6 : (1 + ulp) ^ 2 * om = om + 2 * (ulp * om) + ulp * ulp * om := by ring
    have k7 : (1 - ulp) ^ 2 * om = om - 2 * (ulp * om) + ulp * ulp * om := by ring
    rw [k6] at k1
    rw [k7] at k2
    rw [abs_le]
    constructor <;> linarith

end consts

/-- There is never a root of a negative number. -/
theorem equatorial_eq (fl : ℝ → ℝ) (A : ℝ → ℝ → ℝ) (q : V4) : ∃ om,
    om = (if fl (1 - fl (eqXn fl q * eqXn fl q)) < 0 then 0 else fl (1 - fl (eqXn fl q * eqXn fl q))) ∧
    quat2equatorial fl A q = if fl (1 - fl (eqXn fl q * eqXn fl q)) < -fl 1e-12 then .error .valueError else
      .ok ![wrap fl (degrees fl (A (eqXb fl q) (eqXa fl q))), degrees fl (A (eqXn fl q) (fl (Real.sqrt om))),
        wrap fl (degrees fl (A (eqYn fl q) (eqZn fl q)))] := by
  have hom : ¬ (if fl (1 - fl (eqXn fl q * eqXn fl q)) < 0 then 0 else fl (1 - fl (eqXn fl q * eqXn fl q))) < 0 := by
    split_ifs with h
    · exact lt_irrefl 0
    · exact h
  refine ⟨_, rfl, ?_⟩
  unfold quat2equatorial
  dsimp only
  rw [if_neg hom]

/-- The declination after the arctangent. -/
theorem dec_err {fl : ℝ → ℝ} (H : Nearest fl) {A : ℝ → ℝ → ℝ} (hA : Atan2 fl A) {X w xn : ℝ} (e1 : |X - xn| ≤ 5 * ulp)
    (f1 : |X ^ 2 + w ^ 2 - 1| ≤ 50 * ulp) (f2 : 0 ≤ w) :
    |Real.sin (degrees fl (A X w) * Real.pi / 180) - xn| ≤ 1e-14 := by
  have u0 := ulp_pos
  have u1 := ulp_small
  -- the arctangent
  have hsin : |Real.sin (npArctan2 X w) - X| ≤ 50 * ulp := by
    unfold npArctan2
    rw [Complex.sin_arg]
    have hn := Complex.sq_norm (⟨w, X⟩ : ℂ)
    rw [Complex.normSq_mk] at hn
    have n0 := norm_nonneg (⟨w, X⟩ : ℂ)
    generalize ‖(⟨w, X⟩ : ℂ)‖ = n at hn n0
    have hn2 : n ^ 2 = X ^ 2 + w ^ 2 := by rw [hn]; ring
    rw [← hn2] at f1
    have npos : 0 < n := by
      rcases n0.eq_or_lt with h | h
      · rw [← h] at f1
        norm_num at f1
        linarith
      · exact h
    have hXn : |X| ≤ n := abs_le_of_sq_le_sq (by rw [hn2]; linarith [sq_nonneg w]) n0
    have h1 : |n - 1| ≤ |n ^ 2 - 1| := by
      rw [show n ^ 2 - 1 = (n - 1) * (n + 1) by ring, abs_mul, abs_of_pos (by linarith : 0 < n + 1)]
      exact le_mul_of_one_le_right (abs_nonneg _) (by linarith)
    show |X / n - X| ≤ _
    rw [show X / n - X = -(X / n * (n - 1)) by field_simp; ring, abs_neg, abs_mul, abs_div, abs_of_pos npos]
    have h2 : |X| / n ≤ 1 := (div_le_one npos).2 hXn
    exact (mul_le_of_le_one_left (abs_nonneg _) h2).trans (h1.trans f1)
  have hθ : |npArctan2 X w| ≤ 2 := by
    have : |npArctan2 X w| ≤ Real.pi / 2 := Complex.abs_arg_le_pi_div_two_iff.2 f2
    linarith [Real.pi_le_four]
  have hA1 := hA.near X w
  have hA2 : |A X w - npArctan2 X w| ≤ 4 * ulp := hA1.trans (by nlinarith)
  have hA3 : |A X w| ≤ 3 := by
    have := abs_sub_abs_le_abs_sub (A X w) (npArctan2 X w)
    linarith
  have hd := degrees_err H (A X w)
  have hd2 : |degrees fl (A X w) * Real.pi / 180 - A X w| ≤ 12 * ulp := hd.trans (by nlinarith)
  have hs2 := Real.abs_sin_sub_sin_le (degrees fl (A X w) * Real.pi / 180) (npArctan2 X w)
  have t1 : |degrees fl (A X w) * Real.pi / 180 - npArctan2 X w| ≤ 16 * ulp := by
    have := abs_sub_le (degrees fl (A X w) * Real.pi / 180) (A X w) (npArctan2 X w)
    linarith
  have t2 := abs_sub_le (Real.sin (degrees fl (A X w) * Real.pi / 180)) (Real.sin (npArctan2 X w)) X
  have t3 := abs_sub_le (Real.sin (degrees fl (A X w) * Real.pi / 180)) X xn
  have t4 : 71 * ulp ≤ 1e-14 := by unfold ulp; norm_num
  linarith

/-- C220: in binary64 arithmetic, however the norm is summed, the angles of a quaternion that `normalize` returned are
computed without an exception. They are those of the rotation matrix of the quaternion up to 1e-14: the sine of the
declination, and the points of its first row and third column to which right ascension and roll belong. -/
theorem C220_accepts {fl : ℝ → ℝ} (H : Nearest fl) {A : ℝ → ℝ → ℝ} (hA : Atan2 fl A) {q r : V4} (hq : ∀ i, IsFloat (q i))
    (h0 : q ≠ 0) (h : Normalize fl q r) {xa xb xn yn zn : ℝ} (hxa : xa = r 0 ^ 2 - r 1 ^ 2 - r 2 ^ 2 + r 3 ^ 2)
    (hxb : xb = 2 * (r 0 * r 1 + r 2 * r 3)) (hxn : xn = 2 * (r 0 * r 2 - r 1 * r 3)) (hyn : yn = 2 * (r 1 * r 2 + r 0 * r 3))
    (hzn : zn = r 3 ^ 2 + r 2 ^ 2 - r 0 ^ 2 - r 1 ^ 2) :
    ∃ a, quat2equatorial fl A r = .ok a ∧ |Real.sin (a 1 * Real.pi / 180) - xn| ≤ 1e-14 ∧
      |√(xa ^ 2 + xb ^ 2) * Real.cos (a 0 * Real.pi / 180) - xa| ≤ 1e-14 ∧
      |√(xa ^ 2 + xb ^ 2) * Real.sin (a 0 * Real.pi / 180) - xb| ≤ 1e-14 ∧
      |√(zn ^ 2 + yn ^ 2) * Real.cos (a 2 * Real.pi / 180) - zn| ≤ 1e-14 ∧
      |√(zn ^ 2 + yn ^ 2) * Real.sin (a 2 * Real.pi / 180) - yn| ≤ 1e-14 := by
  have hlen := (C167_unit H le_rfl hq h0 h).length
  obtain ⟨e1, e2, e3⟩ := eqRoot H hlen
  rw [← hxn] at e1
  change |npNorm r - 1| ≤ 5 / 2 ^ 53 at hlen
  have hS : npNorm r ^ 2 = r 0 ^ 2 + r 1 ^ 2 + r 2 ^ 2 + r 3 ^ 2 := by rw [npNorm_sq, Fin.sum_univ_four]
  have hS1 : npNorm r ^ 2 ≤ 1.001 := by
    have h1 := (abs_le.1 hlen).2
    have h2 : npNorm r ≤ 1.0001 := by norm_num at h1 ⊢; linarith
    exact (pow_le_pow_left₀ (npNorm_nonneg r) h2 2).trans (by norm_num)
  obtain ⟨S, hSd⟩ : ∃ S, S = npNorm r ^ 2 := ⟨_, rfl⟩
  rw [← hSd] at hS hS1
  have hS0 : 0 ≤ S := by rw [hS]; positivity
  have u0 := ulp_pos
  have u1 := ulp_small
  have hu5 : 5 * ulp * S ≤ 8 * ulp := by nlinarith
  have hu4 : 4 * ulp * S ≤ 8 * ulp := by nlinarith
  have hSq : S ^ 2 ≤ 1.01 := (pow_le_pow_left₀ hS0 hS1 2).trans (by norm_num)
  have dxa : |eqXa fl r - xa| ≤ 8 * ulp := by
    have := four_sum H (a := r 0) (b := r 1) (c := r 2) (d := r 3) (s1 := -1) (s2 := -1) (s3 := 1) (by norm_num) (by norm_num)
      (by norm_num) hS
    rw [neg_one_mul, neg_one_mul, neg_one_mul, neg_one_mul, one_mul, one_mul, ← sub_eq_add_neg, ← sub_eq_add_neg,
      ← sub_eq_add_neg, ← sub_eq_add_neg, ← hxa] at this
    exact this.trans hu5
  have dzn : |eqZn fl r - zn| ≤ 8 * ulp := by
    have := four_sum H (a := r 3) (b := r 2) (c := r 0) (d := r 1) (s1 := 1) (s2 := -1) (s3 := -1) (S := S) (by norm_num)
      (by norm_num) (by norm_num) (by rw [hS]; ring)
    rw [neg_one_mul, neg_one_mul, neg_one_mul, neg_one_mul, one_mul, one_mul, ← sub_eq_add_neg, ← sub_eq_add_neg,
      ← sub_eq_add_neg, ← sub_eq_add_neg, ← hzn] at this
    exact this.trans hu5
  have dxb : |eqXb fl r - xb| ≤ 8 * ulp := by
    rw [hxb]
    exact (two_sum H (S := S) (by rw [hS]; exact (pair_le (r 0) (r 2) (r 1) (r 3)).trans (le_of_eq (by ring)))
      (H.err _) (H.err _)).1.trans hu4
  have dyn : |eqYn fl r - yn| ≤ 8 * ulp := by
    rw [hyn]
    exact (two_sum H (S := S) (by rw [hS]; exact (pair_le (r 1) (r 0) (r 2) (r 3)).trans (le_of_eq (by ring)))
      (H.err _) (H.err _)).1.trans hu4
  have id1 : xa ^ 2 + xb ^ 2 = S ^ 2 - xn ^ 2 := by rw [hxa, hxb, hxn, hS]; ring
  have id2 : zn ^ 2 + yn ^ 2 = S ^ 2 - xn ^ 2 := by rw [hzn, hyn, hxn, hS]; ring
  have n1 : √(xa ^ 2 + xb ^ 2) ≤ 1.01 := Real.sqrt_le_iff.2 ⟨by norm_num, by rw [id1]; norm_num at *; linarith [sq_nonneg xn]⟩
  have n2 : √(zn ^ 2 + yn ^ 2) ≤ 1.01 := Real.sqrt_le_iff.2 ⟨by norm_num, by rw [id2]; norm_num at *; linarith [sq_nonneg xn]⟩
  obtain ⟨om, hom, heq⟩ := equatorial_eq fl A r
  rw [heq, if_neg (not_lt.2 e2)]
  refine ⟨_, rfl, ?_, ?_⟩
  swap
  · obtain ⟨g1, g2⟩ := turn_err H hA dxa dxb (Real.sqrt_nonneg _) (Real.sq_sqrt (by positivity)) n1 rfl
    obtain ⟨g3, g4⟩ := turn_err H hA dzn dyn (Real.sqrt_nonneg _) (Real.sq_sqrt (by positivity)) n2 rfl
    exact ⟨g1, g2, g3, g4⟩
  exact dec_err H hA e1 (e3 om hom).1 (e3 om hom).2

/-- The ranges that the comments of `_quat2equatorial` promise. -/
def C220_claim : Prop :=
  ∀ fl : ℝ → ℝ, Nearest fl → ∀ A, Atan2 fl A → ∀ q r : V4, (∀ i, IsFloat (q i)) → q ≠ 0 → Normalize fl q r →
    ∀ a, quat2equatorial fl A r = .ok a → 0 ≤ a 0 ∧ a 0 < 360 ∧ -90 ≤ a 1 ∧ a 1 ≤ 90 ∧ 0 ≤ a 2 ∧ a 2 < 360

/-- C220, what holds: right ascension and roll are from 0 to 360 degrees and the declination from -90 to 90, for every
quaternion. Missing: that right ascension and roll are less than 360. -/
theorem C220_range_partial {fl : ℝ → ℝ} (H : Nearest fl) {A : ℝ → ℝ → ℝ} (hA : Atan2 fl A) (q : V4) (a : V3)
    (h : quat2equatorial fl A q = .ok a) :
    0 ≤ a 0 ∧ a 0 ≤ 360 ∧ -90 ≤ a 1 ∧ a 1 ≤ 90 ∧ 0 ≤ a 2 ∧ a 2 ≤ 360 := by
  have hturn : ∀ y x, 0 ≤ wrap fl (degrees fl (A y x)) ∧ wrap fl (degrees fl (A y x)) ≤ 360 := fun y x => by
    have h1 := abs_le.1 (degrees_turn H (hA.turn y x))
    have hf : IsFloat 360 := ⟨360, 0, by norm_num, by norm_num⟩
    unfold wrap
    split_ifs with h2
    · exact ⟨H.nonneg (by linarith), H.le_float hf (by linarith)⟩
    · exact ⟨not_lt.1 h2, by linarith⟩
  obtain ⟨om, -, heq⟩ := equatorial_eq fl A q
  rw [heq] at h
  split at h
  · cases h
  · injection h with h
    rw [← h]
    have h3 := abs_le.1 (degrees_half H (hA.half (eqXn fl q) _ (H.nonneg (Real.sqrt_nonneg om))))
    exact ⟨(hturn _ _).1, (hturn _ _).2, h3.1, h3.2, (hturn _ _).1, (hturn _ _).2⟩

/-- An arctangent that is rounded correctly is one. -/
theorem atan2_exists {fl : ℝ → ℝ} (H : Nearest fl) : Atan2 fl fun y x => fl (npArctan2 y x) := by
  have h1 := Real.pi_gt_d20
  have h2 := Real.pi_lt_d20
  have n1 : fl (-Real.pi) = -fl Real.pi := by
    rw [fl_pi H, show -F 7074237752028440 (-51) = F (-7074237752028440) (-51) by norm_num [F]]
    refine H.of_near (by norm_num) (by norm_num) ?_
    rw [abs_lt]
    norm_num [F] at h1 h2 ⊢
    constructor <;> linarith
  have n2 : fl (-(Real.pi / 2)) = -fl (Real.pi / 2) := by
    rw [fl_half_pi H, show -F 7074237752028440 (-52) = F (-7074237752028440) (-52) by norm_num [F]]
    refine H.of_near (by norm_num) (by norm_num) ?_
    rw [abs_lt]
    norm_num [F] at h1 h2 ⊢
    constructor <;> linarith
  refine ⟨fun y x => H.rep _, fun y x => (H.err _).trans ?_, fun y x => ?_, fun y x hx => ?_⟩
  · have := mul_nonneg ulp_pos.le (abs_nonneg (npArctan2 y x))
    linarith
  · obtain ⟨k1, k2⟩ := abs_le.1 (Complex.abs_arg_le_pi (⟨x, y⟩ : ℂ))
    exact abs_le.2 ⟨n1 ▸ H.mono k1, H.mono k2⟩
  · obtain ⟨k1, k2⟩ := abs_le.1 (Complex.abs_arg_le_pi_div_two_iff.2 (show 0 ≤ (⟨x, y⟩ : ℂ).re from hx))
    exact abs_le.2 ⟨n2 ▸ H.mono k1, H.mono k2⟩

/-- `normalize` of four floats, step by step. -/
theorem normalize_of {fl : ℝ → ℝ} {a b c d s1 s2 s3 s4 n a' b' c' d' : ℝ} (h1 : fl (a * a + 0) = s1)
    (h2 : fl (b * b + s1) = s2) (h3 : fl (c * c + s2) = s3) (h4 : fl (d * d + s3) = s4)
    (hn : fl (Real.sqrt s4) = n) (h0 : n ≠ 0) (ha : fl (a / n) = a') (hb : fl (b / n) = b')
    (hc : fl (c / n) = c') (hd : fl (d / n) = d') :
    Normalize fl ![a, b, c, d] ![a', b', c', d'] := by
  obtain ⟨N, hN, hN0, h⟩ := simNormalize_of h1 h2 h3 h4 hn h0 ha hb hc hd
  exact ⟨N, hN, by rw [if_neg hN0]; exact h⟩

/-- C220 is violated: a right ascension a little below 0 comes back as 360, whatever the ties and whatever the
arctangent. -/
theorem C220_turn {fl : ℝ → ℝ} (H : Nearest fl) {A : ℝ → ℝ → ℝ} (hA : Atan2 fl A) :
    Normalize fl (![1, -(1 / 2 ^ 60), 0, 0] : V4) ![1, -(1 / 2 ^ 60), 0, 0] ∧
    ∃ a, quat2equatorial fl A ![1, -(1 / 2 ^ 60), 0, 0] = .ok a ∧ a 0 = 360 := by
  have f0 : fl 0 = 0 := H.zero
  have f1 : fl 1 = 1 := H.one
  have hs : fl (-(1 / 2 ^ 60) * -(1 / 2 ^ 60)) = 1 / 2 ^ 120 := by
    rw [show -(1 / 2 ^ 60) * -(1 / 2 ^ 60) = (1 / 2 ^ 120 : ℝ) by norm_num]
    exact H.eq_self ⟨1, -120, by norm_num, by norm_num⟩
  have hone : ∀ x : ℝ, |x - 1| ≤ 1 / 2 ^ 60 → fl x = 1 := fun x hx => by
    have e : (1 : ℝ) = F 4503599627370496 (-52) := by norm_num [F]
    rw [e] at hx ⊢
    exact H.of_pow (lt_of_le_of_lt hx (by norm_num [F]))
  have hb : fl (-(1 / 2 ^ 60)) = -(1 / 2 ^ 60) := H.eq_self ⟨-1, -60, by norm_num, by norm_num⟩
  have hn : Normalize fl (![1, -(1 / 2 ^ 60), 0, 0] : V4) ![1, -(1 / 2 ^ 60), 0, 0] := by
    refine normalize_of (s1 := 1) (s2 := 1) (s3 := 1) (s4 := 1) (n := 1) ?_ ?_ ?_ ?_ ?_ one_ne_zero ?_ ?_ ?_ ?_
    · norm_num [f1]
    · exact hone _ (by norm_num)
    · norm_num [f1]
    · norm_num [f1]
    · norm_num [f1]
    · norm_num [f1]
    · rw [div_one]; exact hb
    · norm_num [f0]
    · norm_num [f0]
  refine ⟨hn, ?_⟩
  obtain ⟨a, ha, -⟩ := C220_accepts H hA (q := ![1, -(1 / 2 ^ 60), 0, 0]) (fun i => by
    fin_cases i
    · exact isFloat_one
    · exact ⟨-1, -60, by norm_num, by norm_num⟩
    · exact isFloat_zero
    · exact isFloat_zero) (fun h => by have := congrFun h 0; norm_num at this) hn rfl rfl rfl rfl rfl
  refine ⟨a, ha, ?_⟩
  obtain ⟨om, -, heq⟩ := equatorial_eq fl A ![1, -(1 / 2 ^ 60), 0, 0]
  rw [heq] at ha
  split at ha
  · cases ha
  · injection ha with ha
    rw [← ha]
    have exa : eqXa fl ![1, -(1 / 2 ^ 60), 0, 0] = 1 := by
      show fl (fl (fl (fl (1 * 1) - fl (-(1 / 2 ^ 60) * -(1 / 2 ^ 60))) - fl (0 * 0)) + fl (0 * 0)) = 1
      rw [hs, mul_one, f1, mul_zero, f0, hone (1 - 1 / 2 ^ 120) (by norm_num), sub_zero, f1, add_zero, f1]
    have exb : eqXb fl ![1, -(1 / 2 ^ 60), 0, 0] = -(1 / 2 ^ 59) := by
      show fl (2 * fl (fl (1 * -(1 / 2 ^ 60)) + fl (0 * 0))) = -(1 / 2 ^ 59)
      rw [one_mul, hb, mul_zero, f0, add_zero, hb, show 2 * -(1 / 2 ^ 60) = (-(1 / 2 ^ 59) : ℝ) by norm_num]
      exact H.eq_self ⟨-1, -59, by norm_num, by norm_num⟩
    rw [exa, exb, Matrix.cons_val_zero]
    -- the angle
    obtain ⟨θ, hθ⟩ : ∃ θ, θ = npArctan2 (-(1 / 2 ^ 59)) 1 := ⟨_, rfl⟩
    have t1 : θ < 0 := by rw [hθ]; unfold npArctan2; exact Complex.arg_neg_iff.2 (by norm_num)
    have t2 : -(1 / 2 ^ 58) ≤ θ := by
      have hhalf : |θ| ≤ Real.pi / 2 := by
        rw [hθ]; exact Complex.abs_arg_le_pi_div_two_iff.2 (show (0 : ℝ) ≤ 1 by norm_num)
      have j := Real.mul_abs_le_abs_sin hhalf
      have hsin : |Real.sin θ| ≤ 1 / 2 ^ 59 := by
        rw [hθ]
        unfold npArctan2
        rw [Complex.sin_arg, abs_div, abs_of_nonneg (norm_nonneg _)]
        have hn : 1 ≤ ‖(⟨1, -(1 / 2 ^ 59)⟩ : ℂ)‖ := by
          have := Complex.abs_re_le_norm (⟨1, -(1 / 2 ^ 59)⟩ : ℂ)
          simpa using this
        refine (div_le_self (abs_nonneg _) hn).trans ?_
        norm_num
      have hp : 1 / 2 ≤ 2 / Real.pi := by
        rw [div_le_div_iff₀ (by norm_num) Real.pi_pos]; linarith [Real.pi_le_four]
      have := mul_le_mul_of_nonneg_right hp (abs_nonneg θ)
      have := neg_abs_le θ
      norm_num at *
      linarith
    have k1 := hA.near (-(1 / 2 ^ 59)) 1
    rw [← hθ, abs_of_neg t1] at k1
    obtain ⟨B, hB⟩ : ∃ B, B = A (-(1 / 2 ^ 59)) 1 := ⟨_, rfl⟩
    rw [← hB, abs_le] at k1
    rw [← hB]
    have u0 := ulp_pos
    have u1 := ulp_small
    have b1 : B < 0 := by nlinarith
    have b2 : -(1 / 2 ^ 57) ≤ B := by nlinarith
    have hd : degrees fl B < 0 ∧ -(1 / 2 ^ 50) ≤ degrees fl B := by
      unfold degrees
      rw [fl_degree H]
      have c0 : (0 : ℝ) < F 8063664102031864 (-47) := by norm_num [F]
      have c1 : F 8063664102031864 (-47) ≤ 64 := by norm_num [F]
      have c2 := abs_le.1 (H.err (B * F 8063664102031864 (-47)))
      generalize F 8063664102031864 (-47) = k at c0 c1 c2
      have c3 : B * k < 0 := mul_neg_of_neg_of_pos b1 c0
      have c4 : -(64 / 2 ^ 57) ≤ B * k := by nlinarith
      rw [abs_of_neg c3] at c2
      constructor <;> nlinarith
    unfold wrap
    rw [if_pos hd.1]
    have : fl (degrees fl B + 360) = F 6333186975989760 (-44) := by
      refine H.of_near (by norm_num) (by norm_num) ?_
      rw [abs_lt]
      have := hd.1
      have := hd.2
      norm_num [F] at *
      constructor <;> linarith
    rw [this]
    norm_num [F]

theorem C220_fails : ¬ C220_claim := fun h => by
  obtain ⟨h1, a, h2, h3⟩ := C220_turn rn_nearest (atan2_exists rn_nearest)
  have := h rn rn_nearest _ (atan2_exists rn_nearest) _ _ (fun i => by
    fin_cases i
    · exact isFloat_one
    · exact ⟨-1, -60, by norm_num, by norm_num⟩
    · exact isFloat_zero
    · exact isFloat_zero) (fun h => by have := congrFun h 0; norm_num at this) h1 a h2
  rw [h3] at this
  exact lt_irrefl _ this.2.1

/-- C220: the tolerance of `_quat2equatorial` is needed: `normalize` of (3, 0, 3, 0) gives a quaternion with a sine of the
declination beyond 1, so that the number under the root would be negative. -/
theorem C220_tolerance {fl : ℝ → ℝ} (H : Nearest fl) : ∃ r : V4, Normalize fl ![3, 0, 3, 0] r ∧ 1 < eqXn fl r ∧
    fl (1 - fl (eqXn fl r * eqXn fl r)) < 0 := by
  obtain ⟨x, hx⟩ : ∃ x, x = F 6369051672525773 (-53) := ⟨_, rfl⟩
  have f0 : fl 0 = 0 := H.zero
  have hp : fl (x * x) = F 4503599627370497 (-53) := by rw [hx]; fln
  have hm : fl (0 * 0) = 0 := by rw [mul_zero, f0]
  have hsub : fl (F 4503599627370497 (-53) - 0) = F 4503599627370497 (-53) := by fle
  have h2 : fl (2 * F 4503599627370497 (-53)) = F 4503599627370497 (-52) := by fle
  have hX : eqXn fl ![x, 0, x, 0] = F 4503599627370497 (-52) := by
    show fl (2 * fl (fl (x * x) - fl (0 * 0))) = _
    rw [hp, hm, hsub, h2]
  have hsq : fl (F 4503599627370497 (-52) * F 4503599627370497 (-52)) = F 4503599627370498 (-52) := by fln
  have hfin : fl (1 - F 4503599627370498 (-52)) = F (-2) (-52) := by fle
  refine ⟨![x, 0, x, 0], ?_, ?_, ?_⟩
  · have h9 : fl (3 * 3 + 0) = 9 := by
      rw [show (3 * 3 + 0 : ℝ) = 9 by norm_num]
      exact H.eq_self ⟨9, 0, by norm_num, by norm_num⟩
    have h9' : fl (0 * 0 + 9) = 9 := by
      rw [show (0 * 0 + 9 : ℝ) = 9 by norm_num]
      exact H.eq_self ⟨9, 0, by norm_num, by norm_num⟩
    have h18 : fl (3 * 3 + 9) = 18 := by
      rw [show (3 * 3 + 9 : ℝ) = 18 by norm_num]
      exact H.eq_self ⟨18, 0, by norm_num, by norm_num⟩
    have h18' : fl (0 * 0 + 18) = 18 := by
      rw [show (0 * 0 + 18 : ℝ) = 18 by norm_num]
      exact H.eq_self ⟨18, 0, by norm_num, by norm_num⟩
    have hq : fl (Real.sqrt 18) = F 4776788754394329 (-50) :=
      H.of_near (by norm_num) (by norm_num) (sqrt_near (by norm_num) (by norm_num [F]) (by norm_num [F]) (by norm_num [F]))
    have hd : fl (3 / F 4776788754394329 (-50)) = x := by rw [hx]; fln
    refine normalize_of h9 h9' h18 h18' hq (by norm_num [F]) hd ?_ hd ?_ <;> rw [zero_div, f0]
  · rw [hX]; norm_num [F]
  · rw [hX, hsq, hfin]; norm_num [F]

/-- The hypotheses are met by (3, 0, 3, 0): its angles are returned. -/
example : ∃ (fl : ℝ → ℝ) (A : ℝ → ℝ → ℝ) (r : V4) (a : V3), Nearest fl ∧ Atan2 fl A ∧ Normalize fl ![3, 0, 3, 0] r ∧
    quat2equatorial fl A r = .ok a ∧ a 1 ≤ 90 := by
  obtain ⟨r, hr, -⟩ := C220_tolerance rn_nearest
  obtain ⟨a, ha, -⟩ := C220_accepts rn_nearest (atan2_exists rn_nearest) (fun i => by
    fin_cases i
    · exact ⟨3, 0, by norm_num, by norm_num⟩
    · exact isFloat_zero
    · exact ⟨3, 0, by norm_num, by norm_num⟩
    · exact isFloat_zero) (fun h => by have := congrFun h 0; norm_num at this) hr rfl rfl rfl rfl rfl
  exact ⟨rn, _, r, a, rn_nearest, atan2_exists rn_nearest, hr, ha,
    (C220_range_partial rn_nearest (atan2_exists rn_nearest) r a ha).2.2.2.1⟩

end Adcs
