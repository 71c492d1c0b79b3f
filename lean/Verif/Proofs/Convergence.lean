import Verif.Props.Tracking
import Mathlib.Analysis.SpecialFunctions.ExpDeriv

set_option autoImplicit false

/-! # Exponential decay of the attitude error under the tracking law -/

namespace Adcs

open Str Ctl Sens JDay Quat Vec Dyn
open scoped Matrix

theorem young {a b p c : ℝ} (ha : 0 ≤ a) (hb : 0 ≤ b) (hc : 0 < c) (h : p ^ 2 ≤ a * b) : |p| ≤ (c * b + a / c) / 2 := by
  apply abs_le_of_sq_le_sq _ (by positivity)
  have : (c * b + a / c) ^ 2 - 4 * (a * b) = (c * b - a / c) ^ 2 := by field_simp; ring
  nlinarith [sq_nonneg (c * b - a / c)]

/-- Constants for the gains. -/
theorem rate_exists {alpha gamma hw : ℝ} (ha : 0 < alpha) (hg : 0 < gamma) (h1 : hw < 1) :
    ∃ eps k : ℝ, 0 < eps ∧ 0 < k ∧ eps ^ 2 ≤ alpha / 2 ∧ eps * (1 + gamma ^ 2 / alpha) ≤ gamma ∧ 3 * k ≤ gamma ∧
      12 * k ≤ eps * (1 - hw) := by
  have hd : 0 < 1 + gamma ^ 2 / alpha := by positivity
  have h1' : 0 < 1 - hw := by linarith
  set e := min (Real.sqrt (alpha / 2)) (gamma / (1 + gamma ^ 2 / alpha)) with he
  have hep : 0 < e := lt_min (Real.sqrt_pos.2 (by positivity)) (by positivity)
  refine ⟨e, min (gamma / 3) (e * (1 - hw) / 12), hep, lt_min (by positivity) (by positivity), ?_, ?_, ?_, ?_⟩
  · have h := min_le_left (Real.sqrt (alpha / 2)) (gamma / (1 + gamma ^ 2 / alpha))
    rw [← he] at h
    calc e ^ 2 ≤ Real.sqrt (alpha / 2) ^ 2 := by gcongr
      _ = alpha / 2 := Real.sq_sqrt (by positivity)
  · have h := min_le_right (Real.sqrt (alpha / 2)) (gamma / (1 + gamma ^ 2 / alpha))
    rw [← he] at h
    exact (le_div_iff₀ hd).1 h
  · linarith [min_le_left (gamma / 3) (e * (1 - hw) / 12)]
  · linarith [min_le_right (gamma / 3) (e * (1 - hw) / 12)]

/-- The inequality behind the decay: `a = |w|^2`, `b = |e|^2`, `p = s e.w`, `x = s q0`, `r = w.d`, `u = s e.d`. -/
theorem decay_ineq {alpha gamma hw eps k a b p x r u D : ℝ} (ha : 0 < alpha) (hg : 0 < gamma) (he : 0 < eps)
    (hk : 0 < k) (h1 : eps ^ 2 ≤ alpha / 2) (h2 : eps * (1 + gamma ^ 2 / alpha) ≤ gamma) (h3 : 3 * k ≤ gamma)
    (h4 : 12 * k ≤ eps * (1 - hw)) (ha0 : 0 ≤ a) (hD : 0 ≤ D) (hb : b = 1 - x ^ 2) (hb0 : 0 ≤ b) (hx : -hw ≤ x)
    (hp : p ^ 2 ≤ a * b) (hr : r ^ 2 ≤ a * D) (hu : u ^ 2 ≤ b * D) :
    -gamma * a + r + eps * (x * a / 2 - alpha * b - gamma * p + u) ≤
      -k * (a / 2 + 2 * alpha * (1 - x) + eps * p) + (1 / gamma + eps / alpha) * D := by
  have hx1 : x ≤ 1 := by
    have : x ^ 2 ≤ 1 := by linarith
    exact (abs_le.1 ((sq_le_one_iff_abs_le_one x).1 this)).2
  have y1 := young ha0 hb0 (c := alpha / gamma) (by positivity) hp
  have y2 := young ha0 hD (c := 2 / gamma) (by positivity) hr
  have y3 := young hb0 hD (c := 2 / alpha) (by positivity) hu
  have y4 := young ha0 hb0 (c := 2 * eps) (by positivity) hp
  have e1 : gamma * ((alpha / gamma * b + a / (alpha / gamma)) / 2) = alpha * b / 2 + gamma ^ 2 / alpha * a / 2 := by
    field_simp
  have e2 : (2 / gamma * D + a / (2 / gamma)) / 2 = D / gamma + gamma * a / 4 := by field_simp; ring
  have e3 : (2 / alpha * D + b / (2 / alpha)) / 2 = D / alpha + alpha * b / 4 := by field_simp; ring
  have e4 : eps * ((2 * eps * b + a / (2 * eps)) / 2) = eps ^ 2 * b + a / 4 := by field_simp; ring
  have z1 : -(gamma * p) ≤ alpha * b / 2 + gamma ^ 2 / alpha * a / 2 := by
    rw [← e1, ← mul_neg]; exact mul_le_mul_of_nonneg_left ((neg_le_abs p).trans y1) hg.le
  have z2 : r ≤ D / gamma + gamma * a / 4 := by rw [← e2]; exact (le_abs_self r).trans y2
  have z3 : u ≤ D / alpha + alpha * b / 4 := by rw [← e3]; exact (le_abs_self u).trans y3
  have z4 : eps * p ≤ eps ^ 2 * b + a / 4 := by
    rw [← e4]; exact mul_le_mul_of_nonneg_left ((le_abs_self p).trans y4) he.le
  have hx2 : 0 ≤ 1 - x := by linarith
  have hb2 : b ≤ 2 * (1 - x) := by
    have e : 2 * (1 - x) - b = (1 - x) ^ 2 := by rw [hb]; ring
    linarith [sq_nonneg (1 - x)]
  have hb3 : (1 - hw) * (1 - x) ≤ b := by
    have e : b - (1 - hw) * (1 - x) = (1 - x) * (x + hw) := by rw [hb]; ring
    have : 0 ≤ (1 - x) * (x + hw) := mul_nonneg hx2 (by linarith)
    linarith
  have w1 : eps ^ 2 * b ≤ alpha * (1 - x) := by
    calc eps ^ 2 * b ≤ alpha / 2 * (2 * (1 - x)) := by gcongr
      _ = _ := by ring
  have hW : a / 2 + 2 * alpha * (1 - x) + eps * p ≤ 3 / 4 * a + 3 * alpha * (1 - x) := by linarith
  have hxa : x * a ≤ a := mul_le_of_le_one_left ha0 hx1
  have m1 : eps * (x * a / 2 - alpha * b - gamma * p + u) ≤
      eps * (a / 2 - alpha * b / 4 + gamma ^ 2 / alpha * a / 2 + D / alpha) := by
    apply mul_le_mul_of_nonneg_left _ he.le; linarith
  have m2 : eps * (1 + gamma ^ 2 / alpha) * (a / 2) ≤ gamma * (a / 2) := by gcongr
  have m3 : k * (a / 2 + 2 * alpha * (1 - x) + eps * p) ≤ k * (3 / 4 * a + 3 * alpha * (1 - x)) := by gcongr
  have m4 : 3 * k * (a / 4) ≤ gamma * (a / 4) := by gcongr
  have hax : 0 ≤ alpha * (1 - x) / 4 := by positivity
  have m5 : 12 * k * (alpha * (1 - x) / 4) ≤ eps * (1 - hw) * (alpha * (1 - x) / 4) := by gcongr
  have m6 : eps * alpha / 4 * ((1 - hw) * (1 - x)) ≤ eps * alpha / 4 * b := by gcongr
  have e5 : eps * (a / 2 - alpha * b / 4 + gamma ^ 2 / alpha * a / 2 + D / alpha) =
    eps * (1 + gamma ^ 2 / alpha) * (a / 2) - eps * alpha / 4 * b + eps / alpha * D := by ring
  have e6 : (1 / gamma + eps / alpha) * D = D / gamma + eps / alpha * D := by ring
  rw [e5] at m1
  rw [e6]
  have e7 : -k * (a / 2 + 2 * alpha * (1 - x) + eps * p) = -(k * (a / 2 + 2 * alpha * (1 - x) + eps * p)) := by ring
  have e8 : k * (3 / 4 * a + 3 * alpha * (1 - x)) = 3 * k * (a / 4) + 12 * k * (alpha * (1 - x) / 4) := by ring
  have e9 : eps * (1 - hw) * (alpha * (1 - x) / 4) = eps * alpha / 4 * ((1 - hw) * (1 - x)) := by ring
  have e10 : gamma * (a / 2) = 2 * (gamma * a / 4) := by ring
  have e11 : gamma * (a / 4) = gamma * a / 4 := by ring
  have e12 : -gamma * a = -4 * (gamma * a / 4) := by ring
  rw [e7, e12]
  rw [e8] at m3
  rw [e9] at m5
  rw [e10] at m2
  rw [e11] at m4
  linarith

/-- The strict function lies between half and three halves of the energy-like one. -/
theorem strict_bounds {alpha eps a b p x : ℝ} (ha : 0 < alpha) (he : 0 < eps) (h1 : eps ^ 2 ≤ alpha / 2) (ha0 : 0 ≤ a)
    (hb : b = 1 - x ^ 2) (hb0 : 0 ≤ b) (hp : p ^ 2 ≤ a * b) :
    |eps * p| ≤ (a / 2 + 2 * alpha * (1 - x)) / 2 := by
  have hx1 : x ≤ 1 := by
    have : x ^ 2 ≤ 1 := by linarith
    exact (abs_le.1 ((sq_le_one_iff_abs_le_one x).1 this)).2
  have y4 := young ha0 hb0 (c := 2 * eps) (by positivity) hp
  have e4 : eps * ((2 * eps * b + a / (2 * eps)) / 2) = eps ^ 2 * b + a / 4 := by field_simp; ring
  have hb2 : b ≤ 2 * (1 - x) := by
    have e : 2 * (1 - x) - b = (1 - x) ^ 2 := by rw [hb]; ring
    linarith [sq_nonneg (1 - x)]
  have w1 : eps ^ 2 * b ≤ alpha * (1 - x) := by
    calc eps ^ 2 * b ≤ alpha / 2 * (2 * (1 - x)) := by gcongr
      _ = _ := by ring
  rw [abs_mul, abs_of_pos he]
  calc eps * |p| ≤ eps * ((2 * eps * b + a / (2 * eps)) / 2) := by gcongr
    _ = eps ^ 2 * b + a / 4 := e4
    _ ≤ _ := by linarith

theorem vecPart_unit {q : V4} (h : IsUnit4 q) : vecPart q ⬝ᵥ vecPart q = 1 - q 0 ^ 2 := by
  unfold IsUnit4 at h
  rw [Matrix.vec3_dotProduct, vecPart_0, vecPart_1, vecPart_2]
  linarith

theorem dot_sq_le (u v : V3) : (u ⬝ᵥ v) ^ 2 ≤ (u ⬝ᵥ u) * (v ⬝ᵥ v) := by
  simp only [Matrix.vec3_dotProduct]
  nlinarith [sq_nonneg (u 0 * v 1 - u 1 * v 0), sq_nonneg (u 0 * v 2 - u 2 * v 0), sq_nonneg (u 1 * v 2 - u 2 * v 1)]

theorem dot_self_nonneg3 (u : V3) : 0 ≤ u ⬝ᵥ u := by
  rw [Matrix.vec3_dotProduct]; nlinarith [sq_nonneg (u 0), sq_nonneg (u 1), sq_nonneg (u 2)]

/-- The strict function. -/
noncomputable def strict (alpha eps sgn : ℝ) (e : V4) (w : V3) : ℝ :=
  lyap alpha sgn (e 0) w + eps * (sgn * (vecPart e ⬝ᵥ w))

theorem strict_between {alpha eps sgn : ℝ} (ha : 0 < alpha) (he : 0 < eps) (h1 : eps ^ 2 ≤ alpha / 2)
    (hs : sgn = 1 ∨ sgn = -1) {e : V4} (hu : IsUnit4 e) (w : V3) :
    lyap alpha sgn (e 0) w ≤ 2 * strict alpha eps sgn e w ∧ 2 * strict alpha eps sgn e w ≤ 3 * lyap alpha sgn (e 0) w := by
  have hs2 : sgn ^ 2 = 1 := by rcases hs with rfl | rfl <;> norm_num
  have hv := vecPart_unit hu
  have hp : (sgn * (vecPart e ⬝ᵥ w)) ^ 2 ≤ (w ⬝ᵥ w) * (vecPart e ⬝ᵥ vecPart e) := by
    rw [mul_pow, hs2, one_mul, mul_comm]; exact dot_sq_le _ _
  have hb : vecPart e ⬝ᵥ vecPart e = 1 - (sgn * e 0) ^ 2 := by rw [hv, mul_pow, hs2, one_mul]
  have := abs_le.1 (strict_bounds ha he h1 (dot_self_nonneg3 w) hb (dot_self_nonneg3 _) hp)
  unfold strict lyap
  constructor <;> linarith [this.1, this.2]

theorem strict_continuousOn {alpha eps s : ℝ} {qc : V4} {q : ℝ → V4} {w : ℝ → V3} {S : Set ℝ} (hq : ContinuousOn q S)
    (hw : ContinuousOn w S) : ContinuousOn (fun τ => strict alpha eps s (errorQuat (q τ) qc) (w τ)) S := by
  have h1 := continuousOn_pi.1 ((errorQuat_continuous qc).comp_continuousOn hq)
  have h2 := continuousOn_pi.1 hw
  have h3 : ContinuousOn (fun τ => vecPart (errorQuat (q τ) qc) ⬝ᵥ w τ) S := by
    simp only [Matrix.vec3_dotProduct, vecPart_0, vecPart_1, vecPart_2]
    exact (((h1 1).mul (h2 0)).add ((h1 2).mul (h2 1))).add ((h1 3).mul (h2 2))
  exact (lyap_continuousOn hq hw).add (continuousOn_const.mul (continuousOn_const.mul h3))

/-- Derivative of the strict function along the closed loop with an additional acceleration `d`. -/
theorem strict_deriv {q : ℝ → V4} {w : ℝ → V3} {t : ℝ} {qc : V4} {alpha gamma sgn eps : ℝ} {d : V3}
    (hs : sgn = 1 ∨ sgn = -1) (hq : HasDerivAt q ((0.5 : ℝ) • product (q t) (pureQ (w t))) t)
    (hw : HasDerivAt w (-(sgn * alpha) • vecPart (errorQuat (q t) qc) - gamma • w t + d) t) :
    HasDerivAt (fun τ => strict alpha eps sgn (errorQuat (q τ) qc) (w τ))
      (-gamma * (w t ⬝ᵥ w t) + w t ⬝ᵥ d + eps * (sgn * errorQuat (q t) qc 0 * (w t ⬝ᵥ w t) / 2
        - alpha * (vecPart (errorQuat (q t) qc) ⬝ᵥ vecPart (errorQuat (q t) qc))
        - gamma * (sgn * (vecPart (errorQuat (q t) qc) ⬝ᵥ w t)) + sgn * (vecPart (errorQuat (q t) qc) ⬝ᵥ d))) t := by
  have hs2 : sgn * sgn = 1 := by rcases hs with rfl | rfl <;> norm_num
  have hp := hasDerivAt_pi.1 (hasDerivAt_product (hasDerivAt_const t (conjugate qc)) hq)
  have hc := hasDerivAt_pi.1 hw
  have h1 := (((hc 0).fun_mul (hc 0)).fun_add ((hc 1).fun_mul (hc 1))).fun_add ((hc 2).fun_mul (hc 2))
  have h2 := (((hp 1).fun_mul (hc 0)).fun_add ((hp 2).fun_mul (hc 1))).fun_add ((hp 3).fun_mul (hc 2))
  have e : (fun τ => strict alpha eps sgn (errorQuat (q τ) qc) (w τ)) = fun τ =>
      ((w τ 0 * w τ 0 + w τ 1 * w τ 1 + w τ 2 * w τ 2) / 2 + 2 * alpha * (1 - sgn * product (conjugate qc) (q τ) 0)) +
      eps * (sgn * (product (conjugate qc) (q τ) 1 * w τ 0 + product (conjugate qc) (q τ) 2 * w τ 1
        + product (conjugate qc) (q τ) 3 * w τ 2)) := by
    funext τ; rw [strict, lyap, Matrix.vec3_dotProduct, Matrix.vec3_dotProduct]; rfl
  rw [e]
  have hsg : ∀ x y : ℝ, sgn * (sgn * x) * y = x * y := fun x y => by rw [← mul_assoc sgn sgn, hs2, one_mul]
  refine (((h1.div_const 2).fun_add (((hp 0).const_mul sgn).const_sub 1 |>.const_mul (2 * alpha))).fun_add
    ((h2.const_mul sgn).const_mul eps)).congr_deriv ?_
  have z : product 0 (q t) = 0 := by
    apply vec4_ext <;> simp [product_0, product_1, product_2, product_3]
  have k : ∀ i, product (conjugate qc) ((0.5 : ℝ) • product (q t) (pureQ (w t))) i
      = 0.5 * product (errorQuat (q t) qc) (pureQ (w t)) i := by
    intro i
    rw [(C04_product_bilinear _ _ 0 _).2.2.2, ← product_assoc]; rfl
  simp only [z, Pi.add_apply, Pi.zero_apply, zero_add, k, Pi.sub_apply, Pi.smul_apply, smul_eq_mul]
  set E := errorQuat (q t) qc with hE
  have hE' : product (conjugate qc) (q t) = E := rfl
  rw [hE']
  clear_value E
  simp only [Matrix.vec3_dotProduct, product_0, product_1, product_2, product_3, pureQ, vecPart_0, vecPart_1,
    vecPart_2, Matrix.cons_val_zero, Matrix.cons_val_one, cons4_2, cons4_3]
  rcases hs with rfl | rfl <;> ring

end Adcs
