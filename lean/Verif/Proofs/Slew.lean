import Verif.Proofs.Convergence
import Mathlib.Analysis.SpecialFunctions.Trigonometric.InverseDeriv
import Mathlib.Analysis.SpecialFunctions.Trigonometric.ArctanDeriv
import Mathlib.Analysis.SpecialFunctions.Trigonometric.Bounds
import Mathlib.Analysis.Calculus.Deriv.MeanValue

set_option autoImplicit false

/-! # Turns from rest under the tracking law

`p` is the error with the sign of the trigger, `w` the rate. -/

namespace Adcs

open Quat Vec
open scoped Matrix

theorem mono_flow {f : ℝ → ℝ} {T : ℝ} (hc : ContinuousOn f (Set.Icc 0 T))
    (hd : ∀ t ∈ Set.Ioo 0 T, ∃ y, HasDerivAt f y t ∧ 0 ≤ y) : MonotoneOn f (Set.Icc 0 T) := by
  refine monotoneOn_of_deriv_nonneg (convex_Icc 0 T) hc (fun t ht => ?_) fun t ht => ?_
  · rw [interior_Icc] at ht
    obtain ⟨y, h, -⟩ := hd t ht
    exact h.differentiableAt.differentiableWithinAt
  · rw [interior_Icc] at ht
    obtain ⟨y, h, h0⟩ := hd t ht
    rwa [h.deriv]

theorem anti_flow {f : ℝ → ℝ} {T : ℝ} (hc : ContinuousOn f (Set.Icc 0 T))
    (hd : ∀ t ∈ Set.Ioo 0 T, ∃ y, HasDerivAt f y t ∧ y ≤ 0) : AntitoneOn f (Set.Icc 0 T) := by
  have := mono_flow (f := fun t => -f t) hc.neg fun t ht => by
    obtain ⟨y, h, h0⟩ := hd t ht
    exact ⟨-y, h.neg, by linarith⟩
  exact fun a ha b hb hab => by have := this ha hb hab; simp only at this; linarith

theorem hasDerivAt_exp_mul (k t : ℝ) : HasDerivAt (fun t => Real.exp (k * t)) (Real.exp (k * t) * k) t := by
  simpa using ((hasDerivAt_id t).const_mul k).exp

/-- `f' ≥ -k f` keeps `f` above its exponential. -/
theorem lower_flow {f : ℝ → ℝ} {T k : ℝ} (hc : ContinuousOn f (Set.Icc 0 T))
    (hd : ∀ t ∈ Set.Ioo 0 T, ∃ y, HasDerivAt f y t ∧ -k * f t ≤ y) {t : ℝ} (ht : t ∈ Set.Icc 0 T) :
    Real.exp (-k * t) * f 0 ≤ f t := by
  have hm := mono_flow (f := fun t => Real.exp (k * t) * f t) (T := T)
    ((Real.continuous_exp.comp (continuous_const.mul continuous_id)).continuousOn.mul hc) fun t ht => by
      obtain ⟨y, h, h0⟩ := hd t ht
      refine ⟨_, (hasDerivAt_exp_mul k t).mul h, ?_⟩
      have e : Real.exp (k * t) * k * f t + Real.exp (k * t) * y = Real.exp (k * t) * (y - -k * f t) := by ring
      rw [e]
      exact mul_nonneg (Real.exp_pos _).le (by linarith)
  have h := hm ⟨le_rfl, ht.1.trans ht.2⟩ ht ht.1
  simp only [mul_zero, Real.exp_zero, one_mul] at h
  calc Real.exp (-k * t) * f 0 ≤ Real.exp (-k * t) * (Real.exp (k * t) * f t) := by gcongr
    _ = f t := by rw [← mul_assoc, ← Real.exp_add]; simp

/-- The squares of the parts of the error and of the rate across the axis `e`. -/
noncomputable def across (e v w : V3) : ℝ := (v ⬝ᵥ v - (v ⬝ᵥ e) ^ 2) + (w ⬝ᵥ w - (w ⬝ᵥ e) ^ 2)

theorem across_part {e v : V3} (he : e ⬝ᵥ e = 1) :
    v ⬝ᵥ v - (v ⬝ᵥ e) ^ 2 = (v - (v ⬝ᵥ e) • e) ⬝ᵥ (v - (v ⬝ᵥ e) • e) := by
  rw [sub_dotProduct, dotProduct_sub, dotProduct_sub, smul_dotProduct, dotProduct_smul, smul_dotProduct, dotProduct_smul,
    dotProduct_comm e v, he]
  simp only [smul_eq_mul]
  ring

theorem across_nonneg {e v : V3} (he : e ⬝ᵥ e = 1) : 0 ≤ v ⬝ᵥ v - (v ⬝ᵥ e) ^ 2 := by
  rw [across_part he]; exact dot_self_nonneg3 _

theorem across_zero {e v w : V3} (he : e ⬝ᵥ e = 1) (h : across e v w ≤ 0) :
    v = (v ⬝ᵥ e) • e ∧ w = (w ⬝ᵥ e) • e := by
  have h1 := across_nonneg (v := v) he
  have h2 := across_nonneg (v := w) he
  unfold across at h
  constructor
  · have : v ⬝ᵥ v - (v ⬝ᵥ e) ^ 2 = 0 := by linarith
    rw [across_part he, dotProduct_self_eq_zero, sub_eq_zero] at this
    exact this
  · have : w ⬝ᵥ w - (w ⬝ᵥ e) ^ 2 = 0 := by linarith
    rw [across_part he, dotProduct_self_eq_zero, sub_eq_zero] at this
    exact this

theorem across_gram {e v w : V3} (he : e ⬝ᵥ e = 1) :
    (v ⬝ᵥ w - (v ⬝ᵥ e) * (w ⬝ᵥ e)) ^ 2 + (npCross v w ⬝ᵥ e) ^ 2
      = (v ⬝ᵥ v - (v ⬝ᵥ e) ^ 2) * (w ⬝ᵥ w - (w ⬝ᵥ e) ^ 2) := by
  simp only [Matrix.vec3_dotProduct, npCross_0, npCross_1, npCross_2] at he ⊢
  set x := v 0; set y := v 1; set z := v 2; set a := w 0; set b := w 1; set c := w 2
  set p := e 0; set q := e 1; set r := e 2
  linear_combination ((x * b - y * a) ^ 2 + (x * c - z * a) ^ 2 + (y * c - z * b) ^ 2) * he

/-- The error and the rate of a satellite under the tracking law. -/
structure TurnFlow (alpha gamma : ℝ) (p : ℝ → V4) (w : ℝ → V3) (T : ℝ) : Prop where
  contP : ContinuousOn p (Set.Icc 0 T)
  contW : ContinuousOn w (Set.Icc 0 T)
  unit : ∀ t ∈ Set.Icc 0 T, IsUnit4 (p t)
  derivP : ∀ t ∈ Set.Ico 0 T, HasDerivAt p ((0.5 : ℝ) • product (p t) (pureQ (w t))) t
  derivW : ∀ t ∈ Set.Ico 0 T, HasDerivAt w (-alpha • vecPart (p t) - gamma • w t) t

theorem dot_deriv {v w : ℝ → V3} {v' w' : V3} {t : ℝ} (hv : HasDerivAt v v' t) (hw : HasDerivAt w w' t) :
    HasDerivAt (fun τ => v τ ⬝ᵥ w τ) (v' ⬝ᵥ w t + v t ⬝ᵥ w') t := by
  simp only [Matrix.vec3_dotProduct]
  have a := hasDerivAt_pi.1 hv
  have b := hasDerivAt_pi.1 hw
  refine ((((a 0).fun_mul (b 0)).fun_add ((a 1).fun_mul (b 1))).fun_add ((a 2).fun_mul (b 2))).congr_deriv ?_
  ring

theorem dot_cont {v w : ℝ → V3} {S : Set ℝ} (hv : ContinuousOn v S) (hw : ContinuousOn w S) :
    ContinuousOn (fun τ => v τ ⬝ᵥ w τ) S := by
  simp only [Matrix.vec3_dotProduct]
  have a := continuousOn_pi.1 hv
  have b := continuousOn_pi.1 hw
  exact (((a 0).mul (b 0)).add ((a 1).mul (b 1))).add ((a 2).mul (b 2))

theorem vecPart_cont {p : ℝ → V4} {S : Set ℝ} (h : ContinuousOn p S) : ContinuousOn (fun t => vecPart (p t)) S := by
  refine continuousOn_pi.2 fun i => ?_
  have a := continuousOn_pi.1 h
  fin_cases i
  · exact a 1
  · exact a 2
  · exact a 3

theorem vecPart_rate (p : V4) (w : V3) :
    vecPart ((0.5 : ℝ) • product p (pureQ w)) = (0.5 : ℝ) • (p 0 • w + npCross (vecPart p) w) := by
  apply vec3_ext <;>
    simp only [vecPart_0, vecPart_1, vecPart_2, Pi.smul_apply, Pi.add_apply, smul_eq_mul, product_1, product_2, product_3,
      npCross_0, npCross_1, npCross_2, pureQ, Matrix.cons_val_zero, Matrix.cons_val_one, cons4_2, cons4_3] <;> ring

theorem scalar_rate (p : V4) (w : V3) :
    ((0.5 : ℝ) • product p (pureQ w)) 0 = -0.5 * (vecPart p ⬝ᵥ w) := by
  simp only [vecPart_0, vecPart_1, vecPart_2, Pi.smul_apply, smul_eq_mul, product_0, Matrix.vec3_dotProduct,
      pureQ, Matrix.cons_val_zero, Matrix.cons_val_one, cons4_2, cons4_3]
  ring

theorem npCross_dot_left (v w : V3) : npCross v w ⬝ᵥ v = 0 ∧ npCross v w ⬝ᵥ w = 0 := by
  constructor <;> simp only [Matrix.vec3_dotProduct, npCross_0, npCross_1, npCross_2] <;> ring

theorem across_ineq {alpha gamma x a m k P Q : ℝ} (ha : 0 ≤ alpha) (hg : 0 ≤ gamma) (hx : |x| ≤ 1) (haa : |a| ≤ 1)
    (hP : 0 ≤ P) (hQ : 0 ≤ Q) (h : m ^ 2 + k ^ 2 = P * Q) :
    (x - 2 * alpha) * m - a * k - 2 * gamma * Q ≤ (1 + alpha) * (P + Q) := by
  have hm : |m| ≤ (P + Q) / 2 := by
    apply abs_le_of_sq_le_sq _ (by positivity); nlinarith [sq_nonneg (P - Q), sq_nonneg k]
  have hk : |k| ≤ (P + Q) / 2 := by
    apply abs_le_of_sq_le_sq _ (by positivity); nlinarith [sq_nonneg (P - Q), sq_nonneg m]
  have h1 : x * m ≤ (P + Q) / 2 := by
    calc x * m ≤ |x| * |m| := by rw [← abs_mul]; exact le_abs_self _
      _ ≤ 1 * |m| := by gcongr
      _ ≤ _ := by linarith
  have h2 : -(a * k) ≤ (P + Q) / 2 := by
    calc -(a * k) ≤ |a| * |k| := by rw [← abs_mul]; exact neg_le_abs _
      _ ≤ 1 * |k| := by gcongr
      _ ≤ _ := by linarith
  have h3 : alpha * (-m) ≤ alpha * ((P + Q) / 2) := mul_le_mul_of_nonneg_left ((neg_le_abs m).trans hm) ha
  have h4 : 0 ≤ gamma * Q := by positivity
  nlinarith

theorem signed_unit_le {p : V4} (hp : IsUnit4 p) {e : V3} (he : e ⬝ᵥ e = 1) : |p 0| ≤ 1 ∧ |vecPart p ⬝ᵥ e| ≤ 1 := by
  have h1 := vecPart_unit hp
  have h2 := dot_self_nonneg3 (vecPart p)
  constructor
  · rw [← sq_le_one_iff_abs_le_one]; linarith
  · rw [← sq_le_one_iff_abs_le_one]
    have := dot_sq_le (vecPart p) e
    rw [he, h1] at this
    nlinarith [sq_nonneg (p 0)]

/-- A turn that starts about the axis `e` goes on about it. -/
theorem axis_flow {alpha gamma T : ℝ} (ha : 0 ≤ alpha) (hg : 0 ≤ gamma) {p : ℝ → V4} {w : ℝ → V3}
    (h : TurnFlow alpha gamma p w T) {e : V3} (he : e ⬝ᵥ e = 1) (h0 : across e (vecPart (p 0)) (w 0) ≤ 0) {t : ℝ}
    (ht : t ∈ Set.Icc 0 T) : across e (vecPart (p t)) (w t) ≤ 0 := by
  have hv : ∀ t ∈ Set.Ico 0 T, HasDerivAt (fun t => vecPart (p t)) ((0.5 : ℝ) • (p t 0 • w t + npCross (vecPart (p t)) (w t))) t := by
    intro t ht
    rw [← vecPart_rate]
    exact hasDerivAt_vecPart (h.derivP t ht)
  have cv := vecPart_cont h.contP
  have hcont : ContinuousOn (fun t => -across e (vecPart (p t)) (w t)) (Set.Icc 0 T) := by
    unfold across
    exact (((dot_cont cv cv).sub ((dot_cont cv continuousOn_const).pow 2)).add
      ((dot_cont h.contW h.contW).sub ((dot_cont h.contW continuousOn_const).pow 2))).neg
  have hl := lower_flow (k := -(1 + alpha)) hcont (fun t ht => by
    have ht' : t ∈ Set.Ico 0 T := ⟨ht.1.le, ht.2⟩
    have d1 := hv t ht'
    have d2 := h.derivW t ht'
    have dc : HasDerivAt (fun _ : ℝ => e) 0 t := hasDerivAt_const t e
    refine ⟨_, ((((dot_deriv d1 d1).fun_sub ((dot_deriv d1 dc).fun_pow 2)).fun_add
      ((dot_deriv d2 d2).fun_sub ((dot_deriv d2 dc).fun_pow 2))).fun_neg).congr_of_eventuallyEq (by rfl), ?_⟩
    have hu := signed_unit_le (h.unit t ⟨ht.1.le, ht.2.le⟩) he
    have hi := across_ineq ha hg hu.1 hu.2 (across_nonneg (v := vecPart (p t)) he) (across_nonneg (v := w t) he)
      (across_gram he)
    refine le_of_eq_of_le ?_ (le_of_le_of_eq (neg_le_neg hi) ?_)
    · unfold across; ring
    · obtain ⟨c1, c2⟩ := npCross_dot_left (vecPart (p t)) (w t)
      simp only [smul_dotProduct, add_dotProduct, sub_dotProduct, dotProduct_smul, dotProduct_add, dotProduct_sub,
        dotProduct_zero, smul_eq_mul, dotProduct_comm (vecPart (p t)) (npCross _ _), dotProduct_comm (w t) (vecPart (p t)),
        c1, c2, neg_smul, neg_dotProduct, dotProduct_neg, Nat.cast_ofNat]
      ring) ht
  have h1 := across_nonneg (v := vecPart (p 0)) he
  have h2 := across_nonneg (v := w 0) he
  have h3 : across e (vecPart (p 0)) (w 0) = 0 := le_antisymm h0 (by unfold across; linarith)
  rw [h3, neg_zero, mul_zero] at hl
  linarith

/-- A turn about one axis: the error is the cosine `x` and the sine `a` of half the angle, the rate is `b`. -/
structure PlaneFlow (alpha gamma : ℝ) (x a b : ℝ → ℝ) (T : ℝ) : Prop where
  contX : ContinuousOn x (Set.Icc 0 T)
  contA : ContinuousOn a (Set.Icc 0 T)
  contB : ContinuousOn b (Set.Icc 0 T)
  unit : ∀ t ∈ Set.Icc 0 T, x t ^ 2 + a t ^ 2 = 1
  derivX : ∀ t ∈ Set.Ico 0 T, HasDerivAt x (-0.5 * (a t * b t)) t
  derivA : ∀ t ∈ Set.Ico 0 T, HasDerivAt a (0.5 * (x t * b t)) t
  derivB : ∀ t ∈ Set.Ico 0 T, HasDerivAt b (-alpha * a t - gamma * b t) t

theorem PlaneFlow.mono {alpha gamma T S : ℝ} {x a b : ℝ → ℝ} (h : PlaneFlow alpha gamma x a b T) (hS : S ≤ T) :
    PlaneFlow alpha gamma x a b S where
  contX := h.contX.mono (Set.Icc_subset_Icc_right hS)
  contA := h.contA.mono (Set.Icc_subset_Icc_right hS)
  contB := h.contB.mono (Set.Icc_subset_Icc_right hS)
  unit t ht := h.unit t ⟨ht.1, ht.2.trans hS⟩
  derivX t ht := h.derivX t ⟨ht.1, ht.2.trans_le hS⟩
  derivA t ht := h.derivA t ⟨ht.1, ht.2.trans_le hS⟩
  derivB t ht := h.derivB t ⟨ht.1, ht.2.trans_le hS⟩

theorem TurnFlow.plane {alpha gamma T : ℝ} (ha : 0 ≤ alpha) (hg : 0 ≤ gamma) {p : ℝ → V4} {w : ℝ → V3}
    (h : TurnFlow alpha gamma p w T) {e : V3} (he : e ⬝ᵥ e = 1) (h0 : across e (vecPart (p 0)) (w 0) ≤ 0) :
    PlaneFlow alpha gamma (fun t => p t 0) (fun t => vecPart (p t) ⬝ᵥ e) (fun t => w t ⬝ᵥ e) T := by
  have hz : ∀ t ∈ Set.Icc 0 T, vecPart (p t) = (vecPart (p t) ⬝ᵥ e) • e ∧ w t = (w t ⬝ᵥ e) • e :=
    fun t ht => across_zero he (axis_flow ha hg h he h0 ht)
  have cv := vecPart_cont h.contP
  refine ⟨continuousOn_pi.1 h.contP 0, dot_cont cv continuousOn_const, dot_cont h.contW continuousOn_const, ?_, ?_, ?_, ?_⟩
  · intro t ht
    have h1 := vecPart_unit (h.unit t ht)
    have h2 : vecPart (p t) ⬝ᵥ vecPart (p t) = (vecPart (p t) ⬝ᵥ e) ^ 2 := by
      conv_lhs => rw [(hz t ht).1]
      rw [smul_dotProduct, dotProduct_smul, he]; simp only [smul_eq_mul]; ring
    linarith
  · intro t ht
    refine (hasDerivAt_pi.1 (h.derivP t ht) 0).congr_deriv ?_
    rw [scalar_rate]
    have hh := hz t ⟨ht.1, ht.2.le⟩
    have h2 : vecPart (p t) ⬝ᵥ w t = (vecPart (p t) ⬝ᵥ e) * (w t ⬝ᵥ e) := by
      conv_lhs => rw [hh.1, hh.2]
      rw [smul_dotProduct, dotProduct_smul, he]; simp only [smul_eq_mul]; ring
    rw [h2]
  · intro t ht
    have hh := hz t ⟨ht.1, ht.2.le⟩
    refine (dot_deriv (hasDerivAt_vecPart (h.derivP t ht)) (hasDerivAt_const t e)).congr_deriv ?_
    rw [vecPart_rate, dotProduct_zero, add_zero, smul_dotProduct, add_dotProduct, smul_dotProduct]
    have h2 : npCross (vecPart (p t)) (w t) ⬝ᵥ e = 0 := by
      have h3 := across_gram (v := vecPart (p t)) (w := w t) he
      have h4 := axis_flow ha hg h he h0 ⟨ht.1, ht.2.le⟩
      have h5 := across_nonneg (v := vecPart (p t)) he
      have h6 := across_nonneg (v := w t) he
      unfold across at h4
      have h7 : vecPart (p t) ⬝ᵥ vecPart (p t) - (vecPart (p t) ⬝ᵥ e) ^ 2 = 0 := by linarith
      rw [h7, zero_mul] at h3
      have := sq_nonneg (vecPart (p t) ⬝ᵥ w t - vecPart (p t) ⬝ᵥ e * w t ⬝ᵥ e)
      exact pow_eq_zero_iff (two_ne_zero) |>.1 (le_antisymm (by linarith) (sq_nonneg _))
    rw [h2]
    simp only [smul_eq_mul]
    ring
  · intro t ht
    refine (dot_deriv (h.derivW t ht) (hasDerivAt_const t e)).congr_deriv ?_
    rw [dotProduct_zero, add_zero, sub_dotProduct, smul_dotProduct, smul_dotProduct]
    simp only [smul_eq_mul]

/-- The angle, as long as the sine is positive. -/
theorem PlaneFlow.angle {alpha gamma T : ℝ} {x a b : ℝ → ℝ} (h : PlaneFlow alpha gamma x a b T) {t : ℝ}
    (ht : t ∈ Set.Ico 0 T) (ha : 0 < a t) : HasDerivAt (fun t => Real.arccos (x t)) (b t / 2) t := by
  have hu := h.unit t ⟨ht.1, ht.2.le⟩
  have h1 : x t ≠ -1 := fun e => by rw [e] at hu; nlinarith [sq_pos_of_pos ha]
  have h2 : x t ≠ 1 := fun e => by rw [e] at hu; nlinarith [sq_pos_of_pos ha]
  have hs : Real.sqrt (1 - x t ^ 2) = a t := by
    rw [show 1 - x t ^ 2 = a t ^ 2 by linarith]; exact Real.sqrt_sq ha.le
  refine ((Real.hasDerivAt_arccos h1 h2).comp t (h.derivX t ht)).congr_deriv ?_
  rw [hs]
  field_simp
  norm_num
  ring

theorem PlaneFlow.sine {alpha gamma T : ℝ} {x a b : ℝ → ℝ} (h : PlaneFlow alpha gamma x a b T) {t : ℝ}
    (ht : t ∈ Set.Icc 0 T) (ha : 0 ≤ a t) : Real.sin (Real.arccos (x t)) = a t := by
  rw [Real.sin_arccos, show 1 - x t ^ 2 = a t ^ 2 by linarith [h.unit t ht]]
  exact Real.sqrt_sq ha

/-- What holds as long as the sine is positive. -/
theorem PlaneFlow.ahead {n z T : ℝ} (hn : 0 < n) (hT : 0 ≤ T) {x a b : ℝ → ℝ}
    (h : PlaneFlow (2 * n ^ 2) (2 * z * n) x a b T) (ha : ∀ t ∈ Set.Ico 0 T, 0 < a t) (hb : b 0 ≤ 0) :
    b T ≤ 0 ∧ x 0 ≤ x T ∧
    (1 ≤ z → 0 ≤ b 0 + 2 * n * Real.arccos (x 0) → 0 ≤ b T + 2 * n * Real.arccos (x T) ∧
      Real.exp (-n * T) * Real.arccos (x 0) ≤ Real.arccos (x T)) := by
  have hbn : ∀ t ∈ Set.Icc 0 T, b t ≤ 0 := by
    intro t ht
    have := lower_flow (f := fun t => -b t) (k := 2 * z * n) h.contB.neg (fun t ht => by
      refine ⟨_, (h.derivB t ⟨ht.1.le, ht.2⟩).fun_neg, ?_⟩
      have : 0 < n ^ 2 * a t := mul_pos (by positivity) (ha t ⟨ht.1.le, ht.2⟩)
      linarith) ht
    have h2 : 0 ≤ Real.exp (-(2 * z * n) * t) * -b 0 := mul_nonneg (Real.exp_pos _).le (by linarith)
    linarith
  have hcφ : ContinuousOn (fun t => Real.arccos (x t)) (Set.Icc 0 T) := Real.continuous_arccos.comp_continuousOn h.contX
  refine ⟨hbn T ⟨hT, le_rfl⟩, ?_, fun hz hy0 => ?_⟩
  · refine mono_flow h.contX (fun t ht => ⟨_, h.derivX t ⟨ht.1.le, ht.2⟩, ?_⟩) ⟨le_rfl, hT⟩ ⟨hT, le_rfl⟩ hT
    have := mul_nonneg (ha t ⟨ht.1.le, ht.2⟩).le (neg_nonneg.2 (hbn t ⟨ht.1.le, ht.2.le⟩))
    linarith
  · have hy : ∀ t ∈ Set.Icc 0 T, 0 ≤ b t + 2 * n * Real.arccos (x t) := by
      intro t ht
      have := lower_flow (f := fun t => b t + 2 * n * Real.arccos (x t)) (k := (2 * z - 1) * n)
        (h.contB.add (continuousOn_const.mul hcφ)) (fun t ht => by
        have hat := ha t ⟨ht.1.le, ht.2⟩
        refine ⟨_, (h.derivB t ⟨ht.1.le, ht.2⟩).fun_add ((h.angle ⟨ht.1.le, ht.2⟩ hat).const_mul (2 * n)), ?_⟩
        have h1 : a t ≤ Real.arccos (x t) := by
          rw [← h.sine ⟨ht.1.le, ht.2.le⟩ hat.le]
          exact Real.sin_le (Real.arccos_nonneg _)
        have h2 : 0 ≤ (z - 1) * Real.arccos (x t) := mul_nonneg (by linarith) (Real.arccos_nonneg _)
        have h3 : 0 ≤ n ^ 2 * (2 * ((z - 1) * Real.arccos (x t)) + (Real.arccos (x t) - a t)) :=
          mul_nonneg (by positivity) (by linarith)
        nlinarith) ht
      have h2 : 0 ≤ Real.exp (-((2 * z - 1) * n) * t) * (b 0 + 2 * n * Real.arccos (x 0)) :=
        mul_nonneg (Real.exp_pos _).le hy0
      linarith
    refine ⟨hy T ⟨hT, le_rfl⟩, ?_⟩
    refine lower_flow (f := fun t => Real.arccos (x t)) (k := n) hcφ (fun t ht => ?_) ⟨hT, le_rfl⟩
    refine ⟨_, h.angle ⟨ht.1.le, ht.2⟩ (ha t ⟨ht.1.le, ht.2⟩), ?_⟩
    linarith [hy t ⟨ht.1.le, ht.2.le⟩]

/-- With damping of at least 1 the sine stays positive. -/
theorem PlaneFlow.direct {n z T : ℝ} (hn : 0 < n) (hz : 1 ≤ z) {x a b : ℝ → ℝ}
    (h : PlaneFlow (2 * n ^ 2) (2 * z * n) x a b T) (ha : 0 < a 0) (hb : b 0 ≤ 0)
    (hy : 0 ≤ b 0 + 2 * n * Real.arccos (x 0)) {t : ℝ} (ht : t ∈ Set.Icc 0 T) : 0 < a t := by
  by_contra hneg
  set S := Set.Icc 0 T ∩ a ⁻¹' Set.Iic 0 with hS
  have hclosed : IsClosed S := h.contA.preimage_isClosed_of_isClosed isClosed_Icc isClosed_Iic
  have hbdd : BddBelow S := ⟨0, fun τ hτ => hτ.1.1⟩
  have hmin := hclosed.csInf_mem ⟨t, ht, not_lt.1 hneg⟩ hbdd
  set τ := sInf S
  have hpos : ∀ σ ∈ Set.Ico 0 τ, 0 < a σ := by
    intro σ hσ
    by_contra hle
    exact absurd hσ.2 (not_lt.2 (csInf_le hbdd ⟨⟨hσ.1, hσ.2.le.trans hmin.1.2⟩, not_lt.1 hle⟩))
  obtain ⟨-, h2, h3⟩ := (h.mono hmin.1.2).ahead hn hmin.1.1 hpos hb
  have hu0 := h.unit 0 ⟨le_rfl, hmin.1.1.trans hmin.1.2⟩
  have huτ := h.unit τ hmin.1
  have hx0 : -1 < x 0 ∧ x 0 < 1 := by
    constructor <;> nlinarith [sq_pos_of_pos ha]
  have hφ0 : 0 < Real.arccos (x 0) := Real.arccos_pos.2 hx0.2
  have hφ := (h3 hz hy).2
  have hφτ : 0 < Real.arccos (x τ) := lt_of_lt_of_le (mul_pos (Real.exp_pos _) hφ0) hφ
  have hx1 := Real.arccos_pos.1 hφτ
  have haτ : a τ < 0 := by
    refine lt_of_le_of_ne hmin.2 fun e => ?_
    rw [e] at huτ
    nlinarith
  -- the sine is not negative at the end by continuity
  have hτ0 : 0 < τ := by
    rcases hmin.1.1.lt_or_eq with h | h
    · exact h
    · rw [← h] at haτ; linarith
  have hge : 0 ≤ a τ := by
    have hsub : Set.Ico 0 τ ⊆ Set.Icc 0 T := fun σ hσ => ⟨hσ.1, hσ.2.le.trans hmin.1.2⟩
    have htend : Filter.Tendsto a (nhdsWithin τ (Set.Ico 0 τ)) (nhds (a τ)) := (h.contA τ hmin.1).mono hsub
    have hbot : (nhdsWithin τ (Set.Ico 0 τ)).NeBot :=
      mem_closure_iff_nhdsWithin_neBot.1 (by rw [closure_Ico hτ0.ne]; exact ⟨hτ0.le, le_rfl⟩)
    refine ge_of_tendsto htend ?_
    filter_upwards [self_mem_nhdsWithin] with σ hσ using (hpos σ hσ).le
  linarith

/-- With damping below 1 a turn that comes to rest in the command does not stay on one side of it. -/
theorem PlaneFlow.reaches {n z : ℝ} (hn : 0 < n) (hz0 : 0 < z) (hz : z < 1) {x a b : ℝ → ℝ}
    (h : ∀ T, 0 ≤ T → PlaneFlow (2 * n ^ 2) (2 * z * n) x a b T) (hx : Filter.Tendsto x Filter.atTop (nhds 1)) :
    ∃ t, 0 ≤ t ∧ a t ≤ 0 := by
  by_contra hcon
  push Not at hcon
  set k := n * Real.sqrt ((1 - z ^ 2) / 2) with hk
  have hz2 : 0 < (1 - z ^ 2) / 2 := by nlinarith
  have hkp : 0 < k := mul_pos hn (Real.sqrt_pos.2 hz2)
  have hk2 : k ^ 2 = n ^ 2 * ((1 - z ^ 2) / 2) := by rw [hk, mul_pow, Real.sq_sqrt hz2.le]
  -- late enough the angle is small
  have hφ : Filter.Tendsto (fun t => Real.arccos (x t)) Filter.atTop (nhds 0) := by
    have := (Real.continuous_arccos.tendsto 1).comp hx
    rwa [Real.arccos_one] at this
  have hsmall : ∀ᶠ t in Filter.atTop, Real.arccos (x t) < min 1 (1 - z ^ 2) :=
    hφ.eventually (gt_mem_nhds (lt_min one_pos (by linarith)))
  obtain ⟨t1, ht1⟩ := Filter.eventually_atTop.1 hsmall
  set t0 := max t1 0
  have hpos : ∀ t, 0 ≤ t → 0 < Real.arccos (x t) := by
    intro t ht
    have hu := (h t ht).unit t ⟨ht, le_rfl⟩
    refine Real.arccos_pos.2 ?_
    nlinarith [sq_pos_of_pos (hcon t ht)]
  have hd : ∀ t, t0 ≤ t → ∃ y, HasDerivAt (fun t => Real.arctan ((b t / (2 * Real.arccos (x t)) + z * n) / k)) y t ∧ y ≤ -k := by
    intro t ht
    have ht' : 0 ≤ t := (le_max_right _ _).trans ht
    have hm : t ∈ Set.Ico 0 (t + 1) := ⟨ht', by linarith⟩
    have hF := h (t + 1) (by linarith)
    have hp := hpos t ht'
    have hs := ht1 t ((le_max_left _ _).trans ht)
    have hs1 := hs.trans_le (min_le_left _ _)
    have hs2 := hs.trans_le (min_le_right _ _)
    have hsin := Real.sin_gt_sub_cube hp
    rw [hF.sine ⟨ht', by linarith⟩ (hcon t ht').le] at hsin
    have hdiv := (hF.derivB t hm).fun_div ((hF.angle hm (hcon t ht')).const_mul 2) (by positivity)
    refine ⟨_, ((hdiv.add_const (z * n)).div_const k).arctan, ?_⟩
    set φ := Real.arccos (x t) with hφd
    set U := b t / (2 * φ) with hU
    have hbU : b t = 2 * φ * U := by rw [hU]; field_simp
    have e1 : ((-(2 * n ^ 2) * a t - 2 * z * n * b t) * (2 * φ) - b t * (2 * (b t / 2))) / (2 * φ) ^ 2
        = -(n ^ 2 * (a t / φ)) - 2 * z * n * U - U ^ 2 := by
      rw [hbU]; field_simp
    rw [e1]
    have hq : 1 - (1 - z ^ 2) / 2 ≤ a t / φ := by
      rw [le_div_iff₀ hp]
      nlinarith [mul_pos hp hp, mul_pos hp (sub_pos.2 hs1), mul_pos hp (sub_pos.2 hs2), mul_pos (mul_pos hp hp) (sub_pos.2 hs1)]
    have hU' : -(n ^ 2 * (a t / φ)) - 2 * z * n * U - U ^ 2 ≤ -(k ^ 2 + (U + z * n) ^ 2) := by
      rw [hk2]
      have := mul_le_mul_of_nonneg_left hq (sq_nonneg n)
      nlinarith
    have hden : 0 < 1 + ((U + z * n) / k) ^ 2 := by positivity
    calc 1 / (1 + ((U + z * n) / k) ^ 2) * ((-(n ^ 2 * (a t / φ)) - 2 * z * n * U - U ^ 2) / k)
        ≤ 1 / (1 + ((U + z * n) / k) ^ 2) * (-(k ^ 2 + (U + z * n) ^ 2) / k) := by gcongr
      _ = -k := by field_simp
  set f := fun t => Real.arctan ((b t / (2 * Real.arccos (x t)) + z * n) / k) with hf
  have hdec := anti_flow (f := fun s => f (t0 + s) + k * s) (T := Real.pi / k + 1) (fun s hs => by
      obtain ⟨y, hy, -⟩ := hd (t0 + s) (by linarith [hs.1])
      have h2 : ContinuousAt (fun s => f (t0 + s)) s :=
        ContinuousAt.comp (g := f) (f := fun s => t0 + s) hy.continuousAt (by fun_prop)
      exact (h2.add (by fun_prop)).continuousWithinAt) fun s hs => by
    obtain ⟨y, hy, hle⟩ := hd (t0 + s) (by linarith [hs.1])
    refine ⟨y + k, ?_, by linarith⟩
    have h2 := (hy.comp_const_add t0 s).fun_add ((hasDerivAt_id s).const_mul k)
    simpa using h2
  have hTp : 0 ≤ Real.pi / k + 1 := by positivity
  have := hdec ⟨le_rfl, hTp⟩ ⟨hTp, le_rfl⟩ hTp
  simp only [add_zero, mul_zero] at this
  have e : k * (Real.pi / k + 1) = Real.pi + k := by field_simp
  rw [e] at this
  have a1 := Real.arctan_lt_pi_div_two ((b t0 / (2 * Real.arccos (x t0)) + z * n) / k)
  have a2 := Real.neg_pi_div_two_lt_arctan ((b (t0 + (Real.pi / k + 1)) / (2 * Real.arccos (x (t0 + (Real.pi / k + 1)))) + z * n) / k)
  simp only [hf] at this
  linarith

/-- When the sine first vanishes the turn passes the command. -/
theorem PlaneFlow.crosses {n z T : ℝ} (hn : 0 < n) {x a b : ℝ → ℝ}
    (h : PlaneFlow (2 * n ^ 2) (2 * z * n) x a b T) (ha : 0 < a 0) (hb : b 0 ≤ 0) {t : ℝ} (ht : t ∈ Set.Ico 0 T)
    (hat : a t ≤ 0) : ∃ t ∈ Set.Ioo 0 T, a t < 0 ∧ 0 < x t := by
  set S := Set.Icc 0 t ∩ a ⁻¹' Set.Iic 0 with hS
  have hc : ContinuousOn a (Set.Icc 0 t) := h.contA.mono (Set.Icc_subset_Icc_right ht.2.le)
  have hclosed : IsClosed S := hc.preimage_isClosed_of_isClosed isClosed_Icc isClosed_Iic
  have hbdd : BddBelow S := ⟨0, fun τ hτ => hτ.1.1⟩
  have hmin := hclosed.csInf_mem ⟨t, ⟨ht.1, le_rfl⟩, hat⟩ hbdd
  set τ := sInf S
  have hpos : ∀ σ ∈ Set.Ico 0 τ, 0 < a σ := by
    intro σ hσ
    by_contra hle
    exact absurd hσ.2 (not_lt.2 (csInf_le hbdd ⟨⟨hσ.1, hσ.2.le.trans hmin.1.2⟩, not_lt.1 hle⟩))
  have hτ0 : 0 < τ := by
    rcases hmin.1.1.lt_or_eq with h | h
    · exact h
    · have := hmin.2; rw [← h] at this; exact absurd this (not_le.2 ha)
  have hτT : τ < T := hmin.1.2.trans_lt ht.2
  have haτ : a τ = 0 := by
    refine le_antisymm hmin.2 ?_
    have hsub : Set.Ico 0 τ ⊆ Set.Icc 0 T := fun σ hσ => ⟨hσ.1, hσ.2.le.trans hτT.le⟩
    have htend : Filter.Tendsto a (nhdsWithin τ (Set.Ico 0 τ)) (nhds (a τ)) := (h.contA τ ⟨hτ0.le, hτT.le⟩).mono hsub
    have hbot : (nhdsWithin τ (Set.Ico 0 τ)).NeBot :=
      mem_closure_iff_nhdsWithin_neBot.1 (by rw [closure_Ico hτ0.ne]; exact ⟨hτ0.le, le_rfl⟩)
    refine ge_of_tendsto htend ?_
    filter_upwards [self_mem_nhdsWithin] with σ hσ using (hpos σ hσ).le
  have h' := h.mono hτT.le
  obtain ⟨hbτ, h2, -⟩ := h'.ahead hn hτ0.le hpos hb
  have hu0 := h.unit 0 ⟨le_rfl, hτ0.le.trans hτT.le⟩
  have huτ := h.unit τ ⟨hτ0.le, hτT.le⟩
  have hx0 : -1 < x 0 := by nlinarith [sq_pos_of_pos ha]
  have hxτ : x τ = 1 := by
    rw [haτ] at huτ
    have : (x τ - 1) * (x τ + 1) = 0 := by linarith
    rcases mul_eq_zero.1 this with h | h <;> linarith
  -- the rate has not vanished
  have hbneg : b τ < 0 := by
    refine lt_of_le_of_ne hbτ fun e => ?_
    have hstrict : StrictMonoOn (fun t => Real.exp (2 * z * n * t) * -b t) (Set.Icc 0 τ) := by
      refine strictMonoOn_of_deriv_pos (convex_Icc 0 τ)
        ((Real.continuous_exp.comp (continuous_const.mul continuous_id)).continuousOn.mul h'.contB.neg) fun t ht => ?_
      rw [interior_Icc] at ht
      rw [((hasDerivAt_exp_mul (2 * z * n) t).fun_mul (h'.derivB t ⟨ht.1.le, ht.2⟩).fun_neg).deriv]
      have hp : 0 < Real.exp (2 * z * n * t) * (2 * n ^ 2 * a t) :=
        mul_pos (Real.exp_pos _) (mul_pos (by positivity) (hpos t ⟨ht.1.le, ht.2⟩))
      nlinarith
    have := hstrict ⟨le_rfl, hτ0.le⟩ ⟨hτ0.le, le_rfl⟩ hτ0
    simp only [e, mul_zero, Real.exp_zero, one_mul, neg_zero] at this
    linarith
  have hd := h.derivA τ ⟨hτ0.le, hτT⟩
  rw [hxτ, one_mul] at hd
  have hsl := (hasDerivWithinAt_iff_tendsto_slope' (s := Set.Ioi τ) (lt_irrefl τ)).1 hd.hasDerivWithinAt
  have e1 : ∀ᶠ s in nhdsWithin τ (Set.Ioi τ), slope a τ s < 0 :=
    hsl.eventually (gt_mem_nhds (by linarith))
  have hxc := (h.derivX τ ⟨hτ0.le, hτT⟩).continuousAt
  have e2 : ∀ᶠ s in nhdsWithin τ (Set.Ioi τ), 0 < x s :=
    nhdsWithin_le_nhds (hxc.eventually (lt_mem_nhds (by rw [hxτ]; norm_num)))
  have e3 : ∀ᶠ s in nhdsWithin τ (Set.Ioi τ), s < T := nhdsWithin_le_nhds (gt_mem_nhds hτT)
  obtain ⟨s, ⟨⟨k1, k2⟩, k3⟩, k4⟩ := (((e1.and e2).and e3).and self_mem_nhdsWithin).exists
  have k4' : τ < s := k4
  refine ⟨s, ⟨hτ0.trans k4', k3⟩, ?_, k2⟩
  rw [slope_def_field, haτ, sub_zero] at k1
  exact (div_neg_iff.1 k1).resolve_left (fun hh => by linarith [hh.2]) |>.1

end Adcs
