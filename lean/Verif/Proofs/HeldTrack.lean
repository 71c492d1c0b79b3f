import Verif.Props.Convergence
import Verif.Props.Sampled
import Mathlib.Topology.Order.Compact

set_option autoImplicit false

/-! # The motion between two samples of the tracking law -/

namespace Adcs

open Str Sens JDay Quat Vec Dyn Ctl Spec Set Filter Topology
open scoped Matrix

/-- The motion for the time `h` after a sample: the law is evaluated once, at the beginning, with the sign `s`; the
gyroscopic torque it cancels is that of the sample. `H` is the total angular momentum in body coordinates. -/
structure HeldMotion (alpha gamma s : ℝ) (L : M3) (qc : V4) (h : ℝ) (q : ℝ → V4) (w H : ℝ → V3) : Prop where
  att : ∀ t ∈ Icc 0 h, HasDerivAt q ((0.5 : ℝ) • product (q t) (pureQ (w t))) t
  rate : ∀ t ∈ Icc 0 h, HasDerivAt w (-(s * alpha) • vecPart (errorQuat (q 0) qc) - gamma • w 0
    - L *ᵥ (npCross (w t) (H t) - npCross (w 0) (H 0))) t
  mom : ∀ t ∈ Icc 0 h, HasDerivAt H (-npCross (w t) (H t)) t

theorem npNorm_neg3 (x : V3) : npNorm (-x) = npNorm x := by
  have := npNorm_smul (-1 : ℝ) x
  rw [neg_one_smul] at this
  rw [this]; simp

theorem npNorm_sub3 (x y : V3) : npNorm (x - y) ≤ npNorm x + npNorm y := by
  rw [sub_eq_add_neg, ← npNorm_neg3 y]; exact npNorm_add3 _ _

theorem dot_self3 (w : V3) : w ⬝ᵥ w = npNorm w ^ 2 := by rw [npNorm_sq_dot, npDot_eq_dotProduct]

theorem vecPart_le (a : V4) : npNorm (vecPart a) ≤ npNorm a := by
  refine abs_le_of_sq_le_sq' ?_ (npNorm_nonneg _) |>.2
  rw [npNorm3_sq, npNorm4_sq, vecPart_0, vecPart_1, vecPart_2]
  linarith [sq_nonneg (a 0)]

theorem npNorm_pureQ (w : V3) : npNorm (pureQ w) = npNorm w := by
  refine (pow_left_inj₀ (npNorm_nonneg _) (npNorm_nonneg _) two_ne_zero).1 ?_
  rw [npNorm3_sq, npNorm4_sq]
  simp [pureQ]

/-- The vector part of the error, along the motion. -/
theorem error_vec_deriv {q : ℝ → V4} {w : V3} {t : ℝ} (qc : V4)
    (hq : HasDerivAt q ((0.5 : ℝ) • product (q t) (pureQ w)) t) :
    HasDerivAt (fun τ => vecPart (errorQuat (q τ) qc)) ((0.5 : ℝ) • vecPart (product (errorQuat (q t) qc) (pureQ w))) t := by
  have h := hasDerivAt_vecPart (hasDerivAt_product (hasDerivAt_const t (conjugate qc)) hq)
  refine h.congr_deriv ?_
  have z : product 0 (q t) = 0 := by
    apply vec4_ext <;> simp [product_0, product_1, product_2, product_3]
  rw [z, zero_add, (C04_product_bilinear _ _ 0 _).2.2.2, ← product_assoc]
  apply vec3_ext <;> simp [vecPart_0, vecPart_1, vecPart_2, errorQuat]

namespace HeldMotion

variable {alpha gamma s : ℝ} {L : M3} {qc : V4} {h : ℝ} {q : ℝ → V4} {w H : ℝ → V3}

theorem restrict (m : HeldMotion alpha gamma s L qc h q w H) {T : ℝ} (hT : T ≤ h) :
    HeldMotion alpha gamma s L qc T q w H :=
  ⟨fun t ht => m.att t ⟨ht.1, ht.2.trans hT⟩, fun t ht => m.rate t ⟨ht.1, ht.2.trans hT⟩,
    fun t ht => m.mom t ⟨ht.1, ht.2.trans hT⟩⟩

/-- The amount of the angular momentum does not change. -/
theorem mom_const (m : HeldMotion alpha gamma s L qc h q w H) : ∀ t ∈ Icc 0 h, npNorm (H t) = npNorm (H 0) := by
  intro t ht
  have hd : ∀ τ ∈ Icc 0 t, HasDerivAt (fun x => H x ⬝ᵥ H x) 0 τ := by
    intro τ hτ
    refine (hasDerivAt_dot3 (m.mom τ ⟨hτ.1, hτ.2.trans ht.2⟩) (m.mom τ ⟨hτ.1, hτ.2.trans ht.2⟩)).congr_deriv ?_
    simp only [Matrix.vec3_dotProduct, Pi.neg_apply, npCross_0, npCross_1, npCross_2]; ring
  have h1 := mono_Icc ht.1 hd fun _ _ => le_rfl
  have h2 := mono_Icc ht.1 (fun τ hτ => (hd τ hτ).neg) fun _ _ => by simp
  have e : H t ⬝ᵥ H t = H 0 ⬝ᵥ H 0 := by
    have h2' : -(H 0 ⬝ᵥ H 0) ≤ -(H t ⬝ᵥ H t) := h2
    have h1' : H 0 ⬝ᵥ H 0 ≤ H t ⬝ᵥ H t := h1
    linarith
  rw [dot_self3, dot_self3] at e
  exact (pow_left_inj₀ (npNorm_nonneg _) (npNorm_nonneg _) two_ne_zero).1 e

theorem unit (m : HeldMotion alpha gamma s L qc h q w H) (hu : npNorm (q 0) = 1) : ∀ t ∈ Icc 0 h, npNorm (q t) = 1 := by
  intro t ht
  rw [norm_flow ht.1 (fun τ hτ => (m.att τ ⟨hτ.1, hτ.2.trans ht.2⟩).continuousAt.continuousWithinAt)
    fun τ hτ => m.att τ ⟨hτ.1, hτ.2.le.trans ht.2⟩, hu]

/-- The rates during an interval. -/
theorem rate_bounds (m : HeldMotion alpha gamma s L qc h q w H) (ha : 0 < alpha) (hg : 0 < gamma) (hs : s = 1 ∨ s = -1)
    (hqc : npNorm qc = 1) (hu : npNorm (q 0) = 1) {j B r : ℝ} (hj0 : 0 ≤ j) (hj : ∀ x, npNorm (L *ᵥ x) ≤ j * npNorm x)
    (hB : npNorm (H 0) ≤ B) (hr0 : 0 ≤ r) (hr : lyap alpha s (errorQuat (q 0) qc 0) (w 0) = r ^ 2) (h1 : h ≤ 1)
    (h2 : 4 * (j * B) * h ≤ 1) (h3 : gamma * h ≤ 1) {S D : ℝ} (hS : S = 8 + 2 * Real.sqrt alpha)
    (hD : D = Real.sqrt alpha + 2 * gamma + 2 * (j * B) * S) :
    ∀ t ∈ Icc 0 h, npNorm (w t) ≤ S * r ∧ npNorm (w t - w 0) ≤ h * (D * r) := by
  intro t0 ht0
  have hh0 : 0 ≤ h := ht0.1.trans ht0.2
  have hB0 : 0 ≤ B := (npNorm_nonneg _).trans hB
  set A := Real.sqrt alpha with hA
  have hA0 : 0 ≤ A := Real.sqrt_nonneg _
  have hAA : A * A = alpha := Real.mul_self_sqrt ha.le
  set M := j * B with hM
  have hM0 : 0 ≤ M := mul_nonneg hj0 hB0
  have hs2 : s ^ 2 = 1 := by rcases hs with rfl | rfl <;> norm_num
  have hsa : |s| = 1 := by rcases hs with rfl | rfl <;> simp
  have hu0 : IsUnit4 (errorQuat (q 0) qc) := errorQuat_unit ((isUnit4_iff _).2 hu) ((isUnit4_iff _).2 hqc)
  -- at the sample
  have hv0 := vecPart_unit hu0
  set e0 := errorQuat (q 0) qc 0 with he0
  set v0 := vecPart (errorQuat (q 0) qc) with hv0d
  have hx1 : s * e0 ≤ 1 := by
    have : (s * e0) ^ 2 ≤ 1 := by rw [mul_pow, hs2, one_mul]; linarith [dot_self_nonneg3 v0]
    exact (abs_le.1 ((sq_le_one_iff_abs_le_one _).1 this)).2
  have hw0 : npNorm (w 0) ≤ 2 * r := by
    refine abs_le_of_sq_le_sq' ?_ (by positivity) |>.2
    unfold lyap at hr
    rw [dot_self3] at hr
    have : 0 ≤ 2 * alpha * (1 - s * e0) := mul_nonneg (by positivity) (by linarith)
    linarith [sq_nonneg r]
  have hav : alpha * npNorm v0 ≤ A * r := by
    have h4 : A * npNorm v0 ≤ r := by
      refine abs_le_of_sq_le_sq' ?_ hr0 |>.2
      unfold lyap at hr
      have e : (A * npNorm v0) ^ 2 = alpha * (1 - (s * e0) ^ 2) := by
        rw [mul_pow, sq A, hAA, ← dot_self3, hv0, mul_pow, hs2, one_mul]
      rw [e, ← hr]
      have h5 : 2 * (1 - s * e0) - (1 - (s * e0) ^ 2) = (1 - s * e0) ^ 2 := by ring
      have h6 := mul_nonneg ha.le (sq_nonneg (1 - s * e0))
      have h7 := dot_self_nonneg3 (w 0)
      nlinarith
    calc alpha * npNorm v0 = A * (A * npNorm v0) := by rw [← mul_assoc, hAA]
      _ ≤ A * r := mul_le_mul_of_nonneg_left h4 hA0
  have hHt : ∀ t ∈ Icc 0 h, npNorm (H t) ≤ B := fun t ht => (m.mom_const t ht).trans_le hB
  have hcr : ∀ t ∈ Icc 0 h, npNorm (npCross (w t) (H t)) ≤ npNorm (w t) * B := fun t ht =>
    (cross_norm_le _ _).trans (mul_le_mul_of_nonneg_left (hHt t ht) (npNorm_nonneg _))
  have h0m : (0 : ℝ) ∈ Icc 0 h := ⟨le_rfl, hh0⟩
  -- the acceleration
  have hacc : ∀ y, ∀ t ∈ Icc 0 h, npNorm (w t) ≤ y → npNorm (-(s * alpha) • v0 - gamma • w 0
      - L *ᵥ (npCross (w t) (H t) - npCross (w 0) (H 0))) ≤ A * r + 2 * gamma * r + M * (y + 2 * r) := by
    intro y t ht hy
    have b1 : npNorm (-(s * alpha) • v0) ≤ A * r := by
      rw [npNorm_smul, abs_neg, abs_mul, hsa, one_mul, abs_of_pos ha]; exact hav
    have b2 : npNorm (gamma • w 0) ≤ 2 * gamma * r := by
      rw [npNorm_smul, abs_of_pos hg]
      have := mul_le_mul_of_nonneg_left hw0 hg.le
      linarith
    have b3 : npNorm (L *ᵥ (npCross (w t) (H t) - npCross (w 0) (H 0))) ≤ M * (y + 2 * r) := by
      refine (hj _).trans ?_
      have b4 := npNorm_sub3 (npCross (w t) (H t)) (npCross (w 0) (H 0))
      have b5 := hcr t ht
      have b6 := hcr 0 h0m
      have b7 : npNorm (w t) * B ≤ y * B := mul_le_mul_of_nonneg_right hy hB0
      have b8 : npNorm (w 0) * B ≤ 2 * r * B := mul_le_mul_of_nonneg_right hw0 hB0
      calc _ ≤ j * (y * B + 2 * r * B) := mul_le_mul_of_nonneg_left (by linarith) hj0
        _ = _ := by rw [hM]; ring
    have c1 := npNorm_sub3 (-(s * alpha) • v0 - gamma • w 0) (L *ᵥ (npCross (w t) (H t) - npCross (w 0) (H 0)))
    have c2 := npNorm_sub3 (-(s * alpha) • v0) (gamma • w 0)
    linarith
  have hstep : ∀ y, (∀ t ∈ Icc 0 h, npNorm (w t) ≤ y) → ∀ t ∈ Icc 0 h,
      npNorm (w t - w 0) ≤ h * (A * r + 2 * gamma * r + M * (y + 2 * r)) := by
    intro y hy t ht
    have hy0 : 0 ≤ y := (npNorm_nonneg _).trans (hy 0 h0m)
    have := euclid_le (g := fun τ => τ * (A * r + 2 * gamma * r + M * (y + 2 * r)))
      (g' := fun _ => 1 * (A * r + 2 * gamma * r + M * (y + 2 * r))) ht.1
      (fun τ hτ => m.rate τ ⟨hτ.1, hτ.2.trans ht.2⟩) (fun τ _ => (hasDerivAt_id τ).mul_const _)
      fun τ hτ => by
        rw [one_mul]; exact hacc y τ ⟨hτ.1, hτ.2.trans ht.2⟩ (hy τ ⟨hτ.1, hτ.2.trans ht.2⟩)
    simp only [zero_mul, sub_zero] at this
    refine this.trans (mul_le_mul_of_nonneg_right ht.2 ?_)
    have := mul_nonneg hM0 (by linarith : 0 ≤ y + 2 * r)
    positivity
  -- the largest rate
  have hwc : ContinuousOn (fun t => npNorm (w t)) (Icc 0 h) := fun t ht =>
    (npNorm_continuous.continuousAt.comp (m.rate t ht).continuousAt).continuousWithinAt
  obtain ⟨t1, ht1, hmax⟩ := isCompact_Icc.exists_isMaxOn ⟨0, h0m⟩ hwc
  set y := npNorm (w t1) with hy
  have hym : ∀ t ∈ Icc 0 h, npNorm (w t) ≤ y := fun t ht => hmax ht
  have hyS : y ≤ S * r := by
    have c1 := hstep y hym t1 ht1
    have c2 : y ≤ npNorm (w t1 - w 0) + npNorm (w 0) := by
      have := npNorm_add3 (w t1 - w 0) (w 0)
      rwa [sub_add_cancel] at this
    have hy0 : 0 ≤ y := npNorm_nonneg _
    have d1 : h * (A * r) ≤ A * r := mul_le_of_le_one_left (by positivity) h1
    have d2 : h * (2 * gamma * r) ≤ 2 * r := by
      have := mul_le_mul_of_nonneg_right h3 (by linarith : 0 ≤ 2 * r)
      linarith
    have d3 : h * (M * (y + 2 * r)) ≤ (y + 2 * r) / 4 := by
      have := mul_le_mul_of_nonneg_right h2 (by linarith : 0 ≤ (y + 2 * r) / 4)
      linarith
    have d4 : h * (A * r + 2 * gamma * r + M * (y + 2 * r)) = h * (A * r) + h * (2 * gamma * r) + h * (M * (y + 2 * r)) := by ring
    have d5 : S * r = 8 * r + 2 * (A * r) := by rw [hS]; ring
    have d6 := mul_nonneg hA0 hr0
    linarith
  have hwS : ∀ t ∈ Icc 0 h, npNorm (w t) ≤ S * r := fun t ht => (hym t ht).trans hyS
  have hS8 : 8 ≤ S := by rw [hS]; linarith
  refine ⟨hwS t0 ht0, (hstep _ hwS t0 ht0).trans (mul_le_mul_of_nonneg_left ?_ hh0)⟩
  have e1 : D * r = A * r + 2 * gamma * r + M * (2 * S * r) := by rw [hD]; ring
  have e2 : 2 * r ≤ S * r := mul_le_mul_of_nonneg_right (by linarith) hr0
  rw [e1]
  have : M * (S * r + 2 * r) ≤ M * (2 * S * r) := mul_le_mul_of_nonneg_left (by linarith) hM0
  linarith

/-- How far things get from their values at the sample. -/
theorem bounds (m : HeldMotion alpha gamma s L qc h q w H) (ha : 0 < alpha) (hg : 0 < gamma) (hs : s = 1 ∨ s = -1)
    (hqc : npNorm qc = 1) (hu : npNorm (q 0) = 1) {j B r : ℝ} (hj0 : 0 ≤ j) (hj : ∀ x, npNorm (L *ᵥ x) ≤ j * npNorm x)
    (hB : npNorm (H 0) ≤ B) (hr0 : 0 ≤ r) (hr : lyap alpha s (errorQuat (q 0) qc 0) (w 0) = r ^ 2) (h1 : h ≤ 1)
    (h2 : 4 * (j * B) * h ≤ 1) (h3 : gamma * h ≤ 1) {S D : ℝ} (hS : S = 8 + 2 * Real.sqrt alpha)
    (hD : D = Real.sqrt alpha + 2 * gamma + 2 * (j * B) * S) :
    ∀ t ∈ Icc 0 h, npNorm (w t) ≤ S * r ∧ npNorm (w t - w 0) ≤ h * (D * r) ∧
      npNorm (vecPart (errorQuat (q t) qc) - vecPart (errorQuat (q 0) qc)) ≤ h * (S * r / 2) ∧
      npNorm (H t - H 0) ≤ h * (S * r * B) ∧ |errorQuat (q t) qc 0 - errorQuat (q 0) qc 0| ≤ h * (S * r / 2) := by
  intro t0 ht0
  have hh0 : 0 ≤ h := ht0.1.trans ht0.2
  have hB0 : 0 ≤ B := (npNorm_nonneg _).trans hB
  have hut : ∀ t ∈ Icc 0 h, IsUnit4 (errorQuat (q t) qc) := fun t ht =>
    errorQuat_unit ((isUnit4_iff _).2 (m.unit hu t ht)) ((isUnit4_iff _).2 hqc)
  have hwD := m.rate_bounds ha hg hs hqc hu hj0 hj hB hr0 hr h1 h2 h3 hS hD
  have hwS : ∀ t ∈ Icc 0 h, npNorm (w t) ≤ S * r := fun t ht => (hwD t ht).1
  have hcr : ∀ t ∈ Icc 0 h, npNorm (npCross (w t) (H t)) ≤ npNorm (w t) * B := fun t ht =>
    (cross_norm_le _ _).trans (mul_le_mul_of_nonneg_left ((m.mom_const t ht).trans_le hB) (npNorm_nonneg _))
  have hS0 : 0 ≤ S * r := (npNorm_nonneg _).trans (hwS 0 ⟨le_rfl, hh0⟩)
  refine ⟨hwS t0 ht0, (hwD t0 ht0).2, ?_, ?_, ?_⟩
  · have := euclid_le (g := fun τ => τ * (S * r / 2)) (g' := fun _ => 1 * (S * r / 2)) ht0.1
      (fun τ hτ => error_vec_deriv qc (m.att τ ⟨hτ.1, hτ.2.trans ht0.2⟩)) (fun τ _ => (hasDerivAt_id τ).mul_const _)
      fun τ hτ => by
        have hτ' : τ ∈ Icc 0 h := ⟨hτ.1, hτ.2.trans ht0.2⟩
        rw [npNorm_smul, one_mul]
        have c1 := vecPart_le (product (errorQuat (q τ) qc) (pureQ (w τ)))
        rw [npNorm_product_unit (hut τ hτ'), npNorm_pureQ] at c1
        have c2 := hwS τ hτ'
        have c3 : |(0.5 : ℝ)| = 1 / 2 := by norm_num
        rw [c3]; linarith
    simp only [zero_mul, sub_zero] at this
    exact this.trans (mul_le_mul_of_nonneg_right ht0.2 (by positivity))
  · have := euclid_le (g := fun τ => τ * (S * r * B)) (g' := fun _ => 1 * (S * r * B)) ht0.1
      (fun τ hτ => m.mom τ ⟨hτ.1, hτ.2.trans ht0.2⟩) (fun τ _ => (hasDerivAt_id τ).mul_const _)
      fun τ hτ => by
        have hτ' : τ ∈ Icc 0 h := ⟨hτ.1, hτ.2.trans ht0.2⟩
        rw [npNorm_neg3, one_mul]
        exact (hcr τ hτ').trans (mul_le_mul_of_nonneg_right (hwS τ hτ') hB0)
    simp only [zero_mul, sub_zero] at this
    exact this.trans (mul_le_mul_of_nonneg_right ht0.2 (mul_nonneg hS0 hB0))
  · have hd : ∀ τ ∈ Icc 0 t0, HasDerivAt (fun x => errorQuat (q x) qc 0) (-0.5 * (vecPart (errorQuat (q τ) qc) ⬝ᵥ w τ)) τ :=
      fun τ hτ => error_scalar_deriv qc (m.att τ ⟨hτ.1, hτ.2.trans ht0.2⟩)
    have hb : ∀ τ ∈ Icc 0 t0, |vecPart (errorQuat (q τ) qc) ⬝ᵥ w τ| ≤ S * r := by
      intro τ hτ
      have hτ' : τ ∈ Icc 0 h := ⟨hτ.1, hτ.2.trans ht0.2⟩
      refine (dot_bound _ _).trans ?_
      have c1 : npNorm (vecPart (errorQuat (q τ) qc)) ≤ 1 := by
        refine abs_le_of_sq_le_sq' ?_ zero_le_one |>.2
        rw [← dot_self3, vecPart_unit (hut τ hτ')]
        linarith [sq_nonneg (errorQuat (q τ) qc 0)]
      exact (mul_le_of_le_one_left (npNorm_nonneg _) c1).trans (hwS τ hτ')
    have k1 := mono_Icc ht0.1 (fun τ hτ => (hd τ hτ).fun_add ((hasDerivAt_id τ).mul_const (S * r / 2))) fun τ hτ => by
      have := abs_le.1 (hb τ hτ)
      linarith [this.1, this.2]
    have k2 := mono_Icc ht0.1 (fun τ hτ => ((hasDerivAt_id τ).mul_const (S * r / 2)).fun_sub (hd τ hτ)) fun τ hτ => by
      have := abs_le.1 (hb τ hτ)
      linarith [this.1, this.2]
    simp only [id, zero_mul, zero_sub, add_zero] at k1 k2
    have k3 : t0 * (S * r / 2) ≤ h * (S * r / 2) := mul_le_mul_of_nonneg_right ht0.2 (by positivity)
    rw [abs_le]
    constructor <;> linarith

/-- The motion is that of the law evaluated all the time, up to an acceleration of the order of the interval and of the
error. -/
theorem disturbance (m : HeldMotion alpha gamma s L qc h q w H) (ha : 0 < alpha) (hg : 0 < gamma) (hs : s = 1 ∨ s = -1)
    (hqc : npNorm qc = 1) (hu : npNorm (q 0) = 1) {j B r R : ℝ} (hj0 : 0 ≤ j)
    (hj : ∀ x, npNorm (L *ᵥ x) ≤ j * npNorm x)
    (hB : npNorm (H 0) ≤ B) (hr0 : 0 ≤ r) (hrR : r ≤ R)
    (hr : lyap alpha s (errorQuat (q 0) qc 0) (w 0) = r ^ 2) (h1 : h ≤ 1)
    (h2 : 4 * (j * B) * h ≤ 1) (h3 : gamma * h ≤ 1) {S D K : ℝ} (hS : S = 8 + 2 * Real.sqrt alpha)
    (hD : D = Real.sqrt alpha + 2 * gamma + 2 * (j * B) * S)
    (hK : K = alpha * S / 2 + (gamma + j * B) * D + S * R * (j * B) * S) :
    ∀ t ∈ Icc 0 h, ∃ x : V3, npNorm x ≤ h * K * r ∧
      HasDerivAt w (-(s * alpha) • vecPart (errorQuat (q t) qc) - gamma • w t + x) t := by
  intro t ht
  obtain ⟨b1, b2, b3, b4, -⟩ := m.bounds ha hg hs hqc hu hj0 hj hB hr0 hr h1 h2 h3 hS hD t ht
  have hh0 : 0 ≤ h := ht.1.trans ht.2
  obtain ⟨c1, -⟩ := m.bounds ha hg hs hqc hu hj0 hj hB hr0 hr h1 h2 h3 hS hD 0 ⟨le_rfl, hh0⟩
  have hB0 : 0 ≤ B := (npNorm_nonneg _).trans hB
  have hS0 : 0 ≤ S := by rw [hS]; positivity
  have hD0 : 0 ≤ D := by rw [hD]; positivity
  have hsa : |s| = 1 := by rcases hs with rfl | rfl <;> simp
  set x := (s * alpha) • (vecPart (errorQuat (q t) qc) - vecPart (errorQuat (q 0) qc)) + gamma • (w t - w 0)
    - L *ᵥ (npCross (w t) (H t) - npCross (w 0) (H 0)) with hx
  refine ⟨x, ?_, ?_⟩
  · have d1 : npNorm ((s * alpha) • (vecPart (errorQuat (q t) qc) - vecPart (errorQuat (q 0) qc))) ≤ alpha * (h * (S * r / 2)) := by
      rw [npNorm_smul, abs_mul, hsa, one_mul, abs_of_pos ha]
      exact mul_le_mul_of_nonneg_left b3 ha.le
    have d2 : npNorm (gamma • (w t - w 0)) ≤ gamma * (h * (D * r)) := by
      rw [npNorm_smul, abs_of_pos hg]; exact mul_le_mul_of_nonneg_left b2 hg.le
    have e : npCross (w t) (H t) - npCross (w 0) (H 0) = npCross (w t - w 0) (H t) + npCross (w 0) (H t - H 0) := by
      apply vec3_ext <;> simp [npCross_0, npCross_1, npCross_2] <;> ring
    have d3 : npNorm (npCross (w t) (H t) - npCross (w 0) (H 0)) ≤ h * (D * r) * B + S * r * (h * (S * r * B)) := by
      rw [e]
      refine (npNorm_add3 _ _).trans (add_le_add ?_ ?_)
      · refine (cross_norm_le _ _).trans ?_
        exact mul_le_mul b2 ((m.mom_const t ht).trans_le hB) (npNorm_nonneg _) (by positivity)
      · refine (cross_norm_le _ _).trans ?_
        exact mul_le_mul c1 b4 (npNorm_nonneg _) (by positivity)
    have d4 : npNorm (L *ᵥ (npCross (w t) (H t) - npCross (w 0) (H 0))) ≤
        j * (h * (D * r) * B + S * R * (h * (S * r * B))) := by
      refine (hj _).trans (mul_le_mul_of_nonneg_left (d3.trans ?_) hj0)
      have : S * r * (h * (S * r * B)) ≤ S * R * (h * (S * r * B)) := by gcongr
      linarith
    have d5 := npNorm_sub3 ((s * alpha) • (vecPart (errorQuat (q t) qc) - vecPart (errorQuat (q 0) qc)) + gamma • (w t - w 0))
      (L *ᵥ (npCross (w t) (H t) - npCross (w 0) (H 0)))
    have d6 := npNorm_add3 ((s * alpha) • (vecPart (errorQuat (q t) qc) - vecPart (errorQuat (q 0) qc))) (gamma • (w t - w 0))
    have e2 : h * K * r = alpha * (h * (S * r / 2)) + gamma * (h * (D * r)) + j * (h * (D * r) * B + S * R * (h * (S * r * B))) := by
      rw [hK]; ring
    rw [e2, hx]
    linarith
  · refine (m.rate t ht).congr_deriv ?_
    rw [hx, smul_sub, smul_sub, neg_smul, neg_smul]
    abel

/-- What one interval does to the strict function and to the energy-like one. -/
theorem decay (m : HeldMotion alpha gamma s L qc h q w H) (ha : 0 < alpha) (hg : 0 < gamma) (hs : s = 1 ∨ s = -1)
    (hh : 0 ≤ h) (hqc : npNorm qc = 1) (hu : npNorm (q 0) = 1) {j B R : ℝ} (hj0 : 0 ≤ j)
    (hj : ∀ x, npNorm (L *ᵥ x) ≤ j * npNorm x) (hB : npNorm (H 0) ≤ B) (hR : 0 ≤ R)
    (hV : lyap alpha s (errorQuat (q 0) qc 0) (w 0) ≤ R ^ 2) {S D K : ℝ} (hS : S = 8 + 2 * Real.sqrt alpha)
    (hD : D = Real.sqrt alpha + 2 * gamma + 2 * (j * B) * S)
    (hK : K = alpha * S / 2 + (gamma + j * B) * D + S * R * (j * B) * S) {eps k hw : ℝ} (he : 0 < eps) (hk : 0 < k)
    (h1 : eps ^ 2 ≤ alpha / 2) (h2 : eps * (1 + gamma ^ 2 / alpha) ≤ gamma) (h3 : 3 * k ≤ gamma)
    (h4 : 12 * k ≤ eps * (1 - (1 + hw) / 2)) (hx : -hw ≤ s * errorQuat (q 0) qc 0) (c1 : h ≤ 1)
    (c2 : 4 * (j * B) * h ≤ 1) (c3 : gamma * h ≤ 1) (c4 : S * R * h ≤ 1 - hw)
    (c5 : 4 * (1 / gamma + eps / alpha) * K ^ 2 * h ^ 2 ≤ k) :
    (∀ T ∈ Icc 0 h, strict alpha eps s (errorQuat (q T) qc) (w T) ≤
      (1 + Real.exp (-k * T)) / 2 * strict alpha eps s (errorQuat (q 0) qc) (w 0)) ∧
    lyap alpha s (errorQuat (q h) qc 0) (w h) ≤
      lyap alpha s (errorQuat (q 0) qc 0) (w 0) * (1 + h ^ 3 * K ^ 2 / (4 * gamma)) := by
  set V := lyap alpha s (errorQuat (q 0) qc 0) (w 0) with hVd
  have hV0 : 0 ≤ V := (C69_definite alpha s ha hs (q 0) qc hu hqc (w 0)).1
  set r := Real.sqrt V with hr
  have hr0 : 0 ≤ r := Real.sqrt_nonneg _
  have hrr : r ^ 2 = V := Real.sq_sqrt hV0
  have hrR : r ≤ R := by rw [hr]; exact Real.sqrt_le_iff.2 ⟨hR, hV⟩
  have hB0 : 0 ≤ B := (npNorm_nonneg _).trans hB
  have hS0 : 0 ≤ S := by rw [hS]; positivity
  have hD0 : 0 ≤ D := by rw [hD]; positivity
  have hK0 : 0 ≤ K := by rw [hK]; positivity
  have hdist := m.disturbance ha hg hs hqc hu hj0 hj hB hr0 hrR hrr.symm c1 c2 c3 hS hD hK
  have hbd := m.bounds ha hg hs hqc hu hj0 hj hB hr0 hrr.symm c1 c2 c3 hS hD
  have hsa : |s| = 1 := by rcases hs with rfl | rfl <;> simp
  have hxt : ∀ t ∈ Icc 0 h, -((1 + hw) / 2) ≤ s * errorQuat (q t) qc 0 := by
    intro t ht
    obtain ⟨-, -, -, -, b⟩ := hbd t ht
    have b' : |s * (errorQuat (q t) qc 0 - errorQuat (q 0) qc 0)| ≤ h * (S * r / 2) := by
      rw [abs_mul, hsa, one_mul]; exact b
    have b2 := (abs_le.1 b').1
    have b3 : h * (S * r / 2) ≤ (1 - hw) / 2 := by
      have : S * r * h ≤ S * R * h := by gcongr
      linarith
    linarith
  refine ⟨fun T hT => ?_, ?_⟩
  · have hfl := strict_flow ha hg he hk h1 h2 h3 h4 hqc hs hT.1 hu
      (fun t ht => (m.att t ⟨ht.1, ht.2.trans hT.2⟩).continuousAt.continuousWithinAt)
      (fun t ht => (m.rate t ⟨ht.1, ht.2.trans hT.2⟩).continuousAt.continuousWithinAt)
      (fun t ht => m.att t ⟨ht.1, ht.2.le.trans hT.2⟩) (fun t ht => hdist t ⟨ht.1, ht.2.le.trans hT.2⟩)
      (fun t ht => hxt t ⟨ht.1, ht.2.le.trans hT.2⟩)
    refine hfl.trans ?_
    have hu0 : IsUnit4 (errorQuat (q 0) qc) := errorQuat_unit ((isUnit4_iff _).2 hu) ((isUnit4_iff _).2 hqc)
    have hW := (strict_between ha he h1 hs hu0 (w 0)).1
    rw [← hVd] at hW
    set W := strict alpha eps s (errorQuat (q 0) qc) (w 0)
    have hE : Real.exp (-k * T) ≤ 1 := by rw [Real.exp_le_one_iff]; nlinarith [hT.1]
    have hq : (1 / gamma + eps / alpha) * (h * K * r) ^ 2 / k ≤ W / 2 := by
      rw [div_le_iff₀ hk]
      have e : (1 / gamma + eps / alpha) * (h * K * r) ^ 2 = 4 * (1 / gamma + eps / alpha) * K ^ 2 * h ^ 2 * (V / 4) := by
        rw [← hrr]; ring
      rw [e]
      calc _ ≤ k * (V / 4) := mul_le_mul_of_nonneg_right c5 (by linarith)
        _ ≤ k * (W / 2) := mul_le_mul_of_nonneg_left (by linarith) hk.le
        _ = _ := by ring
    have := mul_le_mul_of_nonneg_left hq (by linarith : 0 ≤ 1 - Real.exp (-k * T))
    linarith
  · choose! x hx1 hx2 using hdist
    have hd : ∀ t ∈ Icc 0 h, HasDerivAt (fun τ => τ * ((h * K * r) ^ 2 / (4 * gamma)) - strict alpha 0 s (errorQuat (q τ) qc) (w τ))
        (1 * ((h * K * r) ^ 2 / (4 * gamma)) - (-gamma * (w t ⬝ᵥ w t) + w t ⬝ᵥ x t + 0 * (s * errorQuat (q t) qc 0 * (w t ⬝ᵥ w t) / 2
        - alpha * (vecPart (errorQuat (q t) qc) ⬝ᵥ vecPart (errorQuat (q t) qc))
        - gamma * (s * (vecPart (errorQuat (q t) qc) ⬝ᵥ w t)) + s * (vecPart (errorQuat (q t) qc) ⬝ᵥ x t)))) t :=
      fun t ht => ((hasDerivAt_id t).mul_const _).fun_sub (strict_deriv (eps := 0) hs (m.att t ht) (hx2 t ht))
    have hm := mono_Icc hh hd fun t ht => by
      have b1 := (abs_le.1 (dot_bound (w t) (x t))).2
      have b2 : npNorm (w t) * npNorm (x t) ≤ npNorm (w t) * (h * K * r) :=
        mul_le_mul_of_nonneg_left (hx1 t ht) (npNorm_nonneg _)
      have b3 : npNorm (w t) * (h * K * r) ≤ gamma * npNorm (w t) ^ 2 + (h * K * r) ^ 2 / (4 * gamma) := by
        have e : gamma * npNorm (w t) ^ 2 + (h * K * r) ^ 2 / (4 * gamma) - npNorm (w t) * (h * K * r) =
            (2 * gamma * npNorm (w t) - h * K * r) ^ 2 / (4 * gamma) := by field_simp; ring
        have : 0 ≤ (2 * gamma * npNorm (w t) - h * K * r) ^ 2 / (4 * gamma) := by positivity
        linarith
      rw [dot_self3]
      linarith
    simp only [strict, zero_mul, add_zero, zero_sub] at hm
    have e : V * (1 + h ^ 3 * K ^ 2 / (4 * gamma)) = V + h * ((h * K * r) ^ 2 / (4 * gamma)) := by
      have e2 : (h * K * r) ^ 2 = h ^ 2 * K ^ 2 * V := by rw [← hrr]; ring
      rw [e2]; ring
    rw [e]
    linarith

end HeldMotion

theorem exp_half {x : ℝ} (h0 : 0 ≤ x) (h1 : x ≤ 1) :
    (1 + Real.exp (-x)) / 2 ≤ 1 - x / 4 ∧ (1 + Real.exp (-x)) / 2 ≤ Real.exp (-(x / 4)) := by
  have h : Real.exp (-x) ≤ 1 - x / 2 := by
    have h2 : Real.exp (-x) * Real.exp x = 1 := by rw [← Real.exp_add]; simp
    have h3 := Real.add_one_le_exp x
    have h4 := Real.exp_pos (-x)
    by_contra hc
    have : (1 - x / 2) * (x + 1) < Real.exp (-x) * Real.exp x :=
      mul_lt_mul (not_le.1 hc) h3 (by linarith) h4.le
    nlinarith
  refine ⟨by linarith, ?_⟩
  have := Real.add_one_le_exp (-(x / 4))
  linarith

end Adcs
