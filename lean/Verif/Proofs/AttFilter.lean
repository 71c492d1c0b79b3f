import Verif.Proofs.Kalman
import Verif.Proofs.Quat
import Verif.Props.Vec

set_option autoImplicit false

/-! # Lemmas on the attitude filter -/

namespace Adcs

open Spec Vec Quat Obs Obs.Att
open scoped Matrix

/-- Observation matrix `[I 0]` of the attitude filter. -/
def obsH : Matrix (Fin 3) I6 ℝ := Matrix.fromCols 1 0

theorem obsH_T : obsHᵀ = Matrix.fromRows (1 : M3) (0 : M3) := by
  rw [obsH, Matrix.transpose_fromCols]; simp

theorem mul_obsH_T (P : M6) : P * obsHᵀ = P.submatrix id Sum.inl := by
  rw [obsH_T]
  ext i j
  simp [Matrix.mul_apply, Matrix.fromRows_apply_inl, Matrix.fromRows_apply_inr, Matrix.one_apply]

theorem obsH_mul {n : Type} (M : Matrix I6 n ℝ) : obsH * M = M.submatrix Sum.inl id := by
  ext i j
  simp [obsH, Matrix.mul_apply, Matrix.one_apply]

theorem obsH_P (P : M6) : obsH * (P * obsHᵀ) = P.toBlocks₁₁ := by
  rw [mul_obsH_T, obsH_mul]; rfl

theorem mul_obsH (K : Matrix I6 (Fin 3) ℝ) : K * obsH = Matrix.fromCols K 0 := by
  rw [obsH, Matrix.mul_fromCols]; simp

theorem sensorSigma_pos : 0 < sensorSigma := by norm_num [sensorSigma]

theorem attR_strict : StrictCovariance Att.R :=
  StrictCovariance.diagonal fun _ => pow_pos sensorSigma_pos 2

/-- The gain of the model in the general form. -/
theorem gain_eq {k : Att.Kalman} (h : Covariance k.P) : k.gain = .ok (kgain k.P Att.R obsH) := by
  have hS := innov_strict (H := obsH) h attR_strict
  have hd := hS.det_ne
  rw [innov, obsH_P] at hd
  rw [Kalman.gain, npInv, if_neg hd]
  simp only [Except.ok.injEq]
  rw [kgain, innov, obsH_P, mul_obsH_T]

/-- What a measurement computes. -/
theorem measurement_eq {k : Att.Kalman} (h : Covariance k.P) (qRef : V4) :
    k.measurement qRef = .ok
      { P := kpost k.P Att.R obsH,
        dq := 0, db := 0,
        q := normalizeV (k.q + (0.5 : ℝ) • (xi k.q *ᵥ
          ((kgain k.P Att.R obsH *ᵥ (vecPart (errorQuat qRef k.q) - k.dq)) ∘ Sum.inl))),
        b := k.b +
          (kgain k.P Att.R obsH *ᵥ (vecPart (errorQuat qRef k.q) - k.dq)) ∘ Sum.inr } := by
  rw [Kalman.measurement, gain_eq h]
  simp only [Kalman.reset, kpost, mul_obsH]

theorem processNoise_strict {dt : ℝ} (h : 0 < dt) :
    StrictCovariance (G * (processNoise dt * Gᵀ)) := by
  have e : G * (processNoise dt * Gᵀ) = Matrix.fromBlocks
      ((gyroVar * dt + 0.3333333 * driftVar * dt ^ 3) • 1) ((0.5 * driftVar * dt ^ 2) • 1)
      ((0.5 * driftVar * dt ^ 2) • 1) ((driftVar * dt) • (1 : M3)) := by
    simp only [G, processNoise, Matrix.fromBlocks_transpose, Matrix.fromBlocks_multiply]
    congr 1 <;> simp
  have hg : 0 < gyroVar := by norm_num [gyroVar]
  have hd : 0 < driftVar := by norm_num [driftVar]
  rw [e]
  refine ⟨?_, fun x hx => ?_⟩
  · simp [Matrix.fromBlocks_transpose, Matrix.transpose_smul]
  set A := gyroVar * dt + 0.3333333 * driftVar * dt ^ 3
  set B := 0.5 * driftVar * dt ^ 2
  set C := driftVar * dt
  have hC : 0 < C := by positivity
  have hA : 0 < A := by positivity
  have hdet : 0 < A * C - B ^ 2 := by
    have : A * C - B ^ 2 = gyroVar * driftVar * dt ^ 2 + (0.3333333 - 0.25) * driftVar ^ 2 * dt ^ 4 := by
      simp only [A, B, C]; ring
    rw [this]; positivity
  have key : x ⬝ᵥ (Matrix.fromBlocks (A • 1) (B • 1) (B • 1) (C • (1 : M3)) *ᵥ x)
      = ∑ i : Fin 3, (A * x (.inl i) ^ 2 + 2 * B * (x (.inl i) * x (.inr i)) + C * x (.inr i) ^ 2) := by
    rw [Matrix.fromBlocks_mulVec]
    simp only [dotProduct, Fintype.sum_sum_type, Sum.elim_inl, Sum.elim_inr, Pi.add_apply,
      Matrix.smul_mulVec, Matrix.one_mulVec, Pi.smul_apply, Function.comp_apply, smul_eq_mul]
    rw [← Finset.sum_add_distrib]
    refine Finset.sum_congr rfl fun i _ => ?_
    ring
  have hterm : ∀ a b : ℝ, 0 ≤ A * a ^ 2 + 2 * B * (a * b) + C * b ^ 2 ∧
      ((a ≠ 0 ∨ b ≠ 0) → 0 < A * a ^ 2 + 2 * B * (a * b) + C * b ^ 2) := by
    intro a b
    have h2 : C * (A * a ^ 2 + 2 * B * (a * b) + C * b ^ 2)
        = (C * b + B * a) ^ 2 + (A * C - B ^ 2) * a ^ 2 := by ring
    have hnn : 0 ≤ (C * b + B * a) ^ 2 + (A * C - B ^ 2) * a ^ 2 := by positivity
    refine ⟨nonneg_of_mul_nonneg_right (h2 ▸ hnn) hC, fun hab => ?_⟩
    refine pos_of_mul_pos_right (a := C) (h2 ▸ ?_) hC.le
    by_cases ha : a = 0
    · subst ha
      have hb : b ≠ 0 := by simpa using hab
      have : 0 < (C * b) ^ 2 := by positivity
      simpa using this
    · have : 0 < (A * C - B ^ 2) * a ^ 2 := by positivity
      linarith [sq_nonneg (C * b + B * a)]
  rw [key]
  obtain ⟨i, hi⟩ := Function.ne_iff.mp hx
  rcases i with i | i
  · exact Finset.sum_pos' (fun j _ => (hterm _ _).1) ⟨i, Finset.mem_univ i, (hterm _ _).2 (.inl hi)⟩
  · exact Finset.sum_pos' (fun j _ => (hterm _ _).1) ⟨i, Finset.mem_univ i, (hterm _ _).2 (.inr hi)⟩

/-! ## Transition matrices -/

/-- `cross(w)³ = -|w|² cross(w)`. -/
theorem cross_cube (w : V3) : cross w * cross w * cross w = -(npNorm w ^ 2) • cross w := by
  rw [npNorm3_sq]
  ext i j
  fin_cases i <;> fin_cases j <;>
    simp [cross, Matrix.mul_apply, Fin.sum_univ_three] <;> ring

theorem poly_mul (W : M3) (m : ℝ) (hW : W * W * W = -m • W) (x a b x' a' b' : ℝ) :
    (x • (1 : M3) + a • W + b • (W * W)) * (x' • (1 : M3) + a' • W + b' • (W * W))
      = (x * x') • (1 : M3) + (x * a' + a * x' - m * (a * b' + b * a')) • W
        + (x * b' + b * x' + a * a' - m * (b * b')) • (W * W) := by
  have h3 : W * (W * W) = -m • W := by rw [← Matrix.mul_assoc]; exact hW
  have h4 : W * W * (W * W) = -m • (W * W) := by rw [← Matrix.mul_assoc, hW, Matrix.smul_mul]
  simp only [Matrix.add_mul, Matrix.mul_add, Matrix.smul_mul, Matrix.mul_smul, Matrix.one_mul,
    Matrix.mul_one, hW, h3, h4]
  module

theorem phi11_eq {w : V3} (h : npNorm w ≠ 0) (t : ℝ) :
    phi11 w t = (1 : ℝ) • (1 : M3) + (-(Real.sin (npNorm w * t) / npNorm w)) • cross w
      + ((1 - Real.cos (npNorm w * t)) / npNorm w ^ 2) • (cross w * cross w) := by
  simp only [phi11, if_pos (pow_ne_zero 2 h)]
  module

theorem phi12_eq {w : V3} (h : npNorm w ≠ 0) (t : ℝ) :
    phi12 w t = (-t) • (1 : M3) + ((1 - Real.cos (npNorm w * t)) / npNorm w ^ 2) • cross w
      + (-((npNorm w * t - Real.sin (npNorm w * t)) / npNorm w ^ 3)) • (cross w * cross w) := by
  simp only [phi12, if_pos (pow_ne_zero 2 h), if_pos (pow_ne_zero 3 h)]
  module

theorem phi11_zero {w : V3} (h : npNorm w = 0) (t : ℝ) : phi11 w t = 1 := by
  simp [phi11, h]

theorem phi12_zero {w : V3} (h : npNorm w = 0) (t : ℝ) : phi12 w t = (-t) • (1 : M3) := by
  simp [phi12, h]

theorem phi11_add (w : V3) (s t : ℝ) : phi11 w (s + t) = phi11 w t * phi11 w s := by
  by_cases h : npNorm w = 0
  · simp [phi11_zero h]
  rw [phi11_eq h, phi11_eq h, phi11_eq h, poly_mul _ _ (cross_cube w), mul_add, Real.sin_add,
    Real.cos_add]
  congr 1
  · congr 2
    · simp
    · field_simp; ring
  · congr 1
    field_simp; ring

theorem phi12_add (w : V3) (s t : ℝ) :
    phi12 w (s + t) = phi11 w t * phi12 w s + phi12 w t := by
  by_cases h : npNorm w = 0
  · simp only [phi11_zero h, phi12_zero h, Matrix.one_mul]; module
  rw [phi12_eq h, phi12_eq h, phi12_eq h, phi11_eq h, poly_mul _ _ (cross_cube w), mul_add,
    Real.sin_add, Real.cos_add]
  have e : ∀ (x a b x' a' b' : ℝ), x • (1 : M3) + a • cross w + b • (cross w * cross w)
      + (x' • (1 : M3) + a' • cross w + b' • (cross w * cross w))
      = (x + x') • (1 : M3) + (a + a') • cross w + (b + b') • (cross w * cross w) := by
    intros; module
  rw [e]
  congr 1
  · congr 2
    · ring
    · field_simp; ring
  · congr 1
    field_simp; ring

/-! ## Attitude propagation -/

/-- The half-angle vector has length `|sin(|w| dt / 2)|`. -/
theorem psi_sq (w : V3) (dt : ℝ) :
    psi w dt 0 ^ 2 + psi w dt 1 ^ 2 + psi w dt 2 ^ 2 = Real.sin (npNorm w * dt * 0.5) ^ 2 := by
  by_cases h : npNorm w = 0
  · simp [psi, h]
  · have h3 := npNorm3_sq w
    simp only [psi, if_pos h, Pi.smul_apply, smul_eq_mul]
    have : (Real.sin (npNorm w * dt * 0.5) / npNorm w * w 0) ^ 2
      + (Real.sin (npNorm w * dt * 0.5) / npNorm w * w 1) ^ 2
      + (Real.sin (npNorm w * dt * 0.5) / npNorm w * w 2) ^ 2
      = (Real.sin (npNorm w * dt * 0.5) / npNorm w) ^ 2 * npNorm w ^ 2 := by rw [h3]; ring
    rw [this]; field_simp

/-- `omega` is quaternion multiplication by `[c, psi]`, plus `(1 - c)` times the vector part. -/
theorem omega_eq (w : V3) (dt : ℝ) (q : V4) :
    omega w dt *ᵥ q
      = product q ![Real.cos (npNorm w * dt * 0.5), psi w dt 0, psi w dt 1, psi w dt 2]
        + (1 - Real.cos (npNorm w * dt * 0.5)) • ![0, q 1, q 2, q 3] := by
  refine vec4_ext ?_ ?_ ?_ ?_ <;>
    simp [omega, Matrix.mulVec, dotProduct, Fin.sum_univ_four, product_0, product_1, product_2, product_3,
      cross] <;> ring

theorem omega_sumSq (w : V3) (dt : ℝ) (q : V4) :
    npNorm (omega w dt *ᵥ q) ^ 2 = npNorm q ^ 2
      + Real.sin (npNorm w * dt * 0.5) ^ 2 * (q 1 ^ 2 + q 2 ^ 2 + q 3 ^ 2)
      + 2 * (1 - Real.cos (npNorm w * dt * 0.5)) * q 0
        * (psi w dt 0 * q 1 + psi w dt 1 * q 2 + psi w dt 2 * q 3) := by
  have hs := psi_sq w dt
  have hc := Real.sin_sq_add_cos_sq (npNorm w * dt * 0.5)
  rw [omega_eq, npNorm4_sq, npNorm4_sq]
  simp only [Pi.add_apply, Pi.smul_apply, smul_eq_mul, product_0, product_1, product_2, product_3,
    Matrix.cons_val_zero, Matrix.cons_val_one, cons4_2, cons4_3]
  generalize Real.sin (npNorm w * dt * 0.5) = s at *
  generalize Real.cos (npNorm w * dt * 0.5) = c at *
  generalize psi w dt 0 = p0 at *
  generalize psi w dt 1 = p1 at *
  generalize psi w dt 2 = p2 at *
  linear_combination (q 0 ^ 2 + q 1 ^ 2 + q 2 ^ 2 + q 3 ^ 2) * hs + q 0 ^ 2 * hc

end Adcs
