import Verif.Props.AttSteady

set_option autoImplicit false

/-! # The attitude filter at rest: steady covariance and stability of its error loop -/

namespace Adcs

open Quat Vec Obs Att Filter Spec
open scoped Matrix Topology

/-! ## Recurrences of second order -/

/-- `x (n + 2) = t x (n + 1) - p x n` dies out when both roots lie inside the unit circle. -/
theorem recurrence_tendsto {t p : ℝ} (hp : |p| < 1) (ht : |t| < 1 + p) {x : ℕ → ℝ}
    (hx : ∀ n, x (n + 2) = t * x (n + 1) - p * x n) : Tendsto x atTop (𝓝 0) := by
  have hp1 := abs_lt.1 hp
  have ht1 := abs_lt.1 ht
  have hq : 0 < 1 + p := by linarith
  set V : ℕ → ℝ := fun n => (1 + p) * (x n ^ 2 + x (n + 1) ^ 2) - 2 * t * x n * x (n + 1) with hV
  set y : ℕ → ℝ := fun n => t * x (n + 1) - (1 + p) * x n with hy
  have hstep : ∀ n, V (n + 1) = V n - (1 - p) * y n ^ 2 := fun n => by
    simp only [hV, hy, hx]; ring
  have hV0 : ∀ n, 0 ≤ V n := fun n => by
    have e : V n = ((1 + p + t) * (x n - x (n + 1)) ^ 2 + (1 + p - t) * (x n + x (n + 1)) ^ 2) / 2 := by
      simp only [hV]; ring
    rw [e]
    have := mul_nonneg (by linarith : 0 ≤ 1 + p + t) (sq_nonneg (x n - x (n + 1)))
    have := mul_nonneg (by linarith : 0 ≤ 1 + p - t) (sq_nonneg (x n + x (n + 1)))
    linarith
  have hanti : Antitone V := antitone_nat_of_succ_le fun n => by
    rw [hstep]
    have := mul_nonneg (by linarith : 0 ≤ 1 - p) (sq_nonneg (y n))
    linarith
  obtain ⟨L, hL⟩ : ∃ L, Tendsto V atTop (𝓝 L) :=
    ⟨_, tendsto_atTop_ciInf hanti ⟨0, by rintro _ ⟨n, rfl⟩; exact hV0 n⟩⟩
  have hy2 : Tendsto (fun n => y n ^ 2) atTop (𝓝 0) := by
    have h1 : Tendsto (fun n => (V n - V (n + 1)) / (1 - p)) atTop (𝓝 ((L - L) / (1 - p))) :=
      (hL.sub (hL.comp (tendsto_add_atTop_nat 1))).div_const _
    rw [sub_self, zero_div] at h1
    refine h1.congr fun n => ?_
    rw [hstep]
    have : 1 - p ≠ 0 := by linarith
    field_simp
    ring
  -- the remaining quantity is a multiple of `x ^ 2` up to terms that vanish
  have hD : 0 < (1 + p) ^ 2 - t ^ 2 := by nlinarith
  have hX : Tendsto (fun n => x (n + 1) ^ 2) atTop (𝓝 ((1 + p) * L / ((1 + p) ^ 2 - t ^ 2))) := by
    have h1 : Tendsto (fun n => ((1 + p) * V n - y n ^ 2) / ((1 + p) ^ 2 - t ^ 2)) atTop
        (𝓝 (((1 + p) * L - 0) / ((1 + p) ^ 2 - t ^ 2))) := ((hL.const_mul _).sub hy2).div_const _
    rw [sub_zero] at h1
    refine h1.congr fun n => ?_
    rw [div_eq_iff hD.ne']
    simp only [hV, hy]
    ring
  set M := (1 + p) * L / ((1 + p) ^ 2 - t ^ 2) with hM
  have hX0 : Tendsto (fun n => x n ^ 2) atTop (𝓝 M) := (tendsto_add_atTop_iff_nat 1).1 hX
  -- `y` vanishes, so that `|1 + p| |x n|` and `|t| |x (n + 1)|` have the same limit
  have hyt : Tendsto y atTop (𝓝 0) := by
    have := hy2.sqrt
    rw [Real.sqrt_zero] at this
    simp only [Real.sqrt_sq_eq_abs] at this
    exact (tendsto_zero_iff_abs_tendsto_zero _).2 this
  have hM0 : M = 0 := by
    have h0 : 0 ≤ M := ge_of_tendsto' hX0 fun n => sq_nonneg _
    have h1 : Tendsto (fun n => |x n|) atTop (𝓝 (√M)) := by
      have := hX0.sqrt; simpa only [Real.sqrt_sq_eq_abs] using this
    have h2 : Tendsto (fun n => |x (n + 1)|) atTop (𝓝 (√M)) := h1.comp (tendsto_add_atTop_nat 1)
    have h3 : (1 + p) * √M ≤ |t| * √M + 0 := by
      refine le_of_tendsto_of_tendsto' (h1.const_mul (1 + p))
        ((h2.const_mul |t|).add ((tendsto_zero_iff_abs_tendsto_zero _).1 hyt)) fun n => ?_
      show (1 + p) * |x n| ≤ |t| * |x (n + 1)| + |y n|
      have e : (1 + p) * |x n| = |(1 + p) * x n| := by rw [abs_mul, abs_of_pos hq]
      rw [← abs_mul, e]
      have : (1 + p) * x n = t * x (n + 1) - y n := by simp only [hy]; ring
      rw [this]
      exact abs_sub _ _
    have h4 : √M = 0 := by
      have := Real.sqrt_nonneg M
      nlinarith
    exact (Real.sqrt_eq_zero h0).1 h4
  rw [hM0] at hX0
  have := hX0.sqrt
  rw [Real.sqrt_zero] at this
  simp only [Real.sqrt_sq_eq_abs] at this
  exact (tendsto_zero_iff_abs_tendsto_zero _).2 this

/-! ## The steady covariance at rest -/

/-- A covariance that treats the three axes alike. -/
def blk (a b c : ℝ) : M6 := Matrix.fromBlocks (a • 1) (b • 1) (b • 1) (c • 1)

theorem addedNoise_eq (dt : ℝ) : addedNoise dt
    = blk (gyroVar * dt + 0.3333333 * driftVar * dt ^ 3) (0.5 * driftVar * dt ^ 2) (driftVar * dt) := by
  simp only [addedNoise, blk, G, processNoise, Matrix.fromBlocks_transpose, Matrix.fromBlocks_multiply]
  congr 1 <;> simp

theorem phi_rest (dt : ℝ) : phi 0 dt = Matrix.fromBlocks 1 (-(dt • 1)) 0 1 := by
  have h : npNorm (0 : V3) = 0 := npNorm_eq_zero.2 rfl
  rw [phi, phi11_zero h, phi12_zero h]
  congr 1
  rw [neg_smul]

theorem attR_eq : Att.R = (sensorSigma ^ 2) • (1 : M3) := by
  rw [Att.R, Matrix.smul_one_eq_diagonal]

theorem innov_blk (a b c : ℝ) : innov (blk a b c) Att.R obsH = (a + sensorSigma ^ 2) • (1 : M3) := by
  rw [innov, obsH_P, blk, Matrix.toBlocks_fromBlocks₁₁, attR_eq, ← add_smul, add_comm]

theorem kgain_blk {a b c : ℝ} (h : a + sensorSigma ^ 2 ≠ 0) : kgain (blk a b c) Att.R obsH
    = Matrix.fromRows ((a / (a + sensorSigma ^ 2)) • (1 : M3)) ((b / (a + sensorSigma ^ 2)) • (1 : M3)) := by
  have hi : ((a + sensorSigma ^ 2) • (1 : M3))⁻¹ = (a + sensorSigma ^ 2)⁻¹ • (1 : M3) := by
    refine Matrix.inv_eq_left_inv ?_
    rw [Matrix.smul_mul, Matrix.one_mul, smul_smul, inv_mul_cancel₀ h, one_smul]
  rw [kgain, innov_blk, hi, obsH_T, blk, Matrix.fromBlocks_mul_fromRows, Matrix.fromRows_mul]
  congr 1 <;> simp [div_eq_inv_mul, smul_smul]

theorem kpost_blk {a b c : ℝ} (h : a + sensorSigma ^ 2 ≠ 0) : kpost (blk a b c) Att.R obsH
    = blk (a - a ^ 2 / (a + sensorSigma ^ 2)) (b - a * b / (a + sensorSigma ^ 2))
        (c - b ^ 2 / (a + sensorSigma ^ 2)) := by
  rw [kpost, kgain_blk h, Matrix.sub_mul, Matrix.one_mul, Matrix.mul_assoc, obsH_mul]
  ext i j
  rcases i with i | i <;> rcases j with j | j <;>
    simp [blk, Matrix.fromRows_mul, Matrix.one_apply] <;> split_ifs <;> ring

theorem ric_blk {a b c dt : ℝ} (h : a + sensorSigma ^ 2 ≠ 0) :
    ric (phi 0 dt)ᵀ obsHᵀ (addedNoise dt) Att.R (blk a b c) =
      blk (a - a ^ 2 / (a + sensorSigma ^ 2) - 2 * dt * (b - a * b / (a + sensorSigma ^ 2))
          + dt ^ 2 * (c - b ^ 2 / (a + sensorSigma ^ 2)) + (gyroVar * dt + 0.3333333 * driftVar * dt ^ 3))
        (b - a * b / (a + sensorSigma ^ 2) - dt * (c - b ^ 2 / (a + sensorSigma ^ 2)) + 0.5 * driftVar * dt ^ 2)
        (c - b ^ 2 / (a + sensorSigma ^ 2) + driftVar * dt) := by
  rw [← cycle_ric, kpost_blk h, phi_rest, addedNoise_eq]
  simp only [blk, Matrix.fromBlocks_transpose, Matrix.fromBlocks_multiply, Matrix.fromBlocks_add]
  congr 1 <;> simp [← smul_smul] <;> module

/-- The covariance of the filter at rest approaches `blk a b c`, from every start. -/
theorem rest_limit {dt : ℝ} (hdt : 0 < dt) : ∃ a b c : ℝ, (blk a b c).PosDef ∧
    ric (phi 0 dt)ᵀ obsHᵀ (addedNoise dt) Att.R (blk a b c) = blk a b c ∧
    ∀ P₀ : M6, P₀.PosSemidef →
      Tendsto (fun k => (ric (phi 0 dt)ᵀ obsHᵀ (addedNoise dt) Att.R)^[k] P₀) atTop (𝓝 (blk a b c)) := by
  have hN : (addedNoise dt).PosDef := strict_pd.1 (processNoise_strict hdt)
  have hR : Att.R.PosDef := strict_pd.1 attR_strict
  obtain ⟨P, h1, h2, h3⟩ := ric_tendsto (a := (phi 0 dt)ᵀ) (b := obsHᵀ) hR hN
    (transposed_rest (phi12_det hdt (.inl rfl)))
  set f := ric (phi 0 dt)ᵀ obsHᵀ (addedNoise dt) Att.R with hf
  have hb : ∀ k, ∃ a b c, f^[k] 0 = blk a b c := by
    intro k
    induction k with
    | zero => exact ⟨0, 0, 0, by simp [blk]⟩
    | succ k ih =>
      obtain ⟨a, b, c, h⟩ := ih
      have hpsd : (f^[k] 0).PosSemidef := iter_psd hR hN.posSemidef Matrix.PosSemidef.zero k
      have ha : 0 ≤ a := by
        have := hpsd.diag_nonneg (i := Sum.inl 0)
        rw [h] at this
        simpa [blk] using this
      have : a + sensorSigma ^ 2 ≠ 0 := by
        have : 0 < sensorSigma ^ 2 := by norm_num [sensorSigma]
        linarith
      rw [Function.iterate_succ_apply', h, hf, ric_blk this]
      exact ⟨_, _, _, rfl⟩
  choose a b c habc using hb
  have h0 := h3 0 Matrix.PosSemidef.zero
  have ent : ∀ i j, Tendsto (fun k => (f^[k] 0) i j) atTop (𝓝 (P i j)) := fun i j =>
    (tendsto_pi_nhds.1 (tendsto_pi_nhds.1 h0 i)) j
  have ea : Tendsto a atTop (𝓝 (P (Sum.inl 0) (Sum.inl 0))) := by
    refine (ent (Sum.inl 0) (Sum.inl 0)).congr fun k => by rw [habc]; simp [blk]
  have eb : Tendsto b atTop (𝓝 (P (Sum.inl 0) (Sum.inr 0))) := by
    refine (ent (Sum.inl 0) (Sum.inr 0)).congr fun k => by rw [habc]; simp [blk]
  have ec : Tendsto c atTop (𝓝 (P (Sum.inr 0) (Sum.inr 0))) := by
    refine (ent (Sum.inr 0) (Sum.inr 0)).congr fun k => by rw [habc]; simp [blk]
  have hP : P = blk (P (Sum.inl 0) (Sum.inl 0)) (P (Sum.inl 0) (Sum.inr 0)) (P (Sum.inr 0) (Sum.inr 0)) := by
    refine tendsto_nhds_unique h0 ?_
    refine tendsto_pi_nhds.2 fun i => tendsto_pi_nhds.2 fun j => ?_
    rcases i with i | i <;> rcases j with j | j <;> simp only [habc] <;>
      simp [blk, Matrix.one_apply] <;> split_ifs <;> first | assumption | exact tendsto_const_nhds
  have hpd : P.PosDef := by
    rw [← strict_pd]
    refine ⟨psd_symm h1, fun x hx => ?_⟩
    obtain ⟨v, hv⟩ := ric_eq (a := (phi 0 dt)ᵀ) (b := obsHᵀ) (q := addedNoise dt) hR h1 x
    rw [← hf, h2] at hv
    rw [hv]
    have := pd_pos hN hx
    have := psd_nonneg hR.posSemidef v
    have := psd_nonneg h1 ((phi 0 dt)ᵀ *ᵥ x + obsHᵀ *ᵥ v)
    linarith
  refine ⟨P (Sum.inl 0) (Sum.inl 0), P (Sum.inl 0) (Sum.inr 0), P (Sum.inr 0) (Sum.inr 0), ?_, ?_, ?_⟩
  · rw [← hP]; exact hpd
  · rw [← hP]; exact h2
  · rw [← hP]; exact h3

/-- The transition of the error of an optimal filter over one cycle. -/
noncomputable def loopA (dt : ℝ) (P : M6) : M6 := phi 0 dt * (1 - kgain P Att.R obsH * obsH)

theorem loopA_stable {dt : ℝ} (hdt : 0 < dt) {P : M6} (hP : P.PosSemidef)
    (h : ric (phi 0 dt)ᵀ obsHᵀ (addedNoise dt) Att.R P = P) (x : I6 → ℝ) :
    Tendsto (fun k => (((loopA dt P)ᵀ) ^ k) *ᵥ x) atTop (𝓝 0) := by
  have hN : (addedNoise dt).PosDef := strict_pd.1 (processNoise_strict hdt)
  have hR : Att.R.PosDef := strict_pd.1 attR_strict
  have hS : (Att.R + obsHᵀᵀ * P * obsHᵀ).det ≠ 0 := (S_psd hR hP).det_pos.ne'
  have hg : Lqr.gain (phi 0 dt)ᵀ obsHᵀ Att.R P
      = .ok ((Att.R + obsHᵀᵀ * P * obsHᵀ)⁻¹ * obsHᵀᵀ * P * (phi 0 dt)ᵀ) := by
    simp only [Lqr.gain, Lqr.gain.npInv', if_neg hS]
  have := lqr_stable_pd hN hR (isDare_iff.2 ⟨hP, h⟩) hg x
  have e : (phi 0 dt)ᵀ - obsHᵀ * ((Att.R + obsHᵀᵀ * P * obsHᵀ)⁻¹ * obsHᵀᵀ * P * (phi 0 dt)ᵀ)
      = (loopA dt P)ᵀ := by
    have hs : ((innov P Att.R obsH)⁻¹)ᵀ = (innov P Att.R obsH)⁻¹ := by
      rw [Matrix.transpose_nonsing_inv]
      congr 1
      exact (innov_strict (covariance_psd.2 hP) attR_strict).1
    have hi : Att.R + obsHᵀᵀ * P * obsHᵀ = innov P Att.R obsH := by
      rw [innov, Matrix.transpose_transpose, Matrix.mul_assoc]
    rw [hi, loopA, kgain]
    simp only [Matrix.transpose_mul, Matrix.transpose_sub, Matrix.transpose_one, Matrix.transpose_transpose, hs,
      psd_symm hP, Matrix.sub_mul, Matrix.one_mul, Matrix.mul_assoc]
  rwa [e] at this

/-- The gains at rest. -/
theorem rest_gains {dt a b c : ℝ} (hdt : 0 < dt) (hP : (blk a b c).PosDef)
    (h : ric (phi 0 dt)ᵀ obsHᵀ (addedNoise dt) Att.R (blk a b c) = blk a b c) :
    0 < a ∧ 0 < a + sensorSigma ^ 2 ∧ b < 0 ∧ dt * |b / (a + sensorSigma ^ 2)| < 2 := by
  have ha : 0 < a := by
    have := hP.diag_pos (i := Sum.inl 0)
    simpa [blk] using this
  have hs : 0 < sensorSigma ^ 2 := by norm_num [sensorSigma]
  have hS : 0 < a + sensorSigma ^ 2 := by linarith
  have hD : 0 < driftVar := by norm_num [driftVar]
  have hG : 0 < gyroVar := by norm_num [gyroVar]
  have hm : 0 ≤ c - b ^ 2 / (a + sensorSigma ^ 2) := by
    have := (covariance_psd.1 (kpost_cov (H := obsH) (covariance_psd.2 hP.posSemidef) attR_strict)).diag_nonneg
      (i := Sum.inr 0)
    rw [kpost_blk hS.ne'] at this
    simpa [blk] using this
  have h' := h
  rw [ric_blk hS.ne'] at h'
  have e22 : c - b ^ 2 / (a + sensorSigma ^ 2) + driftVar * dt = c := by
    have := congrFun (congrFun h' (Sum.inr 0)) (Sum.inr 0)
    simpa [blk] using this
  have e11 : a - a ^ 2 / (a + sensorSigma ^ 2) - 2 * dt * (b - a * b / (a + sensorSigma ^ 2))
          + dt ^ 2 * (c - b ^ 2 / (a + sensorSigma ^ 2)) + (gyroVar * dt + 0.3333333 * driftVar * dt ^ 3) = a := by
    have := congrFun (congrFun h' (Sum.inl 0)) (Sum.inl 0)
    simpa [blk] using this
  have hb2 : b ^ 2 / (a + sensorSigma ^ 2) = driftVar * dt := by linarith
  set S := a + sensorSigma ^ 2 with hSd
  have hb0 : b ≠ 0 := by
    rintro rfl
    have : 0 < driftVar * dt := by positivity
    simp at hb2
    rcases hb2 with h | h <;> linarith
  refine ⟨ha, hS, ?_, ?_⟩
  · -- a positive gain would make the loop unstable
    by_contra hb
    have hb : 0 < b := lt_of_le_of_ne (not_lt.1 hb) (Ne.symm hb0)
    set k1 := a / S with hk1
    set k2 := b / S with hk2
    have hk2p : 0 < k2 := div_pos hb hS
    set t := 2 - k1 + dt * k2 with ht
    -- a root of `x ^ 2 - t x + (1 - k1)` at or above one
    have hdisc : 0 ≤ t ^ 2 - 4 * (1 - k1) := by
      have : t ^ 2 - 4 * (1 - k1) = (k1 - dt * k2) ^ 2 + 4 * (dt * k2) := by rw [ht]; ring
      rw [this]; positivity
    set r := (t + √(t ^ 2 - 4 * (1 - k1))) / 2 with hr
    have hroot : r ^ 2 - t * r + (1 - k1) = 0 := by
      have := Real.sq_sqrt hdisc
      rw [hr]; linear_combination this / 4
    have hr1 : 1 ≤ r := by
      have h1 : |k1 - dt * k2| ≤ √(t ^ 2 - 4 * (1 - k1)) := by
        refine Real.abs_le_sqrt ?_
        have : 0 < dt * k2 := by positivity
        have e : t ^ 2 - 4 * (1 - k1) = (k1 - dt * k2) ^ 2 + 4 * (dt * k2) := by rw [ht]; ring
        rw [e]; linarith
      have h2 := (abs_le.1 (le_refl |k1 - dt * k2|)).2
      rw [hr, ht]; linarith
    have hA : (loopA dt (blk a b c))ᵀ
        = Matrix.fromBlocks ((1 - k1 + dt * k2) • 1) (-k2 • 1) (-(dt • (1 : M3))) 1 := by
      rw [loopA, phi_rest, kgain_blk hS.ne', mul_obsH, ← hSd, ← hk1, ← hk2]
      have e : (1 : M6) - Matrix.fromCols (Matrix.fromRows (k1 • (1 : M3)) (k2 • (1 : M3))) 0
          = Matrix.fromBlocks ((1 - k1) • 1) 0 (-k2 • 1) 1 := by
        ext i j
        rcases i with i | i <;> rcases j with j | j <;> simp [Matrix.one_apply]; split_ifs <;> ring
      rw [e, Matrix.fromBlocks_multiply, Matrix.fromBlocks_transpose]
      congr 1 <;> simp <;> module
    set v : I6 → ℝ := Sum.elim (![r - 1, 0, 0] : V3) (![-dt, 0, 0] : V3) with hv
    have hev : (loopA dt (blk a b c))ᵀ *ᵥ v = r • v := by
      rw [hA, hv, Matrix.fromBlocks_mulVec]
      funext i
      rcases i with i | i <;> fin_cases i <;>
        simp [Matrix.smul_mulVec, Matrix.neg_mulVec]
      · rw [ht] at hroot; linear_combination -hroot
      · ring
    have hpow : ∀ n : ℕ, ((loopA dt (blk a b c))ᵀ ^ n) *ᵥ v = r ^ n • v := by
      intro n
      induction n with
      | zero => simp
      | succ n ih =>
        rw [pow_succ, ← Matrix.mulVec_mulVec, hev, Matrix.mulVec_smul, ih, smul_smul, pow_succ']
    have hst := loopA_stable hdt hP.posSemidef h v
    simp only [hpow] at hst
    have h3 := (tendsto_pi_nhds.1 hst) (Sum.inr 0)
    have h4 : Tendsto (fun n : ℕ => -(r ^ n * dt)) atTop (𝓝 0) := by
      refine h3.congr fun n => ?_
      simp [hv]
    have h5 : (0 : ℝ) ≤ -dt := by
      refine le_of_tendsto h4 (Eventually.of_forall fun n => ?_)
      have := one_le_pow₀ hr1 (n := n)
      nlinarith
    linarith
  · have hq : 0 ≤ a - a ^ 2 / S - 2 * dt * (b - a * b / S) + dt ^ 2 * (c - b ^ 2 / S) := by
      have := (kpost_cov (H := obsH) (covariance_psd.2 hP.posSemidef) attR_strict).2
        (Sum.elim (![1, 0, 0] : V3) (![-dt, 0, 0] : V3))
      rw [kpost_blk hS.ne', blk, Matrix.fromBlocks_mulVec] at this
      simp [dotProduct, Fintype.sum_sum_type, Fin.sum_univ_three, Matrix.smul_mulVec] at this
      rw [← hSd] at this
      linarith
    have h3 : 0.3333333 * driftVar * dt ^ 3 < S := by
      have : 0 < gyroVar * dt := by positivity
      linarith
    have h4 : (dt * |b / S|) ^ 2 < 2 ^ 2 := by
      have e : (dt * |b / S|) ^ 2 = dt ^ 2 * (b ^ 2 / S) / S := by
        rw [mul_pow, sq_abs, div_pow]
        field_simp
      rw [e, hb2, div_lt_iff₀ hS]
      have : 0 < driftVar * dt ^ 3 := by positivity
      norm_num at h3 ⊢
      nlinarith
    exact lt_of_pow_lt_pow_left₀ 2 (by norm_num) h4

end Adcs
