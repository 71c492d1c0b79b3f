import Verif.Props.AttConverge

set_option autoImplicit false

/-! # C166: the attitude filter of a satellite that turns never settles on the truth -/

namespace Adcs

open Quat Vec Obs Att Filter Spec
open scoped Matrix Topology

/-- The part of the gain that corrects the attitude never makes an innovation longer. -/
theorem gain_top_le {P : M6} (hP : Covariance P) (x : V3) :
    npNorm ((kgain P Att.R obsH *ᵥ x) ∘ Sum.inl) ≤ npNorm x := by
  have hS := innov_strict (H := obsH) hP attR_strict
  have hdet : IsUnit (innov P Att.R obsH).det := hS.det_ne.isUnit
  set z : V3 := (innov P Att.R obsH)⁻¹ *ᵥ x with hz
  have hx : x = innov P Att.R obsH *ᵥ z := by
    rw [hz, Matrix.mulVec_mulVec, Matrix.mul_nonsing_inv _ hdet, Matrix.one_mulVec]
  have hy : (kgain P Att.R obsH *ᵥ x) ∘ Sum.inl = P.toBlocks₁₁ *ᵥ z := by
    rw [kgain, ← Matrix.mulVec_mulVec, ← hz, mul_obsH_T]
    rfl
  have hx2 : x = P.toBlocks₁₁ *ᵥ z + (sensorSigma ^ 2) • z := by
    rw [hx, innov, obsH_P, Matrix.add_mulVec, add_comm]
    congr 1
    ext i
    simp [Att.R, Matrix.mulVec_diagonal]
  have hpsd : 0 ≤ z ⬝ᵥ (P.toBlocks₁₁ *ᵥ z) := by
    have h := hP.2 (Sum.elim z 0)
    have e : Sum.elim z (0 : V3) ⬝ᵥ (P *ᵥ Sum.elim z 0) = z ⬝ᵥ (P.toBlocks₁₁ *ᵥ z) := by
      simp [dotProduct, Matrix.mulVec, Fintype.sum_sum_type, Matrix.toBlocks₁₁]
    rwa [e] at h
  rw [hy]
  generalize P.toBlocks₁₁ *ᵥ z = y at hx2 hpsd
  refine (pow_le_pow_iff_left₀ (npNorm_nonneg _) (npNorm_nonneg _) two_ne_zero).1 ?_
  rw [npNorm3_sq, npNorm3_sq, hx2]
  simp only [dotProduct, Fin.sum_univ_three] at hpsd
  have hr : 0 < sensorSigma ^ 2 := pow_pos sensorSigma_pos 2
  simp only [Pi.add_apply, Pi.smul_apply, smul_eq_mul]
  nlinarith [mul_nonneg hr.le hpsd, mul_nonneg (sq_nonneg (sensorSigma ^ 2)) (sq_nonneg (z 0)),
    mul_nonneg (sq_nonneg (sensorSigma ^ 2)) (sq_nonneg (z 1)), mul_nonneg (sq_nonneg (sensorSigma ^ 2)) (sq_nonneg (z 2))]

/-- A steady turn from one reading to the next. -/
theorem turns_step {u : V3} {Q : ℝ → V4} (h : Spec.TurnsSteadily u Q) (s t : ℝ) :
    Q (s + t) = product (Q s) (expq u t) := by
  have hp : ∀ τ, HasDerivAt (fun τ => Q (s + τ)) ((0.5 : ℝ) • product (Q (s + τ)) ![0, u 0, u 1, u 2]) τ :=
    fun τ => (h.2 (s + τ)).comp_const_add s τ
  simpa using expq_unique hp t

theorem turns_unit {u : V3} {Q : ℝ → V4} (h : Spec.TurnsSteadily u Q) (t : ℝ) : IsUnit4 (Q t) := by
  have := turns_step h 0 t
  rw [zero_add] at this
  rw [this]
  exact isUnit4_product h.1 (expq_unit u t)

theorem null_mul {f g : ℕ → ℝ} (hf : Tendsto f atTop (𝓝 0)) (hg : ∀ n, |g n| ≤ 1) :
    Tendsto (fun n => g n * f n) atTop (𝓝 0) := by
  refine squeeze_zero_norm (fun n => ?_) ((tendsto_zero_iff_abs_tendsto_zero _).1 hf)
  rw [Real.norm_eq_abs, abs_mul]
  exact mul_le_of_le_one_left (abs_nonneg _) (hg n)

theorem null_prod {f g : ℕ → ℝ} (hf : Tendsto f atTop (𝓝 0)) (hg : Tendsto g atTop (𝓝 0)) :
    Tendsto (fun n => g n * f n) atTop (𝓝 0) := by
  simpa using hg.mul hf

theorem xi_product (q : V4) (y : V3) : xi q *ᵥ y = product q ![0, y 0, y 1, y 2] := by
  refine vec4_ext ?_ ?_ ?_ ?_ <;>
    simp [xi, Matrix.mulVec, dotProduct, Fin.sum_univ_three, cross, vecPart, product_0, product_1, product_2,
      product_3] <;> ring

/-- A unit quaternion changed by little and normalized is changed by little. -/
theorem normalize_null {Q e : ℕ → V4} (hQ : ∀ n, IsUnit4 (Q n)) (he : ∀ i, Tendsto (fun n => e n i) atTop (𝓝 0))
    (i : Fin 4) : Tendsto (fun n => normalizeV (Q n + e n) i - Q n i) atTop (𝓝 0) := by
  have hb : ∀ n i, |Q n i| ≤ 1 := fun n i => (abs_le_npNorm (Q n) i).trans ((isUnit4_iff _).1 (hQ n)).le
  have hN : Tendsto (fun n => npNorm (Q n + e n)) atTop (𝓝 1) := by
    have h1 : Tendsto (fun n => 1 + (2 * (Q n 0 * e n 0 + Q n 1 * e n 1 + Q n 2 * e n 2 + Q n 3 * e n 3)
        + (e n 0 * e n 0 + e n 1 * e n 1 + e n 2 * e n 2 + e n 3 * e n 3))) atTop (𝓝 (1 + (2 * (0 + 0 + 0 + 0) + (0 + 0 + 0 + 0)))) := by
      have a := fun j => null_mul (he j) (fun n => hb n j)
      have b := fun j => null_prod (he j) (he j)
      exact tendsto_const_nhds.add (((((a 0).add (a 1)).add (a 2)).add (a 3)).const_mul 2 |>.add
        ((((b 0).add (b 1)).add (b 2)).add (b 3)))
    have h2 := (Real.continuous_sqrt.tendsto _).comp h1
    norm_num at h2
    refine h2.congr fun n => ?_
    rw [Function.comp_apply, ← Real.sqrt_sq (npNorm_nonneg (Q n + e n)), npNorm4_sq]
    congr 1
    have := hQ n
    simp only [IsUnit4] at this
    simp only [Pi.add_apply]
    linear_combination -this
  have hi : Tendsto (fun n => (npNorm (Q n + e n))⁻¹) atTop (𝓝 1) := by simpa using hN.inv₀ one_ne_zero
  have h0 : Tendsto (fun n => (npNorm (Q n + e n))⁻¹ - 1) atTop (𝓝 0) := by simpa using hi.sub_const 1
  have h3 := (null_mul h0 (fun n => hb n i)).add ((he i).mul hi)
  simp only [zero_mul, add_zero] at h3
  refine h3.congr fun n => ?_
  rw [normalize_apply, Pi.add_apply, div_eq_mul_inv]
  ring

/-- C166 for every satellite that turns, unless the angle between two readings is a multiple of a full turn: exact
readings never lead the filter to the attitude and the bias, wherever it starts. The predicted attitude is not the
one the satellite has turned to (C106), so a filter that is right now is wrong at the next reading. -/
theorem C166_turning_fails (u b : V3) (dt : ℝ) (Q : ℝ → V4) (hdt : 0 < dt) (hcos : Real.cos (npNorm u * dt) ≠ 1)
    (hQ : Spec.TurnsSteadily u Q) (ks : ℕ → Att.Kalman) (hk : Spec.Tracks u b dt Q ks) (h0 : Covariance (ks 0).P)
    (hd0 : (ks 0).dq = 0) :
    ¬ (Tendsto (fun n => (ks n).b) atTop (𝓝 b) ∧ Tendsto (fun n : ℕ => (ks n).q - Q (n * dt)) atTop (𝓝 0)) := by
  rintro ⟨hb, hq⟩
  have hinv : ∀ n, Covariance (ks n).P ∧ (ks n).dq = 0 := by
    intro n
    induction n with
    | zero => exact ⟨h0, hd0⟩
    | succ n ih =>
      obtain ⟨k, h1, h2⟩ := hk n
      rw [measurement_eq ih.1] at h1
      rw [h2]
      refine ⟨(C81_propagate k ?_ _ dt hdt).weaken, ?_⟩
      · rw [← Except.ok.inj h1]
        exact kpost_cov ih.1 attR_strict
      · rw [← Except.ok.inj h1]; rfl
  choose m hm1 hm2 using hk
  set R : ℕ → V4 := fun n => Q (n * dt) with hR
  have hRu : ∀ n, IsUnit4 (R n) := fun n => turns_unit hQ _
  have hRb : ∀ n i, |R n i| ≤ 1 := fun n i => (abs_le_npNorm (R n) i).trans ((isUnit4_iff _).1 (hRu n)).le
  set δ : ℕ → V4 := fun n => (ks n).q - R n with hδd
  have hδ : ∀ i, Tendsto (fun n => δ n i) atTop (𝓝 0) := fun i => tendsto_pi_nhds.1 hq i
  have hqe : ∀ n, (ks n).q = R n + δ n := fun n => by simp [hδd]
  have hp : ∀ i j, Tendsto (fun n => R n i * δ n j) atTop (𝓝 0) := fun i j => null_mul (hδ j) (fun n => hRb n i)
  -- the innovation
  set x : ℕ → V3 := fun n => vecPart (errorQuat (R n) (ks n).q) with hx
  have hx0 : ∀ i, Tendsto (fun n => x n i) atTop (𝓝 0) := by
    intro i
    fin_cases i
    · have := (((hp 1 0).sub (hp 0 1)).sub (hp 3 2)).add (hp 2 3)
      simp only [sub_zero, add_zero] at this
      refine this.congr fun n => ?_
      simp [hx, hqe n, vecPart, errorQuat, product_1, conjugate]
      ring
    · have := (((hp 2 0).sub (hp 0 2)).add (hp 3 1)).sub (hp 1 3)
      simp only [sub_zero, add_zero] at this
      refine this.congr fun n => ?_
      simp [hx, hqe n, vecPart, errorQuat, product_2, conjugate]
      ring
    · have := (((hp 3 0).sub (hp 0 3)).sub (hp 2 1)).add (hp 1 2)
      simp only [sub_zero, add_zero] at this
      refine this.congr fun n => ?_
      simp [hx, hqe n, vecPart, errorQuat, product_3, conjugate]
      ring
  have hxn : Tendsto (fun n => npNorm (x n)) atTop (𝓝 0) := by
    have := (npNorm_continuous.tendsto (0 : V3)).comp (tendsto_pi_nhds.2 hx0)
    rwa [npNorm_eq_zero.2 rfl] at this
  -- the correction
  set y : ℕ → V3 := fun n => (kgain (ks n).P Att.R obsH *ᵥ x n) ∘ Sum.inl with hy
  have hy0 : ∀ i, Tendsto (fun n => y n i) atTop (𝓝 0) := fun i =>
    squeeze_zero_norm (fun n => (abs_le_npNorm (y n) i).trans (gain_top_le (hinv n).1 _)) hxn
  set e : ℕ → V4 := fun n => δ n + (0.5 : ℝ) • (xi (ks n).q *ᵥ y n) with he
  have hmq : ∀ n, (m n).q = normalizeV (R n + e n) := by
    intro n
    have h1 := hm1 n
    rw [measurement_eq (hinv n).1] at h1
    rw [← Except.ok.inj h1, (hinv n).2, sub_zero]
    show normalizeV ((ks n).q + (0.5 : ℝ) • (xi (ks n).q *ᵥ y n)) = _
    congr 1
    rw [he, ← add_assoc, ← hqe n]
  have hqy : ∀ i j, Tendsto (fun n => (ks n).q i * y n j) atTop (𝓝 0) := by
    intro i j
    have := (null_mul (hy0 j) (fun n => hRb n i)).add (null_prod (hy0 j) (hδ i))
    rw [add_zero] at this
    refine this.congr fun n => ?_
    rw [hqe n, Pi.add_apply]
    ring
  have he0 : ∀ i, Tendsto (fun n => e n i) atTop (𝓝 0) := by
    have a := fun i j => (hqy i j).const_mul (1 / 2)
    simp only [mul_zero] at a
    have hee : ∀ n i, e n i = δ n i + 1 / 2 * product (ks n).q ![0, y n 0, y n 1, y n 2] i := by
      intro n i
      rw [he, ← xi_product]
      simp only [Pi.add_apply, Pi.smul_apply, smul_eq_mul]
      norm_num
    intro i
    refine Tendsto.congr (fun n => (hee n i).symm) ?_
    rw [← add_zero (0 : ℝ)]
    refine (hδ i).add ?_
    fin_cases i
    · have := (((a 1 0).add (a 2 1)).add (a 3 2)).neg
      simp only [add_zero, neg_zero] at this
      refine this.congr fun n => ?_
      simp [product_0]
      ring
    · have := ((a 0 0).sub (a 3 1)).add (a 2 2)
      simp only [sub_zero, add_zero] at this
      refine this.congr fun n => ?_
      simp [product_1]
      ring
    · have := ((a 3 0).add (a 0 1)).sub (a 1 2)
      simp only [sub_zero, add_zero] at this
      refine this.congr fun n => ?_
      simp [product_2]
      ring
    · have := ((a 1 1).sub (a 2 0)).add (a 0 2)
      simp only [sub_zero, add_zero] at this
      refine this.congr fun n => ?_
      simp [product_3]
      ring
  have hM : ∀ i, Tendsto (fun n => (m n).q i - R n i) atTop (𝓝 0) := fun i =>
    (normalize_null hRu he0 i).congr fun n => by rw [hmq n]
  -- the rate the filter uses
  have hw : Tendsto (fun n => u + b - (m n).b) atTop (𝓝 u) := by
    have h1 : Tendsto (fun n => u + b - (ks (n + 1)).b) atTop (𝓝 (u + b - b)) :=
      tendsto_const_nhds.sub (hb.comp (tendsto_add_atTop_nat 1))
    rw [add_sub_cancel_right] at h1
    refine h1.congr fun n => ?_
    rw [hm2 n]
    rfl
  set w : ℕ → V3 := fun n => u + b - (m n).b with hwd
  have hu : npNorm u ≠ 0 := by
    intro h
    rw [h, zero_mul, Real.cos_zero] at hcos
    exact hcos rfl
  have hwn : Tendsto (fun n => npNorm (w n) * dt * 0.5) atTop (𝓝 (npNorm u * dt * 0.5)) :=
    (((npNorm_continuous.tendsto u).comp hw).mul_const dt).mul_const 0.5
  set C := Real.cos (npNorm u * dt * 0.5) with hC
  have hc : Tendsto (fun n => Real.cos (npNorm (w n) * dt * 0.5)) atTop (𝓝 C) :=
    (Real.continuous_cos.tendsto _).comp hwn
  have hψ : ∀ i, Tendsto (fun n => psi (w n) dt i) atTop (𝓝 (psi u dt i)) := by
    intro i
    rw [psi_eq _ _ hdt.ne']
    refine ((((Real.continuous_sinc.tendsto _).comp hwn).const_mul (dt / 2)).mul
      ((tendsto_pi_nhds.1 hw) i)).congr fun n => ?_
    rw [psi_eq _ _ hdt.ne']
    rfl
  have hnext : ∀ n, R (n + 1) = product (R n) ![C, psi u dt 0, psi u dt 1, psi u dt 2] := by
    intro n
    have h1 := turns_step hQ (n * dt) dt
    have e1 : (n * dt + dt : ℝ) = ((n + 1 : ℕ) : ℝ) * dt := by push_cast; ring
    rw [e1] at h1
    rw [hR]
    dsimp only
    rw [h1]
    congr 1
    have e2 : npNorm u * (dt / 2) = npNorm u * dt * 0.5 := by ring
    refine vec4_ext ?_ ?_ ?_ ?_ <;> simp [expq, e2, hC, psi, hu]
  set r : V4 := ![C, psi u dt 0, psi u dt 1, psi u dt 2] with hr
  set r' : ℕ → V4 := fun n => ![Real.cos (npNorm (w n) * dt * 0.5), psi (w n) dt 0, psi (w n) dt 1, psi (w n) dt 2]
    with hr'
  have hrr : ∀ k, Tendsto (fun n => r' n k) atTop (𝓝 (r k)) := by
    intro k
    fin_cases k
    · exact hc
    · exact hψ 0
    · exact hψ 1
    · exact hψ 2
  have hC1 : C ^ 2 ≠ 1 := by
    intro h
    apply hcos
    have e1 : npNorm u * dt = 2 * (npNorm u * dt * 0.5) := by ring
    rw [e1, Real.cos_two_mul, ← hC, h]
    norm_num
  have hrunit : IsUnit4 r := by
    have h1 := hnext 0
    have h2 := sumSq_product (R 0) r
    rw [← h1] at h2
    have h3 := hRu 0
    have h4 := hRu 1
    simp only [IsUnit4] at h3 h4 ⊢
    rw [zero_add, h3, h4, one_mul] at h2
    exact h2.symm
  have hT : ∀ j k, Tendsto (fun n => (m n).q j * r' n k - R n j * r k) atTop (𝓝 0) := by
    intro j k
    have h1 : Tendsto (fun n => r' n k - r k) atTop (𝓝 0) := by simpa using (hrr k).sub_const (r k)
    have h2 := (null_mul h1 (fun n => hRb n j)).add ((hM j).mul (hrr k))
    rw [zero_mul, add_zero] at h2
    refine h2.congr fun n => ?_
    ring
  have hstep : ∀ n, (ks (n + 1)).q = product (m n).q (r' n) + (1 - r' n 0) • ![0, (m n).q 1, (m n).q 2, (m n).q 3] := by
    intro n
    rw [hm2 n]
    exact omega_eq _ _ _
  have hD : ∀ i, Tendsto (fun n => (ks (n + 1)).q i - R (n + 1) i) atTop (𝓝 0) := fun i =>
    (hδ i).comp (tendsto_add_atTop_nat 1)
  have hRi : ∀ i, Tendsto (fun n => (1 - r' n 0) * (m n).q i) atTop (𝓝 0) →
      Tendsto (fun n => R n i) atTop (𝓝 0) := by
    intro i h
    have h1 : Tendsto (fun n => r' n 0 - C) atTop (𝓝 0) := by
      have h1 := (hrr 0).sub_const (r 0)
      rw [sub_self] at h1
      exact h1
    have h2 : Tendsto (fun n => 1 - r' n 0) atTop (𝓝 (1 - C)) := tendsto_const_nhds.sub (hrr 0)
    have h3 := ((h.sub (h2.mul (hM i))).add (null_mul h1 (fun n => hRb n i))).const_mul (1 - C)⁻¹
    simp only [mul_zero, sub_zero, add_zero] at h3
    refine h3.congr fun n => ?_
    have h4 : 1 - C ≠ 0 := fun h => hC1 (by rw [← sub_eq_zero.1 h]; norm_num)
    field_simp
    ring
  have hR1 : Tendsto (fun n => R n 1) atTop (𝓝 0) := hRi 1 (by
    have := (hD 1).sub ((((hT 0 1).add (hT 1 0)).add (hT 2 3)).sub (hT 3 2))
    simp only [add_zero, sub_zero] at this
    refine this.congr fun n => ?_
    rw [hnext n, hstep n]
    simp only [Pi.add_apply, Pi.smul_apply, smul_eq_mul, product_1, Matrix.cons_val]
    ring)
  have hR2 : Tendsto (fun n => R n 2) atTop (𝓝 0) := hRi 2 (by
    have := (hD 2).sub ((((hT 0 2).add (hT 2 0)).add (hT 3 1)).sub (hT 1 3))
    simp only [add_zero, sub_zero] at this
    refine this.congr fun n => ?_
    rw [hnext n, hstep n]
    simp only [Pi.add_apply, Pi.smul_apply, smul_eq_mul, product_2, Matrix.cons_val]
    ring)
  have hR3 : Tendsto (fun n => R n 3) atTop (𝓝 0) := hRi 3 (by
    have := (hD 3).sub ((((hT 0 3).add (hT 3 0)).add (hT 1 2)).sub (hT 2 1))
    simp only [add_zero, sub_zero] at this
    refine this.congr fun n => ?_
    rw [hnext n, hstep n]
    simp only [Pi.add_apply, Pi.smul_apply, smul_eq_mul, product_3, Matrix.cons_val]
    ring)
  -- the next reading is away from the identity
  have k1 : Tendsto (fun n => R n 0 * r 1) atTop (𝓝 0) := by
    have := (hR1.comp (tendsto_add_atTop_nat 1)).sub
      (((hR1.mul_const (r 0)).add (hR2.mul_const (r 3))).sub (hR3.mul_const (r 2)))
    simp only [zero_mul, add_zero, sub_zero] at this
    refine this.congr fun n => ?_
    rw [Function.comp_apply, hnext n, product_1]
    ring
  have k2 : Tendsto (fun n => R n 0 * r 2) atTop (𝓝 0) := by
    have := (hR2.comp (tendsto_add_atTop_nat 1)).sub
      (((hR2.mul_const (r 0)).add (hR3.mul_const (r 1))).sub (hR1.mul_const (r 3)))
    simp only [zero_mul, add_zero, sub_zero] at this
    refine this.congr fun n => ?_
    rw [Function.comp_apply, hnext n, product_2]
    ring
  have k3 : Tendsto (fun n => R n 0 * r 3) atTop (𝓝 0) := by
    have := (hR3.comp (tendsto_add_atTop_nat 1)).sub
      (((hR3.mul_const (r 0)).add (hR1.mul_const (r 2))).sub (hR2.mul_const (r 1)))
    simp only [zero_mul, add_zero, sub_zero] at this
    refine this.congr fun n => ?_
    rw [Function.comp_apply, hnext n, product_3]
    ring
  have hfin : Tendsto (fun _ : ℕ => 1 - C ^ 2) atTop (𝓝 0) := by
    have h1 := (((k1.pow 2).add (k2.pow 2)).add (k3.pow 2)).add
      ((((hR1.pow 2).add (hR2.pow 2)).add (hR3.pow 2)).mul_const (1 - C ^ 2))
    simp only [ne_eq, OfNat.ofNat_ne_zero, not_false_eq_true, zero_pow, add_zero, zero_mul] at h1
    refine h1.congr fun n => ?_
    have h3 := hRu n
    simp only [IsUnit4] at h3 hrunit
    have h4 : r 1 ^ 2 + r 2 ^ 2 + r 3 ^ 2 = 1 - C ^ 2 := by
      have : r 0 = C := rfl
      rw [this] at hrunit
      linarith
    linear_combination (R n 0 ^ 2) * h4 + (1 - C ^ 2) * h3
  exact hC1 (by linarith [tendsto_nhds_unique hfin tendsto_const_nhds])

/-- A filter that starts from the truth, for a satellite that turns by a radian between the readings, meets the
hypotheses of `C166_turning_fails`. -/
example : ∃ ks, Spec.Tracks ![1, 0, 0] 0 1 (expq ![1, 0, 0]) ks ∧ ks 0 = Att.init (expq ![1, 0, 0] 0) ∧
    Covariance (ks 0).P ∧ (ks 0).dq = 0 ∧ Spec.TurnsSteadily ![1, 0, 0] (expq ![1, 0, 0]) ∧
    Real.cos (npNorm (![1, 0, 0] : V3) * 1) ≠ 1 := by
  obtain ⟨ks, h1, h2⟩ := tracks_exists ![1, 0, 0] 0 one_pos (expq ![1, 0, 0]) (Att.init (expq ![1, 0, 0] 0))
    (init_strict _).weaken
  refine ⟨ks, h1, h2, by rw [h2]; exact (init_strict _).weaken, by rw [h2]; rfl, expq_turns _, ?_⟩
  rw [npNorm_e1, mul_one]
  exact (Real.cos_one_le.trans_lt (by norm_num)).ne

end Adcs
