import Mathlib.Analysis.SpecialFunctions.Trigonometric.Sinc
import Verif.Proofs.FilterSteady
import Verif.Props.Vec

set_option autoImplicit false

/-! # One cycle of the attitude filter of a satellite at rest, in error coordinates -/

namespace Adcs

open Quat Vec Obs Att Filter Spec
open scoped Matrix Topology

/-- A quaternion from its parts. -/
def q4 (c : ℝ) (v : V3) : V4 := ![c, v 0, v 1, v 2]

/-- Errors of a filter: attitude relative to the true one, bias, and the covariance. -/
abbrev Err := V4 × V3 × M6

/-- The errors of a filter, when the attitude is `q` and the bias `b`. -/
def errOf (q : V4) (b : V3) (k : Att.Kalman) : Err := (product (conjugate q) k.q, k.b - b, k.P)

/-- The gain. -/
noncomputable def gK (X : Err) : Matrix I6 (Fin 3) ℝ := kgain X.2.2 Att.R obsH

/-- Half the correction of the attitude. -/
noncomputable def cS (X : Err) (i : Fin 3) : ℝ := -(1 / 2) * (gK X *ᵥ vecPart X.1) (Sum.inl i)

/-- The bias error after a reading. -/
noncomputable def cB (X : Err) (i : Fin 3) : ℝ := X.2.1 i - (gK X *ᵥ vecPart X.1) (Sum.inr i)

/-- The attitude error after a reading. -/
noncomputable def cY (X : Err) : V4 := normalizeV (product X.1 (q4 1 (cS X)))

/-- Half the angle of a prediction. -/
noncomputable def cC (dt : ℝ) (X : Err) : ℝ := Real.cos (npNorm (-cB X) * dt * 0.5)

/-- A reading and a prediction. -/
noncomputable def cyc (q : V4) (dt : ℝ) (X : Err) : Err :=
  (product (cY X) (q4 (cC dt X) (psi (-cB X) dt))
      + (1 - cC dt X) • product (conjugate q) (q4 0 (vecPart (product q (cY X)))),
    cB X, phi (-cB X) dt * (kpost X.2.2 Att.R obsH * (phi (-cB X) dt)ᵀ) + addedNoise dt)

theorem npNorm_product_unit {a : V4} (h : IsUnit4 a) (v : V4) : npNorm (product a v) = npNorm v := by
  have h1 := sumSq_product a v
  unfold IsUnit4 at h
  rw [h, one_mul, ← npNorm4_sq, ← npNorm4_sq] at h1
  exact (pow_left_inj₀ (npNorm_nonneg _) (npNorm_nonneg _) two_ne_zero).1 h1

theorem product_smul_right (a v : V4) (c : ℝ) : product a (c • v) = c • product a v := by
  refine vec4_ext ?_ ?_ ?_ ?_ <;> simp [product_0, product_1, product_2, product_3] <;> ring

theorem product_add_right (a v w : V4) : product a (v + w) = product a v + product a w := by
  refine vec4_ext ?_ ?_ ?_ ?_ <;> simp [product_0, product_1, product_2, product_3] <;> ring

theorem normalize_product {a : V4} (h : IsUnit4 a) (v : V4) :
    product a (normalizeV v) = normalizeV (product a v) := by
  rcases eq_or_ne v 0 with rfl | hv
  · have : product a 0 = 0 := by
      refine vec4_ext ?_ ?_ ?_ ?_ <;> simp [product_0, product_1, product_2, product_3]
    have e : normalizeV (0 : V4) = 0 := by simp [normalizeV, npNorm_eq_zero]
    rw [e, this, e]
  · have hp : product a v ≠ 0 := fun h0 => by
      have := npNorm_product_unit h v
      rw [h0, npNorm_eq_zero.2 rfl] at this
      exact hv (npNorm_eq_zero.1 this.symm)
    rw [normalize_eq hv, normalize_eq hp, npNorm_product_unit h, product_smul_right]

/-- What a reading and a prediction do to the errors. -/
theorem cycle_err {q : V4} (hq : IsUnit4 q) (b : V3) (dt : ℝ) {k m : Att.Kalman} (hP : Covariance k.P)
    (hdq : k.dq = 0) (hm : k.measurement q = .ok m) :
    errOf q b (m.propagate b dt) = cyc q dt (errOf q b k) := by
  rw [measurement_eq hP] at hm
  obtain rfl := Except.ok.inj hm
  have hz : vecPart (errorQuat q k.q) - k.dq = -vecPart (errOf q b k).1 := by
    rw [hdq, sub_zero, errorQuat, errOf]
    refine vec3_ext ?_ ?_ ?_ <;>
      simp [vecPart, product_1, product_2, product_3, conjugate_0, conjugate_1, conjugate_2, conjugate_3] <;> ring
  rw [hz]
  have hK : kgain k.P Att.R obsH = gK (errOf q b k) := rfl
  rw [hK, Matrix.mulVec_neg]
  set X := errOf q b k with hX
  have hB : k.b + (-(gK X *ᵥ vecPart X.1)) ∘ Sum.inr - b = cB X := by
    funext i
    simp [cB, hX, errOf]
    ring
  have hw : b - (k.b + (-(gK X *ᵥ vecPart X.1)) ∘ Sum.inr) = -cB X := by rw [← hB]; abel
  have hY : product (conjugate q) (normalizeV (k.q + (0.5 : ℝ) • (xi k.q *ᵥ
      ((-(gK X *ᵥ vecPart X.1)) ∘ Sum.inl)))) = cY X := by
    rw [normalize_product (isUnit4_conjugate hq), cY]
    congr 1
    have : k.q + (0.5 : ℝ) • (xi k.q *ᵥ ((-(gK X *ᵥ vecPart X.1)) ∘ Sum.inl)) = product k.q (q4 1 (cS X)) := by
      rw [C03_xi]
      refine vec4_ext ?_ ?_ ?_ ?_ <;>
        simp [q4, cS, product_0, product_1, product_2, product_3] <;> ring
    rw [this, ← product_assoc]
    rfl
  have hback : ∀ v : V4, product q (product (conjugate q) v) = v := fun v => by
    rw [← product_assoc, product_conj_self hq, one_product]
  refine Prod.ext ?_ (Prod.ext ?_ ?_)
  · show product (conjugate q) (omega (b - _) dt *ᵥ _) = _
    rw [hw, omega_eq, product_add_right, product_smul_right, ← product_assoc, hY]
    show _ = product (cY X) (q4 (cC dt X) (psi (-cB X) dt))
      + (1 - cC dt X) • product (conjugate q) (q4 0 (vecPart (product q (cY X))))
    rw [← hY, hback]
    rfl
  · exact hB
  · show phi (b - _) dt * (_ * (phi (b - _) dt)ᵀ) + _ = _
    rw [hw]
    rfl

/-! ## Bounds on the transition near rest -/

theorem abs_le_npNorm {n : ℕ} (x : Fin n → ℝ) (i : Fin n) : |x i| ≤ npNorm x := by
  refine Real.abs_le_sqrt ?_
  exact Finset.single_le_sum (f := fun i => x i ^ 2) (fun i _ => sq_nonneg _) (Finset.mem_univ i)

theorem crossEntry_le (w : V3) (i j : Fin 3) : |cross w i j| ≤ npNorm w := by
  have h := abs_le_npNorm w
  have h0 := npNorm_nonneg w
  fin_cases i <;> fin_cases j <;> simp [cross, h, h0]

theorem cross_sq_le (w : V3) (i j : Fin 3) : |(cross w * cross w) i j| ≤ 3 * npNorm w ^ 2 := by
  rw [Matrix.mul_apply, Fin.sum_univ_three]
  have h : ∀ k, |cross w i k * cross w k j| ≤ npNorm w ^ 2 := fun k => by
    rw [abs_mul, sq]
    exact mul_le_mul (crossEntry_le _ _ _) (crossEntry_le _ _ _) (abs_nonneg _) (npNorm_nonneg _)
  have := abs_add_three (cross w i 0 * cross w 0 j) (cross w i 1 * cross w 1 j) (cross w i 2 * cross w 2 j)
  have := h 0
  have := h 1
  have := h 2
  linarith

theorem lin_le {n x : ℝ} (hn : 0 ≤ n) (hn1 : n ≤ 1) {α β : ℝ} {u v : ℝ}
    (hα : |α| ≤ x) (hβ : |β| ≤ x) (hx : 0 ≤ x) (hu : |u| ≤ n) (hv : |v| ≤ 3 * n ^ 2) :
    |α * u + β * v| ≤ 4 * x * n := by
  have h1 : |α * u| ≤ x * n := by rw [abs_mul]; exact mul_le_mul hα hu (abs_nonneg _) hx
  have h2 : |β * v| ≤ x * (3 * n ^ 2) := by rw [abs_mul]; exact mul_le_mul hβ hv (abs_nonneg _) hx
  have h3 := abs_add_le (α * u) (β * v)
  have h4 : n ^ 2 ≤ n := by nlinarith
  nlinarith [mul_le_mul_of_nonneg_left h4 hx]

/-- The transition near rest differs from that at rest in proportion to the rate. -/
theorem phi_le {dt : ℝ} (hdt : 0 < dt) {w : V3} (hw : npNorm w ≤ 1) (i j : I6) :
    |(phi w dt - phi 0 dt) i j| ≤ 4 * (dt + dt ^ 2 + dt ^ 3) * npNorm w := by
  have h00 : npNorm (0 : V3) = 0 := npNorm_eq_zero.2 rfl
  by_cases h : npNorm w = 0
  · have : w = 0 := npNorm_eq_zero.1 h
    rw [this, sub_self, h00]; simp
  have hn : 0 < npNorm w := lt_of_le_of_ne (npNorm_nonneg w) (Ne.symm h)
  set n := npNorm w with hnd
  have hx : 0 < n * dt := by positivity
  have s1 := Real.sin_lt hx
  have s2 := Real.sin_gt_sub_cube hx
  have hC : 0 ≤ dt + dt ^ 2 + dt ^ 3 := by positivity
  have hp2 : 0 ≤ dt ^ 2 := by positivity
  have hp3 : 0 ≤ dt ^ 3 := by positivity
  have b1 : |(-(Real.sin (n * dt) / n))| ≤ dt + dt ^ 2 + dt ^ 3 := by
    rw [abs_neg, abs_div, abs_of_pos hn, div_le_iff₀ hn]
    have : |Real.sin (n * dt)| ≤ n * dt := by
      have := Real.abs_sin_le_abs (x := n * dt)
      rwa [abs_of_pos hx] at this
    nlinarith
  have b2 : |(1 - Real.cos (n * dt)) / n ^ 2| ≤ dt + dt ^ 2 + dt ^ 3 := by
    have h1 := Real.one_sub_sq_div_two_le_cos (x := n * dt)
    have h2 := Real.cos_le_one (n * dt)
    rw [abs_of_nonneg (div_nonneg (by linarith) (by positivity)), div_le_iff₀ (by positivity)]
    have : (n * dt) ^ 2 / 2 ≤ (dt + dt ^ 2 + dt ^ 3) * n ^ 2 := by
      have : (n * dt) ^ 2 / 2 = dt ^ 2 / 2 * n ^ 2 := by ring
      rw [this]
      exact mul_le_mul_of_nonneg_right (by linarith) (by positivity)
    linarith
  have b3 : |-((n * dt - Real.sin (n * dt)) / n ^ 3)| ≤ dt + dt ^ 2 + dt ^ 3 := by
    rw [abs_neg, abs_of_nonneg (div_nonneg (by linarith) (by positivity)), div_le_iff₀ (by positivity)]
    have : (n * dt) ^ 3 / 6 ≤ (dt + dt ^ 2 + dt ^ 3) * n ^ 3 := by
      have : (n * dt) ^ 3 / 6 = dt ^ 3 / 6 * n ^ 3 := by ring
      rw [this]
      exact mul_le_mul_of_nonneg_right (by linarith) (by positivity)
    linarith
  have hzero : (0 : ℝ) ≤ 4 * (dt + dt ^ 2 + dt ^ 3) * n := by positivity
  rw [phi, phi, phi11_zero h00, phi12_zero h00, phi11_eq h, phi12_eq h, ← hnd]
  rcases i with i | i <;> rcases j with j | j
  · have := lin_le hn.le hw b1 b2 hC (crossEntry_le w i j) (cross_sq_le w i j)
    simpa [add_assoc, add_sub_cancel_left] using this
  · have := lin_le hn.le hw b2 b3 hC (crossEntry_le w i j) (cross_sq_le w i j)
    refine le_of_eq_of_le ?_ this
    congr 1
    simp only [Matrix.sub_apply, Matrix.fromBlocks_apply₁₂, Matrix.add_apply, Matrix.smul_apply, smul_eq_mul]
    ring
  · simpa using hzero
  · simpa using hzero

theorem psi_eq (w : V3) (dt : ℝ) (hdt : dt ≠ 0) (i : Fin 3) :
    psi w dt i = dt / 2 * Real.sinc (npNorm w * dt * 0.5) * w i := by
  by_cases h : npNorm w = 0
  · have : w = 0 := npNorm_eq_zero.1 h
    simp [psi, this]
  · have hx : npNorm w * dt * 0.5 ≠ 0 := by
      have : (0.5 : ℝ) ≠ 0 := by norm_num
      positivity
    rw [Real.sinc_of_ne_zero hx]
    simp only [psi, if_pos h, Pi.smul_apply, smul_eq_mul]
    field_simp
    norm_num
    ring

/-! ## Continuity -/

/-- The filter without errors. -/
def errRest (P : M6) : Err := (![1, 0, 0, 0], 0, P)

theorem errRest_fst (P : M6) : (errRest P).1 = ![1, 0, 0, 0] := rfl

section continuity
variable {P : M6}

theorem coord_att (X : Err) (i : Fin 4) : Tendsto (fun Y : Err => Y.1 i) (𝓝 X) (𝓝 (X.1 i)) :=
  ((continuous_apply i).comp continuous_fst).tendsto X

theorem coord_bias (X : Err) (i : Fin 3) : Tendsto (fun Y : Err => Y.2.1 i) (𝓝 X) (𝓝 (X.2.1 i)) :=
  ((continuous_apply i).comp (continuous_fst.comp continuous_snd)).tendsto X

theorem coord_cov (X : Err) (i j : I6) : Tendsto (fun Y : Err => Y.2.2 i j) (𝓝 X) (𝓝 (X.2.2 i j)) :=
  ((continuous_apply j).comp ((continuous_apply i).comp (continuous_snd.comp continuous_snd))).tendsto X

theorem kgain_continuousAt (hP : P.PosSemidef) : ContinuousAt (fun P : M6 => kgain P Att.R obsH) P := by
  have hd : (innov P Att.R obsH).det ≠ 0 := (innov_strict (covariance_psd.2 hP) attR_strict).det_ne
  have hc : Continuous fun P : M6 => innov P Att.R obsH :=
    continuous_const.add (continuous_const.matrix_mul (continuous_id.matrix_mul continuous_const))
  have h1 : ContinuousAt Inv.inv (innov P Att.R obsH) := by
    refine continuousAt_matrix_inv _ ?_
    simp only [Ring.inverse_eq_inv']
    exact continuousAt_inv₀ hd
  have h2 : ContinuousAt (fun P : M6 => (innov P Att.R obsH)⁻¹) P :=
    ContinuousAt.comp (f := fun P : M6 => innov P Att.R obsH) h1 hc.continuousAt
  have h3 : ContinuousAt (fun P : M6 => (P * obsHᵀ, (innov P Att.R obsH)⁻¹)) P :=
    (continuous_id.matrix_mul continuous_const).continuousAt.prodMk h2
  have c2 : Continuous fun z : Matrix I6 (Fin 3) ℝ × M3 => z.1 * z.2 := continuous_fst.matrix_mul continuous_snd
  exact ContinuousAt.comp (f := fun P : M6 => (P * obsHᵀ, (innov P Att.R obsH)⁻¹)) c2.continuousAt h3

theorem gK_tendsto (hP : P.PosSemidef) (i : I6) (j : Fin 3) :
    Tendsto (fun X : Err => gK X i j) (𝓝 (errRest P)) (𝓝 (kgain P Att.R obsH i j)) := by
  have h1 : Tendsto (fun X : Err => X.2.2) (𝓝 (errRest P)) (𝓝 P) :=
    (continuous_snd.comp continuous_snd).tendsto (errRest P)
  have h2 := (kgain_continuousAt hP).tendsto.comp h1
  exact (((continuous_apply j).comp (continuous_apply i)).tendsto _).comp h2

theorem vec_tendsto (i : Fin 3) : Tendsto (fun X : Err => vecPart X.1 i) (𝓝 (errRest P)) (𝓝 0) := by
  fin_cases i
  · exact coord_att (errRest P) 1
  · exact coord_att (errRest P) 2
  · exact coord_att (errRest P) 3

theorem gKv_tendsto (hP : P.PosSemidef) (i : I6) :
    Tendsto (fun X : Err => (gK X *ᵥ vecPart X.1) i) (𝓝 (errRest P)) (𝓝 0) := by
  have : Tendsto (fun X : Err => ∑ j, gK X i j * vecPart X.1 j) (𝓝 (errRest P))
      (𝓝 (∑ j, kgain P Att.R obsH i j * 0)) :=
    tendsto_finsetSum _ fun j _ => (gK_tendsto hP i j).mul (vec_tendsto j)
  simpa [Matrix.mulVec, dotProduct] using this

theorem cS_tendsto (hP : P.PosSemidef) (i : Fin 3) : Tendsto (fun X : Err => cS X i) (𝓝 (errRest P)) (𝓝 0) := by
  have := (gKv_tendsto hP (Sum.inl i)).const_mul (-(1 / 2))
  rw [mul_zero] at this
  exact this

theorem cB_tendsto (hP : P.PosSemidef) (i : Fin 3) : Tendsto (fun X : Err => cB X i) (𝓝 (errRest P)) (𝓝 0) := by
  have := (coord_bias (errRest P) i).sub (gKv_tendsto hP (Sum.inr i))
  rw [sub_zero] at this
  exact this

theorem npNorm_continuous {n : ℕ} : Continuous fun x : Fin n → ℝ => npNorm x := by
  unfold npNorm
  fun_prop

theorem cBn_tendsto (hP : P.PosSemidef) : Tendsto (fun X : Err => npNorm (-cB X)) (𝓝 (errRest P)) (𝓝 0) := by
  have h : Tendsto (fun X : Err => -cB X) (𝓝 (errRest P)) (𝓝 0) := by
    refine tendsto_pi_nhds.2 fun i => ?_
    simpa using (cB_tendsto hP i).neg
  have := (npNorm_continuous.tendsto (0 : V3)).comp h
  rwa [npNorm_eq_zero.2 rfl] at this

/-- The attitude error after a reading, before it is normalised. -/
noncomputable def cU (X : Err) : V4 := product X.1 (q4 1 (cS X))

theorem cU_0 (X : Err) : cU X 0 = X.1 0 - (X.1 1 * cS X 0 + X.1 2 * cS X 1 + X.1 3 * cS X 2) := by
  rw [cU, product_0]; simp [q4]; ring

theorem cU_1 (X : Err) : cU X 1 = X.1 1 + X.1 0 * cS X 0 + (X.1 2 * cS X 2 - X.1 3 * cS X 1) := by
  rw [cU, product_1]; simp [q4]; ring

theorem cU_2 (X : Err) : cU X 2 = X.1 2 + X.1 0 * cS X 1 + (X.1 3 * cS X 0 - X.1 1 * cS X 2) := by
  rw [cU, product_2]; simp [q4]; ring

theorem cU_3 (X : Err) : cU X 3 = X.1 3 + X.1 0 * cS X 2 + (X.1 1 * cS X 1 - X.1 2 * cS X 0) := by
  rw [cU, product_3]; simp [q4]; ring

theorem cU_tendsto (hP : P.PosSemidef) : Tendsto cU (𝓝 (errRest P)) (𝓝 ![1, 0, 0, 0]) := by
  have h := cS_tendsto hP
  have z := fun i => coord_att (errRest P) i
  refine tendsto_pi_nhds.2 fun i => ?_
  fin_cases i
  · have := (z 0).sub ((((z 1).mul (h 0)).add ((z 2).mul (h 1))).add ((z 3).mul (h 2)))
    refine (this.congr fun X => (cU_0 X).symm).trans_eq ?_
    simp [errRest]
  · have := ((z 1).add ((z 0).mul (h 0))).add (((z 2).mul (h 2)).sub ((z 3).mul (h 1)))
    refine (this.congr fun X => (cU_1 X).symm).trans_eq ?_
    simp [errRest]
  · have := ((z 2).add ((z 0).mul (h 1))).add (((z 3).mul (h 0)).sub ((z 1).mul (h 2)))
    refine (this.congr fun X => (cU_2 X).symm).trans_eq ?_
    simp [errRest]
  · have := ((z 3).add ((z 0).mul (h 2))).add (((z 1).mul (h 1)).sub ((z 2).mul (h 0)))
    refine (this.congr fun X => (cU_3 X).symm).trans_eq ?_
    simp [errRest]

theorem normalize_apply {n : ℕ} (v : Fin n → ℝ) (i : Fin n) : normalizeV v i = v i / npNorm v := by
  by_cases h : npNorm v = 0
  · rw [h, div_zero, normalizeV, if_pos h, npNorm_eq_zero.1 h]; rfl
  · simp [normalizeV, h]

theorem cUn_tendsto (hP : P.PosSemidef) : Tendsto (fun X => npNorm (cU X)) (𝓝 (errRest P)) (𝓝 1) := by
  have := (npNorm_continuous.tendsto (![1, 0, 0, 0] : V4)).comp (cU_tendsto hP)
  rwa [npNorm_vec4 (by norm_num)] at this

theorem cY_apply (X : Err) (i : Fin 4) : cY X i = cU X i / npNorm (cU X) := normalize_apply _ i

theorem cY_tendsto (hP : P.PosSemidef) (i : Fin 4) :
    Tendsto (fun X => cY X i) (𝓝 (errRest P)) (𝓝 ((![1, 0, 0, 0] : V4) i)) := by
  have := ((tendsto_pi_nhds.1 (cU_tendsto hP)) i).div (cUn_tendsto hP) one_ne_zero
  rw [div_one] at this
  exact this.congr fun X => (cY_apply X i).symm

theorem cC_tendsto (hP : P.PosSemidef) (dt : ℝ) : Tendsto (cC dt) (𝓝 (errRest P)) (𝓝 1) := by
  have h1 : Tendsto (fun X : Err => npNorm (-cB X) * dt * 0.5) (𝓝 (errRest P)) (𝓝 (0 * dt * 0.5)) :=
    ((cBn_tendsto hP).mul_const dt).mul_const 0.5
  have := (Real.continuous_cos.tendsto _).comp h1
  rw [zero_mul, zero_mul, Real.cos_zero] at this
  exact this

theorem sinc_tendsto (hP : P.PosSemidef) (dt : ℝ) :
    Tendsto (fun X : Err => Real.sinc (npNorm (-cB X) * dt * 0.5)) (𝓝 (errRest P)) (𝓝 1) := by
  have h1 : Tendsto (fun X : Err => npNorm (-cB X) * dt * 0.5) (𝓝 (errRest P)) (𝓝 (0 * dt * 0.5)) :=
    ((cBn_tendsto hP).mul_const dt).mul_const 0.5
  have := (Real.continuous_sinc.tendsto _).comp h1
  rw [zero_mul, zero_mul, Real.sinc_zero] at this
  exact this

theorem psi_tendsto (hP : P.PosSemidef) {dt : ℝ} (hdt : dt ≠ 0) (i : Fin 3) :
    Tendsto (fun X : Err => psi (-cB X) dt i) (𝓝 (errRest P)) (𝓝 0) := by
  have := ((sinc_tendsto hP dt).const_mul (dt / 2)).mul (cB_tendsto hP i).neg
  rw [neg_zero, mul_zero] at this
  exact this.congr fun X => (psi_eq _ dt hdt i).symm

/-- The term by which the prediction of the attitude is wrong. -/
noncomputable def cR (q : V4) (X : Err) : V4 := product (conjugate q) (q4 0 (vecPart (product q (cY X))))

theorem cR_tendsto (hP : P.PosSemidef) (q : V4) (i : Fin 4) :
    ∃ c, Tendsto (fun X => cR q X i) (𝓝 (errRest P)) (𝓝 c) := by
  have hc : Continuous fun y : V4 => product (conjugate q) (q4 0 (vecPart (product q y))) i := by
    fin_cases i <;>
      simp [q4, vecPart, product_0, product_1, product_2, product_3, conjugate_0, conjugate_1, conjugate_2,
        conjugate_3] <;> fun_prop
  have hY : Tendsto cY (𝓝 (errRest P)) (𝓝 ![1, 0, 0, 0]) := tendsto_pi_nhds.2 (cY_tendsto hP)
  exact ⟨_, (hc.tendsto _).comp hY⟩

theorem cyc_0 (q : V4) (dt : ℝ) (X : Err) : (cyc q dt X).1 0 = cY X 0 * cC dt X
    - (cY X 1 * psi (-cB X) dt 0 + cY X 2 * psi (-cB X) dt 1 + cY X 3 * psi (-cB X) dt 2)
    + (1 - cC dt X) * cR q X 0 := by
  show product (cY X) (q4 (cC dt X) (psi (-cB X) dt)) 0 + (1 - cC dt X) * cR q X 0 = _
  rw [product_0]; simp [q4]; ring

theorem cyc_1 (q : V4) (dt : ℝ) (X : Err) : (cyc q dt X).1 1 = cY X 0 * psi (-cB X) dt 0 + cY X 1 * cC dt X
    + (cY X 2 * psi (-cB X) dt 2 - cY X 3 * psi (-cB X) dt 1) + (1 - cC dt X) * cR q X 1 := by
  show product (cY X) (q4 (cC dt X) (psi (-cB X) dt)) 1 + (1 - cC dt X) * cR q X 1 = _
  rw [product_1]; simp [q4]; ring

theorem cyc_2 (q : V4) (dt : ℝ) (X : Err) : (cyc q dt X).1 2 = cY X 0 * psi (-cB X) dt 1 + cY X 2 * cC dt X
    + (cY X 3 * psi (-cB X) dt 0 - cY X 1 * psi (-cB X) dt 2) + (1 - cC dt X) * cR q X 2 := by
  show product (cY X) (q4 (cC dt X) (psi (-cB X) dt)) 2 + (1 - cC dt X) * cR q X 2 = _
  rw [product_2]; simp [q4]; ring

theorem cyc_3 (q : V4) (dt : ℝ) (X : Err) : (cyc q dt X).1 3 = cY X 0 * psi (-cB X) dt 2 + cY X 3 * cC dt X
    + (cY X 1 * psi (-cB X) dt 1 - cY X 2 * psi (-cB X) dt 0) + (1 - cC dt X) * cR q X 3 := by
  show product (cY X) (q4 (cC dt X) (psi (-cB X) dt)) 3 + (1 - cC dt X) * cR q X 3 = _
  rw [product_3]; simp [q4]; ring

theorem phi_tendsto (hP : P.PosSemidef) {dt : ℝ} (hdt : 0 < dt) :
    Tendsto (fun X : Err => phi (-cB X) dt) (𝓝 (errRest P)) (𝓝 (phi 0 dt)) := by
  refine tendsto_pi_nhds.2 fun i => tendsto_pi_nhds.2 fun j => ?_
  rw [tendsto_iff_dist_tendsto_zero]
  have hn := cBn_tendsto hP
  have h1 := hn.const_mul (4 * (dt + dt ^ 2 + dt ^ 3))
  rw [mul_zero] at h1
  refine squeeze_zero' (Eventually.of_forall fun X => dist_nonneg) ?_ h1
  filter_upwards [hn.eventually_le_const zero_lt_one] with X hX
  rw [Real.dist_eq]
  exact phi_le hdt hX i j

theorem kpost_continuousAt (hP : P.PosSemidef) : ContinuousAt (fun P : M6 => kpost P Att.R obsH) P := by
  have h2 : ContinuousAt (fun P : M6 => (kgain P Att.R obsH, P)) P := (kgain_continuousAt hP).prodMk continuousAt_id
  have hc : Continuous fun z : Matrix I6 (Fin 3) ℝ × M6 => (1 - z.1 * obsH) * z.2 :=
    (continuous_const.sub (continuous_fst.matrix_mul continuous_const)).matrix_mul continuous_snd
  exact ContinuousAt.comp (f := fun P : M6 => (kgain P Att.R obsH, P)) hc.continuousAt h2

theorem kpost_tendsto (hP : P.PosSemidef) :
    Tendsto (fun X : Err => kpost X.2.2 Att.R obsH) (𝓝 (errRest P)) (𝓝 (kpost P Att.R obsH)) :=
  (kpost_continuousAt hP).tendsto.comp ((continuous_snd.comp continuous_snd).tendsto (errRest P))

/-- The cycle is continuous where there are no errors. -/
theorem cyc_tendsto (hP : P.PosSemidef) (q : V4) {dt : ℝ} (hdt : 0 < dt) :
    Tendsto (cyc q dt) (𝓝 (errRest P))
      (𝓝 (errRest (ric (phi 0 dt)ᵀ obsHᵀ (addedNoise dt) Att.R P))) := by
  have y := cY_tendsto hP
  have c := cC_tendsto hP dt
  have p := psi_tendsto hP hdt.ne'
  have c1 : Tendsto (fun X => 1 - cC dt X) (𝓝 (errRest P)) (𝓝 0) := by simpa using c.const_sub 1
  have r : ∀ i, Tendsto (fun X => (1 - cC dt X) * cR q X i) (𝓝 (errRest P)) (𝓝 0) := fun i => by
    obtain ⟨x, hx⟩ := cR_tendsto hP q i
    simpa using c1.mul hx
  refine Tendsto.prodMk_nhds ?_ (Tendsto.prodMk_nhds ?_ ?_)
  · refine tendsto_pi_nhds.2 fun i => ?_
    fin_cases i
    · have := (((y 0).mul c).sub ((((y 1).mul (p 0)).add ((y 2).mul (p 1))).add ((y 3).mul (p 2)))).add (r 0)
      refine (this.congr fun X => (cyc_0 q dt X).symm).trans_eq ?_
      simp
    · have := ((((y 0).mul (p 0)).add ((y 1).mul c)).add (((y 2).mul (p 2)).sub ((y 3).mul (p 1)))).add (r 1)
      refine (this.congr fun X => (cyc_1 q dt X).symm).trans_eq ?_
      simp
    · have := ((((y 0).mul (p 1)).add ((y 2).mul c)).add (((y 3).mul (p 0)).sub ((y 1).mul (p 2)))).add (r 2)
      refine (this.congr fun X => (cyc_2 q dt X).symm).trans_eq ?_
      simp
    · have := ((((y 0).mul (p 2)).add ((y 3).mul c)).add (((y 1).mul (p 1)).sub ((y 2).mul (p 0)))).add (r 3)
      refine (this.congr fun X => (cyc_3 q dt X).symm).trans_eq ?_
      simp
  · exact tendsto_pi_nhds.2 fun i => cB_tendsto hP i
  · rw [← cycle_ric]
    have h3 : Tendsto (fun X : Err => (phi (-cB X) dt, kpost X.2.2 Att.R obsH)) (𝓝 (errRest P))
        (𝓝 (phi 0 dt, kpost P Att.R obsH)) := (phi_tendsto hP hdt).prodMk_nhds (kpost_tendsto hP)
    have hc : Continuous fun z : M6 × M6 => z.1 * (z.2 * z.1ᵀ) + addedNoise dt :=
      (continuous_fst.matrix_mul (continuous_snd.matrix_mul continuous_fst.matrix_transpose)).add continuous_const
    exact (hc.tendsto _).comp h3

end continuity

end Adcs
