import Mathlib.Analysis.Asymptotics.Lemmas
import Verif.Proofs.FilterCycle

set_option autoImplicit false

/-! # First order of a cycle of the attitude filter -/

namespace Adcs

open Quat Vec Obs Att Filter Spec Asymptotics
open scoped Matrix Topology

/-- The size of the attitude and bias errors. -/
noncomputable def gE (X : Err) : ℝ := ‖X.1 - ![1, 0, 0, 0]‖ + ‖X.2.1‖

section algebra
variable {l : Filter Err} {f h g : Err → ℝ} {c : ℝ}

theorem lo_of_zero (hf : Tendsto f l (𝓝 0)) (hh : h =O[l] g) : (fun X => f X * h X) =o[l] g := by
  have := ((isLittleO_one_iff ℝ).2 hf).mul_isBigO hh
  simpa using this

theorem lo_of_lim (hf : Tendsto f l (𝓝 c)) (hh : h =o[l] g) : (fun X => f X * h X) =o[l] g := by
  have := (hf.isBigO_one ℝ).mul_isLittleO hh
  simpa using this

theorem bo_of_lim (hf : Tendsto f l (𝓝 c)) (hh : h =O[l] g) : (fun X => f X * h X) =O[l] g := by
  have := (hf.isBigO_one ℝ).mul hh
  simpa using this

end algebra

section
variable {P : M6} {k1 k2 : ℝ}

theorem gE_tendsto (P : M6) : Tendsto gE (𝓝 (errRest P)) (𝓝 0) := by
  have h : Continuous gE := by
    unfold gE
    exact (continuous_fst.sub continuous_const).norm.add (continuous_fst.comp continuous_snd).norm
  have := h.tendsto (errRest P)
  simpa [gE, errRest] using this

theorem att_bo (i : Fin 4) : (fun X : Err => X.1 i - (![1, 0, 0, 0] : V4) i) =O[𝓝 (errRest P)] gE := by
  refine IsBigO.of_bound 1 (Eventually.of_forall fun X => ?_)
  have h1 := norm_le_pi_norm (X.1 - ![1, 0, 0, 0]) i
  have h2 := norm_nonneg X.2.1
  have h3 := norm_nonneg (X.1 - ![1, 0, 0, 0])
  rw [one_mul, gE, Real.norm_of_nonneg (add_nonneg h3 h2)]
  refine le_trans h1 (by linarith)

theorem bias_bo (i : Fin 3) : (fun X : Err => X.2.1 i) =O[𝓝 (errRest P)] gE := by
  refine IsBigO.of_bound 1 (Eventually.of_forall fun X => ?_)
  have h1 := norm_le_pi_norm X.2.1 i
  have h2 := norm_nonneg X.2.1
  have h3 := norm_nonneg (X.1 - ![1, 0, 0, 0])
  rw [one_mul, gE, Real.norm_of_nonneg (add_nonneg h3 h2)]
  linarith

theorem vec_bo (i : Fin 3) : (fun X : Err => vecPart X.1 i) =O[𝓝 (errRest P)] gE := by
  fin_cases i
  · simpa [vecPart] using att_bo (P := P) 1
  · simpa [vecPart] using att_bo (P := P) 2
  · simpa [vecPart] using att_bo (P := P) 3

/-- The gain may be replaced by its limit. -/
theorem gKv_lo (hP : P.PosSemidef) (i : I6) :
    (fun X : Err => (gK X *ᵥ vecPart X.1) i - (kgain P Att.R obsH *ᵥ vecPart X.1) i) =o[𝓝 (errRest P)] gE := by
  have : (fun X : Err => ∑ j, (gK X i j - kgain P Att.R obsH i j) * vecPart X.1 j) =o[𝓝 (errRest P)] gE := by
    refine IsLittleO.fun_sum fun j _ => lo_of_zero ?_ (vec_bo j)
    simpa using (gK_tendsto hP i j).sub_const (kgain P Att.R obsH i j)
  refine this.congr_left fun X => ?_
  simp only [Matrix.mulVec, dotProduct, sub_mul, Finset.sum_sub_distrib]

theorem cS_lo (hP : P.PosSemidef) (hK : kgain P Att.R obsH = Matrix.fromRows (k1 • (1 : M3)) (k2 • (1 : M3)))
    (i : Fin 3) : (fun X : Err => cS X i + k1 / 2 * vecPart X.1 i) =o[𝓝 (errRest P)] gE := by
  have := (gKv_lo hP (Sum.inl i)).const_mul_left (-(1 / 2))
  refine this.congr_left fun X => ?_
  rw [hK, cS, Matrix.fromRows_mulVec]
  simp [Matrix.smul_mulVec]
  ring

theorem cB_lo (hP : P.PosSemidef) (hK : kgain P Att.R obsH = Matrix.fromRows (k1 • (1 : M3)) (k2 • (1 : M3)))
    (i : Fin 3) : (fun X : Err => cB X i - (X.2.1 i - k2 * vecPart X.1 i)) =o[𝓝 (errRest P)] gE := by
  have := (gKv_lo hP (Sum.inr i)).const_mul_left (-1)
  refine this.congr_left fun X => ?_
  rw [hK, cB, Matrix.fromRows_mulVec]
  simp [Matrix.smul_mulVec]

theorem cS_bo (hP : P.PosSemidef) (hK : kgain P Att.R obsH = Matrix.fromRows (k1 • (1 : M3)) (k2 • (1 : M3)))
    (i : Fin 3) : (fun X : Err => cS X i) =O[𝓝 (errRest P)] gE := by
  refine ((cS_lo hP hK i).isBigO.sub ((vec_bo (P := P) i).const_mul_left (k1 / 2))).congr_left fun X => by ring

theorem cB_bo (hP : P.PosSemidef) (hK : kgain P Att.R obsH = Matrix.fromRows (k1 • (1 : M3)) (k2 • (1 : M3)))
    (i : Fin 3) : (fun X : Err => cB X i) =O[𝓝 (errRest P)] gE := by
  refine ((cB_lo hP hK i).isBigO.add
    ((bias_bo (P := P) i).sub ((vec_bo (P := P) i).const_mul_left k2))).congr_left fun X => by ring

theorem cBn_bo (hP : P.PosSemidef) (hK : kgain P Att.R obsH = Matrix.fromRows (k1 • (1 : M3)) (k2 • (1 : M3))) :
    (fun X : Err => npNorm (-cB X)) =O[𝓝 (errRest P)] gE := by
  have h : (fun X : Err => |cB X 0| + |cB X 1| + |cB X 2|) =O[𝓝 (errRest P)] gE := by
    have := fun i => (cB_bo hP hK i).norm_left
    exact ((this 0).add (this 1)).add (this 2)
  refine IsBigO.trans (IsBigO.of_bound 1 (Eventually.of_forall fun X => ?_)) h
  have h0 : 0 ≤ |cB X 0| + |cB X 1| + |cB X 2| := by positivity
  rw [one_mul, Real.norm_of_nonneg (npNorm_nonneg _), Real.norm_of_nonneg h0]
  refine abs_le_of_sq_le_sq' ?_ h0 |>.2
  rw [npNorm3_sq]
  simp only [Pi.neg_apply, neg_sq]
  rw [← sq_abs (cB X 0), ← sq_abs (cB X 1), ← sq_abs (cB X 2)]
  nlinarith [mul_nonneg (abs_nonneg (cB X 0)) (abs_nonneg (cB X 1)),
    mul_nonneg (abs_nonneg (cB X 0)) (abs_nonneg (cB X 2)), mul_nonneg (abs_nonneg (cB X 1)) (abs_nonneg (cB X 2))]

/-- Products of small terms. -/
theorem small_mul {f h : Err → ℝ} (hf : f =O[𝓝 (errRest P)] gE) (hh : h =O[𝓝 (errRest P)] gE) :
    (fun X => f X * h X) =o[𝓝 (errRest P)] gE :=
  lo_of_zero (hf.trans_tendsto (gE_tendsto P)) hh

theorem att_small (i : Fin 3) : (fun X : Err => X.1 i.succ) =O[𝓝 (errRest P)] gE := by
  have := vec_bo (P := P) i
  fin_cases i <;> exact this

theorem cU_lo (hP : P.PosSemidef) (hK : kgain P Att.R obsH = Matrix.fromRows (k1 • (1 : M3)) (k2 • (1 : M3)))
    (i : Fin 3) :
    (fun X : Err => cU X i.succ - (1 - k1 / 2) * vecPart X.1 i) =o[𝓝 (errRest P)] gE := by
  have s := cS_bo hP hK
  have t := cS_lo hP hK
  have z := fun i => att_small (P := P) i
  have z0 : Tendsto (fun X : Err => X.1 0 - 1) (𝓝 (errRest P)) (𝓝 0) := by
    have := (coord_att (errRest P) 0).sub_const 1
    simpa [errRest] using this
  fin_cases i
  · refine (((t 0).add (lo_of_zero z0 (s 0))).add ((small_mul (z 1) (s 2)).sub (small_mul (z 2) (s 1)))).congr_left
      fun X => ?_
    show _ = cU X 1 - _
    rw [cU_1]; simp [vecPart]; ring
  · refine (((t 1).add (lo_of_zero z0 (s 1))).add ((small_mul (z 2) (s 0)).sub (small_mul (z 0) (s 2)))).congr_left
      fun X => ?_
    show _ = cU X 2 - _
    rw [cU_2]; simp [vecPart]; ring
  · refine (((t 2).add (lo_of_zero z0 (s 2))).add ((small_mul (z 0) (s 1)).sub (small_mul (z 1) (s 0)))).congr_left
      fun X => ?_
    show _ = cU X 3 - _
    rw [cU_3]; simp [vecPart]; ring

theorem cU_bo (hP : P.PosSemidef) (hK : kgain P Att.R obsH = Matrix.fromRows (k1 • (1 : M3)) (k2 • (1 : M3)))
    (i : Fin 3) : (fun X : Err => cU X i.succ) =O[𝓝 (errRest P)] gE := by
  refine ((cU_lo hP hK i).isBigO.add ((vec_bo (P := P) i).const_mul_left (1 - k1 / 2))).congr_left fun X => by ring

theorem cY_lo (hP : P.PosSemidef) (hK : kgain P Att.R obsH = Matrix.fromRows (k1 • (1 : M3)) (k2 • (1 : M3)))
    (i : Fin 3) :
    (fun X : Err => cY X i.succ - (1 - k1 / 2) * vecPart X.1 i) =o[𝓝 (errRest P)] gE := by
  have hn : Tendsto (fun X => (npNorm (cU X))⁻¹ - 1) (𝓝 (errRest P)) (𝓝 0) := by
    have := ((cUn_tendsto hP).inv₀ one_ne_zero).sub_const 1
    simpa using this
  refine ((lo_of_zero hn (cU_bo hP hK i)).add (cU_lo hP hK i)).congr_left fun X => ?_
  rw [cY_apply, div_eq_mul_inv]; ring

theorem cY_bo (hP : P.PosSemidef) (hK : kgain P Att.R obsH = Matrix.fromRows (k1 • (1 : M3)) (k2 • (1 : M3)))
    (i : Fin 3) : (fun X : Err => cY X i.succ) =O[𝓝 (errRest P)] gE := by
  refine ((cY_lo hP hK i).isBigO.add ((vec_bo (P := P) i).const_mul_left (1 - k1 / 2))).congr_left fun X => by ring

theorem cY_0_lo (hP : P.PosSemidef) (hK : kgain P Att.R obsH = Matrix.fromRows (k1 • (1 : M3)) (k2 • (1 : M3))) :
    (fun X : Err => cY X 0 - 1) =o[𝓝 (errRest P)] gE := by
  have hU := tendsto_pi_nhds.1 (cU_tendsto hP) 0
  have hn := cUn_tendsto hP
  have hb := fun i => small_mul (cU_bo hP hK i) (cU_bo hP hK i)
  have hc : Tendsto (fun X => -(npNorm (cU X) * (npNorm (cU X) + cU X 0))⁻¹) (𝓝 (errRest P))
      (𝓝 (-(1 * (1 + (![1, 0, 0, 0] : V4) 0))⁻¹)) :=
    ((hn.mul (hn.add hU)).inv₀ (by simp)).neg
  have h := lo_of_lim hc (((hb 0).add (hb 1)).add (hb 2))
  refine h.congr' ?_ (EventuallyEq.refl _ _)
  have e1 := hn.eventually_const_lt (u := 0) one_pos
  have e2 := hU.eventually_const_lt (u := 0) (by simp)
  filter_upwards [e1, e2] with X h1 h2
  rw [cY_apply]
  have hs := npNorm4_sq (cU X)
  have h3 : npNorm (cU X) + cU X 0 ≠ 0 := by positivity
  have h4 := h1.ne'
  show _ * (cU X 1 * cU X 1 + cU X 2 * cU X 2 + cU X 3 * cU X 3) = _
  field_simp
  linear_combination hs

theorem cC_lo (hP : P.PosSemidef) (hK : kgain P Att.R obsH = Matrix.fromRows (k1 • (1 : M3)) (k2 • (1 : M3)))
    (dt : ℝ) : (fun X : Err => 1 - cC dt X) =o[𝓝 (errRest P)] gE := by
  have h1 := small_mul (cBn_bo hP hK) (cBn_bo hP hK)
  refine IsBigO.trans_isLittleO (IsBigO.of_bound ((dt * 0.5) ^ 2 / 2) (Eventually.of_forall fun X => ?_)) h1
  have h2 := Real.one_sub_sq_div_two_le_cos (x := npNorm (-cB X) * dt * 0.5)
  have h3 := Real.cos_le_one (npNorm (-cB X) * dt * 0.5)
  rw [cC, Real.norm_of_nonneg (by linarith), Real.norm_of_nonneg (mul_self_nonneg _)]
  have : (npNorm (-cB X) * dt * 0.5) ^ 2 / 2 = (dt * 0.5) ^ 2 / 2 * (npNorm (-cB X) * npNorm (-cB X)) := by ring
  linarith

theorem psi_lo (hP : P.PosSemidef) (hK : kgain P Att.R obsH = Matrix.fromRows (k1 • (1 : M3)) (k2 • (1 : M3)))
    {dt : ℝ} (hdt : dt ≠ 0) (i : Fin 3) :
    (fun X : Err => psi (-cB X) dt i + dt / 2 * (X.2.1 i - k2 * vecPart X.1 i)) =o[𝓝 (errRest P)] gE := by
  have hn : Tendsto (fun X : Err => dt / 2 * (1 - Real.sinc (npNorm (-cB X) * dt * 0.5))) (𝓝 (errRest P)) (𝓝 0) := by
    have := ((sinc_tendsto hP dt).const_sub 1).const_mul (dt / 2)
    simpa using this
  refine ((lo_of_zero hn (cB_bo hP hK i)).sub ((cB_lo hP hK i).const_mul_left (dt / 2))).congr_left fun X => ?_
  rw [psi_eq _ _ hdt]
  simp only [Pi.neg_apply]
  ring

theorem psi_bo (hP : P.PosSemidef) (hK : kgain P Att.R obsH = Matrix.fromRows (k1 • (1 : M3)) (k2 • (1 : M3)))
    {dt : ℝ} (hdt : dt ≠ 0) (i : Fin 3) : (fun X : Err => psi (-cB X) dt i) =O[𝓝 (errRest P)] gE := by
  refine ((psi_lo hP hK hdt i).isBigO.sub (((bias_bo (P := P) i).sub
    ((vec_bo (P := P) i).const_mul_left k2)).const_mul_left (dt / 2))).congr_left fun X => by ring

theorem cyc_0_lo (hP : P.PosSemidef) (hK : kgain P Att.R obsH = Matrix.fromRows (k1 • (1 : M3)) (k2 • (1 : M3)))
    {dt : ℝ} (hdt : dt ≠ 0) (q : V4) : (fun X : Err => (cyc q dt X).1 0 - 1) =o[𝓝 (errRest P)] gE := by
  have y := cY_bo hP hK
  have p := psi_bo hP hK hdt
  have c := cC_lo hP hK dt
  obtain ⟨x, r⟩ := cR_tendsto hP q 0
  have y0 := cY_tendsto hP 0
  refine ((((cY_0_lo hP hK).sub (lo_of_lim y0 c)).sub
    (((small_mul (y 0) (p 0)).add (small_mul (y 1) (p 1))).add (small_mul (y 2) (p 2)))).add
    (lo_of_lim r c)).congr_left fun X => ?_
  rw [cyc_0]
  simp only [Fin.succ_zero_eq_one, Fin.succ_one_eq_two]
  show cY X 0 - 1 - cY X 0 * (1 - cC dt X) - (cY X 1 * _ + cY X 2 * _ + cY X 3 * _) + _ = _
  ring

theorem cyc_v_lo (hP : P.PosSemidef) (hK : kgain P Att.R obsH = Matrix.fromRows (k1 • (1 : M3)) (k2 • (1 : M3)))
    {dt : ℝ} (hdt : dt ≠ 0) (q : V4) (i : Fin 3) :
    (fun X : Err => (cyc q dt X).1 i.succ - ((1 - k1 / 2 + dt * k2 / 2) * vecPart X.1 i - dt / 2 * X.2.1 i))
      =o[𝓝 (errRest P)] gE := by
  have y := cY_bo hP hK
  have yl := cY_lo hP hK
  have p := psi_bo hP hK hdt
  have pl := psi_lo hP hK hdt
  have c := cC_lo hP hK dt
  have r := fun j => lo_of_lim (cR_tendsto hP q j).choose_spec c
  have yc := fun j => lo_of_lim (cY_tendsto hP j) c
  have y0 : Tendsto (fun X => cY X 0 - 1) (𝓝 (errRest P)) (𝓝 0) := by
    have := (cY_tendsto hP 0).sub_const 1
    simpa using this
  have yp := fun j => lo_of_zero y0 (p j)
  have main : ∀ j, (fun X : Err => (cY X 0 - 1) * psi (-cB X) dt j + (psi (-cB X) dt j
      + dt / 2 * (X.2.1 j - k2 * vecPart X.1 j)) + ((cY X j.succ - (1 - k1 / 2) * vecPart X.1 j)
      - cY X j.succ * (1 - cC dt X)) + cR q X j.succ * (1 - cC dt X)) =o[𝓝 (errRest P)] gE :=
    fun j => (((yp j).add (pl j)).add ((yl j).sub (yc j.succ))).add (r j.succ)
  fin_cases i
  · refine ((main 0).add ((small_mul (y 1) (p 2)).sub (small_mul (y 2) (p 1)))).congr_left fun X => ?_
    show _ = (cyc q dt X).1 1 - _
    rw [cyc_1]
    show _ + (cY X 2 * psi (-cB X) dt 2 - cY X 3 * psi (-cB X) dt 1) = _
    simp only [Fin.succ_zero_eq_one, Fin.zero_eta]
    ring
  · refine ((main 1).add ((small_mul (y 2) (p 0)).sub (small_mul (y 0) (p 2)))).congr_left fun X => ?_
    show _ = (cyc q dt X).1 2 - _
    rw [cyc_2]
    show _ + (cY X 3 * psi (-cB X) dt 0 - cY X 1 * psi (-cB X) dt 2) = _
    simp only [Fin.succ_one_eq_two, Fin.mk_one]
    ring
  · refine ((main 2).add ((small_mul (y 0) (p 1)).sub (small_mul (y 1) (p 0)))).congr_left fun X => ?_
    show _ = (cyc q dt X).1 3 - _
    rw [cyc_3]
    show (_ + ((cY X 3 - _) - cY X 3 * _) + cR q X 3 * _) + (cY X 1 * psi (-cB X) dt 1 - cY X 2 * psi (-cB X) dt 0) = _
    simp only [Fin.reduceFinMk]
    ring

/-! ## The covariance -/

/-- The distance of the covariance from `P`. -/
noncomputable def gP (P : M6) (X : Err) : ℝ := ‖fun ij : I6 × I6 => (X.2.2 - P) ij.1 ij.2‖

theorem cov_bo (i j : I6) : (fun X : Err => (X.2.2 - P) i j) =O[𝓝 (errRest P)] gP P := by
  refine IsBigO.of_bound 1 (Eventually.of_forall fun X => ?_)
  have h1 := norm_le_pi_norm (fun ij : I6 × I6 => (X.2.2 - P) ij.1 ij.2) (i, j)
  rw [one_mul, gP, norm_norm]
  exact h1

/-- The difference of two updated covariances. -/
theorem kpost_diff {P' : M6} (hd : (innov P' Att.R obsH).det ≠ 0) (hP : P.PosSemidef) :
    kpost P' Att.R obsH - kpost P Att.R obsH
      = (1 - kgain P' Att.R obsH * obsH) * (P' - P) * (1 - kgain P Att.R obsH * obsH)ᵀ := by
  have hc := covariance_psd.2 hP
  have key : ∀ M : M6, kgain M Att.R obsH * innov M Att.R obsH = M * obsHᵀ →
      kpost M Att.R obsH * obsHᵀ = kgain M Att.R obsH * Att.R := by
    intro M h
    rw [innov, Matrix.mul_add] at h
    rw [kpost, Matrix.sub_mul, Matrix.one_mul, Matrix.sub_mul, ← h]
    simp only [Matrix.mul_assoc]
    abel
  have h1 := key P' (by
    rw [kgain, Matrix.mul_assoc, Matrix.nonsing_inv_mul _ (isUnit_iff_ne_zero.2 hd), Matrix.mul_one])
  have h2 := key P (kgain_innov hc attR_strict)
  have hs : (kpost P Att.R obsH)ᵀ = kpost P Att.R obsH := (kpost_cov hc attR_strict).1
  have hRs : Att.Rᵀ = Att.R := attR_strict.1
  have h3 : obsH * kpost P Att.R obsH = Att.R * (kgain P Att.R obsH)ᵀ := by
    have := congrArg Matrix.transpose h2
    rwa [Matrix.transpose_mul, Matrix.transpose_mul, Matrix.transpose_transpose, hs, hRs] at this
  have h4 : P * (1 - kgain P Att.R obsH * obsH)ᵀ = kpost P Att.R obsH := by
    rw [← hs, kpost, Matrix.transpose_mul, hc.1]
  rw [Matrix.mul_sub, Matrix.sub_mul, Matrix.mul_assoc (1 - _) P, h4]
  have h5 : (1 - kgain P' Att.R obsH * obsH) * P' * (1 - kgain P Att.R obsH * obsH)ᵀ
      = kpost P' Att.R obsH - kgain P' Att.R obsH * Att.R * (kgain P Att.R obsH)ᵀ := by
    rw [← h1]
    simp only [kpost, Matrix.transpose_sub, Matrix.transpose_one, Matrix.transpose_mul, Matrix.mul_sub, Matrix.mul_one,
      Matrix.mul_assoc]
  have h6 : (1 - kgain P' Att.R obsH * obsH) * kpost P Att.R obsH
      = kpost P Att.R obsH - kgain P' Att.R obsH * Att.R * (kgain P Att.R obsH)ᵀ := by
    rw [Matrix.sub_mul, Matrix.one_mul, Matrix.mul_assoc, h3, Matrix.mul_assoc]
  rw [h5, h6]
  abel

/-- The part of the new covariance that comes from the error of the rate. -/
noncomputable def covTurn (dt : ℝ) (X : Err) : M6 :=
  phi (-cB X) dt * (kpost X.2.2 Att.R obsH * (phi (-cB X) dt)ᵀ)
    - phi 0 dt * (kpost X.2.2 Att.R obsH * (phi 0 dt)ᵀ)

/-- The part that comes from the change of the gain. -/
noncomputable def covGain (dt : ℝ) (P : M6) (X : Err) : M6 :=
  (loopA dt X.2.2 - loopA dt P) * (X.2.2 - P) * (loopA dt P)ᵀ

theorem cov_split (hP : P.PosSemidef) {dt : ℝ} (q : V4)
    (hfix : ric (phi 0 dt)ᵀ obsHᵀ (addedNoise dt) Att.R P = P) :
    ∀ᶠ X in 𝓝 (errRest P), (cyc q dt X).2.2 - P
      = loopA dt P * (X.2.2 - P) * (loopA dt P)ᵀ + covTurn dt X + covGain dt P X := by
  have hd : (innov P Att.R obsH).det ≠ 0 := (innov_strict (covariance_psd.2 hP) attR_strict).det_ne
  have hc : Continuous fun X : Err => (innov X.2.2 Att.R obsH).det := by
    refine Continuous.matrix_det ?_
    exact continuous_const.add (continuous_const.matrix_mul
      ((continuous_snd.comp continuous_snd).matrix_mul continuous_const))
  have he : ∀ᶠ X in 𝓝 (errRest P), (innov X.2.2 Att.R obsH).det ≠ 0 :=
    (hc.tendsto (errRest P)).eventually_ne hd
  filter_upwards [he] with X hX
  have h1 := kpost_diff hX hP
  rw [← cycle_ric] at hfix
  have e : (cyc q dt X).2.2 - P = covTurn dt X
      + phi 0 dt * ((kpost X.2.2 Att.R obsH - kpost P Att.R obsH) * (phi 0 dt)ᵀ) := by
    show phi (-cB X) dt * (kpost X.2.2 Att.R obsH * (phi (-cB X) dt)ᵀ) + addedNoise dt - P = _
    conv_lhs => rw [← hfix]
    rw [covTurn, Matrix.sub_mul, Matrix.mul_sub]
    have : ∀ A B C D N : M6, A + N - (C + N) = A - B + (B - C) := fun A B C D N => by abel
    exact this _ _ _ 0 _
  rw [e, h1, covGain]
  have e2 : phi 0 dt * ((1 - kgain X.2.2 Att.R obsH * obsH) * (X.2.2 - P) * (1 - kgain P Att.R obsH * obsH)ᵀ
      * (phi 0 dt)ᵀ) = loopA dt X.2.2 * (X.2.2 - P) * (loopA dt P)ᵀ := by
    simp only [loopA, Matrix.transpose_mul, Matrix.mul_assoc]
  rw [e2, Matrix.sub_mul, Matrix.sub_mul]
  abel

theorem covTurn_bo (hP : P.PosSemidef)
    (hK : kgain P Att.R obsH = Matrix.fromRows (k1 • (1 : M3)) (k2 • (1 : M3))) {dt : ℝ} (hdt : 0 < dt) (i j : I6) :
    (fun X : Err => covTurn dt X i j) =O[𝓝 (errRest P)] gE := by
  have hD : ∀ i j, (fun X : Err => (phi (-cB X) dt - phi 0 dt) i j) =O[𝓝 (errRest P)] gE := by
    intro i j
    refine IsBigO.trans (IsBigO.of_bound (4 * (dt + dt ^ 2 + dt ^ 3)) ?_) (cBn_bo hP hK)
    filter_upwards [(cBn_tendsto hP).eventually_le_const zero_lt_one] with X hX
    rw [Real.norm_eq_abs, Real.norm_of_nonneg (npNorm_nonneg _)]
    exact phi_le hdt hX i j
  have hM : Tendsto (fun X : Err => kpost X.2.2 Att.R obsH * (phi (-cB X) dt)ᵀ) (𝓝 (errRest P))
      (𝓝 (kpost P Att.R obsH * (phi 0 dt)ᵀ)) := by
    have h3 : Tendsto (fun X : Err => (kpost X.2.2 Att.R obsH, phi (-cB X) dt)) (𝓝 (errRest P))
        (𝓝 (kpost P Att.R obsH, phi 0 dt)) := (kpost_tendsto hP).prodMk_nhds (phi_tendsto hP hdt)
    have hc : Continuous fun z : M6 × M6 => z.1 * z.2ᵀ := continuous_fst.matrix_mul continuous_snd.matrix_transpose
    exact (hc.tendsto _).comp h3
  have hM' : Tendsto (fun X : Err => phi 0 dt * kpost X.2.2 Att.R obsH) (𝓝 (errRest P))
      (𝓝 (phi 0 dt * kpost P Att.R obsH)) := by
    have hc : Continuous fun z : M6 => phi 0 dt * z := continuous_const.matrix_mul continuous_id
    exact (hc.tendsto _).comp (kpost_tendsto hP)
  have ent : ∀ {f : Err → M6} {A : M6}, Tendsto f (𝓝 (errRest P)) (𝓝 A) → ∀ i j,
      Tendsto (fun X => f X i j) (𝓝 (errRest P)) (𝓝 (A i j)) := fun hf i j =>
    (tendsto_pi_nhds.1 (tendsto_pi_nhds.1 hf i)) j
  have h1 : (fun X : Err => ∑ a, (kpost X.2.2 Att.R obsH * (phi (-cB X) dt)ᵀ) a j * (phi (-cB X) dt - phi 0 dt) i a)
      =O[𝓝 (errRest P)] gE := IsBigO.fun_sum fun a _ => bo_of_lim (ent hM a j) (hD i a)
  have h2 : (fun X : Err => ∑ a, (phi 0 dt * kpost X.2.2 Att.R obsH) i a * (phi (-cB X) dt - phi 0 dt) j a)
      =O[𝓝 (errRest P)] gE := IsBigO.fun_sum fun a _ => bo_of_lim (ent hM' i a) (hD j a)
  refine (h1.add h2).congr_left fun X => ?_
  have e : covTurn dt X = (phi (-cB X) dt - phi 0 dt) * (kpost X.2.2 Att.R obsH * (phi (-cB X) dt)ᵀ)
      + phi 0 dt * kpost X.2.2 Att.R obsH * (phi (-cB X) dt - phi 0 dt)ᵀ := by
    rw [covTurn, Matrix.sub_mul, Matrix.transpose_sub, Matrix.mul_sub, Matrix.mul_assoc (phi 0 dt),
      Matrix.mul_assoc (phi 0 dt)]
    abel
  rw [e, Matrix.add_apply, Matrix.mul_apply, Matrix.mul_apply]
  congr 1
  exact Finset.sum_congr rfl fun a _ => mul_comm _ _

theorem covGain_lo (hP : P.PosSemidef) (dt : ℝ) (i j : I6) :
    (fun X : Err => covGain dt P X i j) =o[𝓝 (errRest P)] gP P := by
  have hA : Tendsto (fun X : Err => loopA dt X.2.2 - loopA dt P) (𝓝 (errRest P)) (𝓝 0) := by
    have h1 : Tendsto (fun X : Err => X.2.2) (𝓝 (errRest P)) (𝓝 P) :=
      (continuous_snd.comp continuous_snd).tendsto (errRest P)
    have h2 := (kgain_continuousAt hP).tendsto.comp h1
    have hc : Continuous fun z : Matrix I6 (Fin 3) ℝ => phi 0 dt * (1 - z * obsH) - loopA dt P :=
      (continuous_const.matrix_mul (continuous_const.sub (continuous_id.matrix_mul continuous_const))).sub
        continuous_const
    have h3 := (hc.tendsto _).comp h2
    refine h3.trans_eq ?_
    rw [← loopA, sub_self]
  have : (fun X : Err => ∑ b, (loopA dt P)ᵀ b j * ∑ a, (loopA dt X.2.2 - loopA dt P) i a * (X.2.2 - P) a b)
      =o[𝓝 (errRest P)] gP P := by
    refine IsLittleO.fun_sum fun b _ => IsLittleO.const_mul_left (IsLittleO.fun_sum fun a _ => ?_) _
    refine lo_of_zero ?_ (cov_bo a b)
    exact (tendsto_pi_nhds.1 (tendsto_pi_nhds.1 hA i)) a
  refine this.congr_left fun X => ?_
  rw [covGain, Matrix.mul_apply]
  refine Finset.sum_congr rfl fun b _ => ?_
  rw [Matrix.mul_apply, mul_comm]

end

end Adcs
