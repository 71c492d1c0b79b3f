import Verif.Props.FlightSoftware
import Mathlib.Analysis.Calculus.Deriv.Prod
import Mathlib.Analysis.Calculus.Deriv.MeanValue
import Mathlib.Analysis.SpecialFunctions.Trigonometric.Deriv
import Mathlib.Analysis.ODE.ExistUnique

set_option autoImplicit false

/-! # C121, C123: the flight software and the kinematics

The attitude quaternion `q` is taken to follow `q' = q ω / 2`, with `ω` in the body frame, which is what the
library's own dynamics (C33) and the Euler parameters of Basilisk do. -/

namespace Adcs

open scoped Matrix Quaternion
open Sim Obs Set

/-- The quaternions `q` follow the body rates `ω`. -/
def Spec.Follows (q : ℝ → V4) (ω : ℝ → V3) : Prop :=
  ∀ t, ∃ d, HasDerivAt q d t ∧ Spec.toHLast d = (1/2 : ℝ) • (Spec.toHLast (q t) * Spec.pureH (ω t))

/-- C121: where the attitude is the target, the vector part of the error changes as in the model the gain is
designed for. -/
def C121_claim : Prop :=
  ∀ (target : V4) (q : ℝ → V4) (ω : ℝ → V3), npNorm target = 1 → (∀ t, npNorm (q t) = 1) →
    Spec.Follows q ω → ∀ t, q t = target → ∃ err : ℝ → V4, (∀ s, quatError target (q s) = .ok (err s)) ∧
      HasDerivAt (fun s => ![err s 0, err s 1, err s 2]) (fun i => (Lqr.A *ᵥ Sum.elim 0 (ω t)) (Sum.inl i)) t

/-- The design model: the rate of the error is half of the body rate. -/
theorem lqrA_rate (ω : V3) (i : Fin 3) : (Lqr.A *ᵥ Sum.elim 0 ω) (Sum.inl i) = ω i / 2 := by
  rw [Lqr.A, Matrix.fromBlocks_mulVec]
  simp [Function.comp_def, Matrix.smul_mulVec]
  ring

/-- C121: what it does is to change by minus half of the body rate, seen in the inertial frame. -/
theorem C121_rate_partial {target : V4} {q : ℝ → V4} {ω : ℝ → V3} (ht : npNorm target = 1)
    (hq : ∀ t, npNorm (q t) = 1) (hf : Spec.Follows q ω) {t : ℝ} (h : q t = target) :
    ∃ err : ℝ → V4, (∀ s, quatError target (q s) = .ok (err s)) ∧
      HasDerivAt (fun s => ![err s 0, err s 1, err s 2])
        (-(1/2 : ℝ) • Spec.turn (Spec.toHLast target) (ω t)) t := by
  refine ⟨fun s => rawMult target (quatConjugate (q s)), fun s => quatMult_unit ht (by rw [npNorm_conj, hq]), ?_⟩
  obtain ⟨d, hd, hd2⟩ := hf t
  have hd' := hasDerivAt_pi.1 hd
  have d0 : d 0 = (1/2 : ℝ) * (q t 3 * ω t 0 + q t 1 * ω t 2 - q t 2 * ω t 1) := by
    have := congrArg QuaternionAlgebra.imI hd2
    rw [Quaternion.imI_smul, Quaternion.imI_mul] at this
    simp only [toHLast_re, toHLast_imI, toHLast_imJ, toHLast_imK, pureH_re, pureH_imI, pureH_imJ,
      pureH_imK] at this
    rw [this, smul_eq_mul]; ring
  have d1 : d 1 = (1/2 : ℝ) * (q t 3 * ω t 1 - q t 0 * ω t 2 + q t 2 * ω t 0) := by
    have := congrArg QuaternionAlgebra.imJ hd2
    rw [Quaternion.imJ_smul, Quaternion.imJ_mul] at this
    simp only [toHLast_re, toHLast_imI, toHLast_imJ, toHLast_imK, pureH_re, pureH_imI, pureH_imJ,
      pureH_imK] at this
    rw [this, smul_eq_mul]; ring
  have d2 : d 2 = (1/2 : ℝ) * (q t 3 * ω t 2 + q t 0 * ω t 1 - q t 1 * ω t 0) := by
    have := congrArg QuaternionAlgebra.imK hd2
    rw [Quaternion.imK_smul, Quaternion.imK_mul] at this
    simp only [toHLast_re, toHLast_imI, toHLast_imJ, toHLast_imK, pureH_re, pureH_imI, pureH_imJ,
      pureH_imK] at this
    rw [this, smul_eq_mul]; ring
  have d3 : d 3 = -(1/2 : ℝ) * (q t 0 * ω t 0 + q t 1 * ω t 1 + q t 2 * ω t 2) := by
    have := congrArg QuaternionAlgebra.re hd2
    rw [Quaternion.re_smul, Quaternion.re_mul] at this
    simp only [toHLast_re, toHLast_imI, toHLast_imJ, toHLast_imK, pureH_re, pureH_imI, pureH_imJ,
      pureH_imK] at this
    rw [this, smul_eq_mul]; ring
  have hder : ∀ a b c e : ℝ, HasDerivAt (fun s => a * q s 0 + b * q s 1 + c * q s 2 + e * q s 3)
      (a * d 0 + b * d 1 + c * d 2 + e * d 3) t := fun a b c e =>
    ((((hd' 0).const_mul a).fun_add ((hd' 1).const_mul b)).fun_add ((hd' 2).const_mul c)).fun_add
      ((hd' 3).const_mul e)
  rw [hasDerivAt_pi]
  intro i
  fin_cases i
  · have := hder (-target 3) (target 2) (-target 1) (target 0)
    refine (this.congr_deriv ?_).congr_of_eventuallyEq (Filter.Eventually.of_forall fun s => ?_)
    · simp only [Fin.zero_eta, Pi.smul_apply, turn_0, d0, d1, d2, d3, h, smul_eq_mul]
      ring
    · simp [rawMult, quatConjugate]; ring
  · have := hder (-target 2) (-target 3) (target 0) (target 1)
    refine (this.congr_deriv ?_).congr_of_eventuallyEq (Filter.Eventually.of_forall fun s => ?_)
    · simp only [Fin.mk_one, Pi.smul_apply, turn_1, d0, d1, d2, d3, h, smul_eq_mul]
      ring
    · simp [rawMult, quatConjugate]; ring
  · have := hder (target 1) (-target 0) (-target 3) (target 2)
    refine (this.congr_deriv ?_).congr_of_eventuallyEq (Filter.Eventually.of_forall fun s => ?_)
    · simp only [Fin.reduceFinMk, Pi.smul_apply, turn_2, d0, d1, d2, d3, h, smul_eq_mul]
      ring
    · simp [rawMult, quatConjugate]; ring

/-- The attitude after a turn by `φ` about the y axis. -/
noncomputable def spin (φ : ℝ) : V4 := ![0, Real.sin (φ / 2), 0, Real.cos (φ / 2)]

theorem spin_norm (φ : ℝ) : npNorm (spin φ) = 1 :=
  npNorm_vec4 (by have := Real.sin_sq_add_cos_sq (φ / 2); linarith)

/-- The turn about the y axis follows its rate. -/
theorem spin_follows {φ φ' : ℝ → ℝ} (h : ∀ t, HasDerivAt φ (φ' t) t) :
    Spec.Follows (fun t => spin (φ t)) fun t => ![0, φ' t, 0] := by
  intro t
  have hφ := (h t).div_const 2
  refine ⟨![0, Real.cos (φ t / 2) * (φ' t / 2), 0, -Real.sin (φ t / 2) * (φ' t / 2)], ?_, ?_⟩
  · rw [hasDerivAt_pi]
    intro i
    fin_cases i
    · exact hasDerivAt_const t 0
    · exact hφ.sin
    · exact hasDerivAt_const t 0
    · exact hφ.cos
  · ext
    · rw [Quaternion.re_smul, Quaternion.re_mul]
      simp [toHLast_re, toHLast_imI, toHLast_imJ, toHLast_imK, pureH_re, pureH_imI, pureH_imJ, pureH_imK,
        spin]
      ring
    · rw [Quaternion.imI_smul, Quaternion.imI_mul]
      simp [toHLast_re, toHLast_imI, toHLast_imJ, toHLast_imK, pureH_re, pureH_imI, pureH_imJ, pureH_imK,
        spin]
    · rw [Quaternion.imJ_smul, Quaternion.imJ_mul]
      simp [toHLast_re, toHLast_imI, toHLast_imJ, toHLast_imK, pureH_re, pureH_imI, pureH_imJ, pureH_imK,
        spin]
      ring
    · rw [Quaternion.imK_smul, Quaternion.imK_mul]
      simp [toHLast_re, toHLast_imI, toHLast_imJ, toHLast_imK, pureH_re, pureH_imI, pureH_imJ, pureH_imK,
        spin]

/-- The hypotheses of C121 are met by a steady turn, at the time when it passes the identity. -/
example : npNorm (spin 0) = 1 ∧ (∀ t : ℝ, npNorm (spin t) = 1) ∧
    Spec.Follows spin (fun _ => ![0, 1, 0]) :=
  ⟨spin_norm 0, spin_norm, spin_follows fun t => hasDerivAt_id t⟩

/-- C121 fails: for a turn through the identity the error has the opposite sign. -/
theorem C121_design_fails : ¬ C121_claim := by
  intro hc
  have hf : Spec.Follows (fun t => spin t) (fun _ => ![0, 1, 0]) := spin_follows fun t => hasDerivAt_id t
  obtain ⟨e1, he1, hd1⟩ := hc (spin 0) spin _ (spin_norm 0) spin_norm hf 0 rfl
  obtain ⟨e2, he2, hd2⟩ := C121_rate_partial (spin_norm 0) spin_norm hf (t := 0) rfl
  have : e1 = e2 := by
    funext s
    have := (he1 s).symm.trans (he2 s)
    exact Except.ok.inj this
  rw [this] at hd1
  have := congrFun (hd1.unique hd2) 1
  rw [lqrA_rate] at this
  simp only [Pi.smul_apply, turn_1] at this
  simp [spin] at this
  norm_num at this

/-! ### C123 -/

/-- A flight software whose gain is the same on all axes, aiming at the identity attitude at rest. -/
structure Isotropic (f : Fsw) (k1 k2 : ℝ) : Prop where
  K : f.K = Matrix.fromCols (k1 • 1) (k2 • 1)
  rate : f.omegaTarget = 0
  target : f.qTarget = ![0, 0, 0, 1]

/-- The torque about y for a satellite turned by `φ` about y from its target. -/
theorem torque_spin {f : Fsw} {k1 k2 : ℝ} (hf : Isotropic f k1 k2) (φ w : ℝ) :
    ∃ err, quatError f.qTarget (spin φ) = .ok err ∧
      errorTorque f err ![0, w, 0] = ![0, k1 * Real.sin (φ / 2) - k2 * w, 0] := by
  have h1 : npNorm f.qTarget = 1 := by rw [hf.target]; exact npNorm_vec4 (by norm_num)
  refine ⟨_, quatMult_unit h1 (by rw [npNorm_conj, spin_norm]), ?_⟩
  rw [errorTorque_eq, hf.K, hf.rate, sub_zero, hf.target, Matrix.fromCols_mulVec_sumElim, Matrix.smul_mulVec,
    Matrix.smul_mulVec, Matrix.one_mulVec, Matrix.one_mulVec]
  apply vec3_ext <;> simp [rawMult, quatConjugate, spin]
  ring

/-- C123: at rest, the torque turns the satellite towards its target. -/
def C123_claim : Prop :=
  ∀ (f : Fsw) (k1 k2 : ℝ), 0 < k1 → 0 < k2 → Isotropic f k1 k2 → ∀ φ, 0 < φ → φ < Real.pi →
    ∀ err, quatError f.qTarget (spin φ) = .ok err → errorTorque f err 0 1 < 0

theorem exFsw_isotropic : Isotropic exFsw 1 1 := ⟨by simp [exFsw, Fsw.init], rfl, rfl⟩

/-- C123: at rest, and for every error of less than a full turn, the torque turns the satellite away from
its target on the side on which it stands. -/
theorem C123_away_partial {f : Fsw} {k1 k2 : ℝ} (hk1 : 0 < k1) (hf : Isotropic f k1 k2) {φ : ℝ}
    (h0 : 0 < φ) (h1 : φ < 2 * Real.pi) {err : V4} (he : quatError f.qTarget (spin φ) = .ok err) :
    0 < errorTorque f err 0 1 := by
  obtain ⟨e, he', ht⟩ := torque_spin hf φ 0
  rw [he] at he'
  cases he'
  have : (![0, 0, 0] : V3) = 0 := by apply vec3_ext <;> simp
  rw [this] at ht
  rw [ht]
  simp only [Matrix.cons_val_one, Matrix.cons_val_zero, mul_zero, sub_zero]
  exact mul_pos hk1 (Real.sin_pos_of_pos_of_lt_pi (by linarith) (by linarith))

/-- C123 fails: a quarter turn from the target, at rest, the torque turns the satellite further away. -/
theorem C123_towards_fails : ¬ C123_claim := by
  intro h
  have hpi := Real.pi_pos
  obtain ⟨e, he, -⟩ := torque_spin exFsw_isotropic (Real.pi / 2) 0
  have h1 := h exFsw 1 1 one_pos one_pos exFsw_isotropic (Real.pi / 2) (by linarith) (by linarith) e he
  have h2 := C123_away_partial one_pos exFsw_isotropic (φ := Real.pi / 2) (by linarith) (by linarith) he
  linarith

/-- C123: a satellite that starts at rest, turned by `φ 0` about y from its target, and that follows the
torque, never has a scalar part of the error above the initial one: it does not come closer to its target on
the side on which it stands, and can only reach it the long way round. -/
theorem C123_long_way_partial {f : Fsw} {k1 k2 J : ℝ} (hk1 : 0 < k1) (hk2 : 0 ≤ k2) (hJ : 0 < J)
    (hf : Isotropic f k1 k2) {φ φ' : ℝ → ℝ} {T : ℝ} (h1 : ∀ t ∈ Ico 0 T, HasDerivAt φ (φ' t) t)
    (h2 : ∀ t ∈ Ico 0 T, ∃ err, quatError f.qTarget (spin (φ t)) = .ok err ∧
      HasDerivAt φ' (errorTorque f err ![0, φ' t, 0] 1 / J) t)
    (h0 : φ' 0 = 0) : ∀ t ∈ Ico 0 T, Real.cos (φ t / 2) ≤ Real.cos (φ 0 / 2) := by
  intro t ht
  set V : ℝ → ℝ := fun s => J / 2 * φ' s ^ 2 + 2 * k1 * Real.cos (φ s / 2) with hV
  have hd : ∀ s ∈ Ico 0 T, HasDerivAt V (-(k2 * φ' s ^ 2)) s := by
    intro s hs
    obtain ⟨e, he, hde⟩ := h2 s hs
    obtain ⟨e', he', hte⟩ := torque_spin hf (φ s) (φ' s)
    rw [he] at he'
    cases he'
    rw [hte] at hde
    simp only [Matrix.cons_val_one, Matrix.cons_val_zero] at hde
    have hc := (((h1 s hs).div_const 2).cos).const_mul (2 * k1)
    have hs2 := (hde.fun_pow 2).const_mul (J / 2)
    refine (hs2.fun_add hc).congr_deriv ?_
    push_cast
    field_simp
    ring
  have hanti : AntitoneOn V (Icc 0 t) := by
    have hsub : ∀ s ∈ Icc 0 t, s ∈ Ico 0 T := fun s hs => ⟨hs.1, lt_of_le_of_lt hs.2 ht.2⟩
    refine antitoneOn_of_deriv_nonpos (convex_Icc 0 t)
      (fun s hs => (hd s (hsub s hs)).continuousAt.continuousWithinAt)
      (fun s hs => ?_) (fun s hs => ?_)
    · rw [interior_Icc] at hs
      exact (hd s (hsub s (Ioo_subset_Icc_self hs))).differentiableAt.differentiableWithinAt
    · rw [interior_Icc] at hs
      rw [(hd s (hsub s (Ioo_subset_Icc_self hs))).deriv]
      have := mul_nonneg hk2 (sq_nonneg (φ' s))
      linarith
  have hle := hanti (left_mem_Icc.2 ht.1) (right_mem_Icc.2 ht.1) ht.1
  simp only [hV, h0] at hle
  have hp : 0 ≤ J / 2 * φ' t ^ 2 := by positivity
  nlinarith

/-- The hypotheses of C123 are met: from every angle the motion exists for a while. -/
example (φ₀ : ℝ) : ∃ (φ φ' : ℝ → ℝ) (T : ℝ), 0 < T ∧ φ 0 = φ₀ ∧ φ' 0 = 0 ∧
    (∀ t ∈ Ico 0 T, HasDerivAt φ (φ' t) t) ∧
    ∀ t ∈ Ico 0 T, ∃ err, quatError exFsw.qTarget (spin (φ t)) = .ok err ∧
      HasDerivAt φ' (errorTorque exFsw err ![0, φ' t, 0] 1 / 1) t := by
  let F : ℝ × ℝ → ℝ × ℝ := fun x => (x.2, Real.sin (x.1 / 2) - x.2)
  have hF : ContDiffAt ℝ 1 F (φ₀, 0) := by
    apply ContDiff.contDiffAt
    exact contDiff_snd.prodMk (((Real.contDiff_sin).comp (contDiff_fst.div_const 2)).sub contDiff_snd)
  obtain ⟨α, h0, ε, hε, hα⟩ :=
    hF.exists_forall_mem_closedBall_exists_eq_forall_mem_Ioo_hasDerivAt₀ 0
  have hm : ∀ t ∈ Ico 0 ε, t ∈ Ioo (0 - ε) (0 + ε) := fun t ht =>
    ⟨by have := ht.1; linarith, by have := ht.2; linarith⟩
  refine ⟨fun t => (α t).1, fun t => (α t).2, ε, hε, by simp [h0], by simp [h0], fun t ht => ?_,
    fun t ht => ?_⟩
  · exact (hα t (hm t ht)).fst
  · obtain ⟨e, he, hte⟩ := torque_spin exFsw_isotropic (α t).1 (α t).2
    refine ⟨e, he, ?_⟩
    rw [hte]
    have : HasDerivAt (fun t => (α t).2) (Real.sin ((α t).1 / 2) - (α t).2) t := (hα t (hm t ht)).snd
    simpa using this

end Adcs
