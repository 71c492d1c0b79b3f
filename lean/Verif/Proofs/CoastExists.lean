import Verif.Proofs.Coast
import Mathlib.Analysis.Calculus.ContDiff.RCLike
import Mathlib.Analysis.InnerProductSpace.Calculus

set_option autoImplicit false

/-! # Existence of the motion between two samples -/

namespace Adcs

open scoped Matrix Quaternion Topology NNReal
open Set Filter Sim Spec Metric

/-- The radial map that fixes the unit sphere and is bounded. -/
noncomputable def bounded (p : ℍ[ℝ]) : ℍ[ℝ] := (2 / (1 + ‖p‖ ^ 2)) • p

theorem bounded_norm (p : ℍ[ℝ]) : ‖bounded p‖ ≤ 1 := by
  rw [bounded, norm_smul, Real.norm_of_nonneg (by positivity), div_mul_eq_mul_div, div_le_one (by positivity)]
  nlinarith [sq_nonneg (‖p‖ - 1)]

theorem bounded_lipschitz (x : ℍ[ℝ]) (a : ℝ) : ∃ K, LipschitzOnWith K bounded (closedBall x a) := by
  have h : ContDiff ℝ 1 bounded := by
    unfold bounded
    have h1 : ContDiff ℝ 1 fun p : ℍ[ℝ] => ‖p‖ ^ 2 := contDiff_norm_sq ℝ
    refine ContDiff.smul (contDiff_const.div (contDiff_const.add h1) fun p => ?_) contDiff_id
    positivity
  exact h.contDiffOn.exists_lipschitzOnWith one_ne_zero (convex_closedBall x a) (isCompact_closedBall x a)

/-- Vectors as pure quaternions, and quaternions as arrays, as linear maps. -/
noncomputable def pureL : V3 →L[ℝ] ℍ[ℝ] := LinearMap.toContinuousLinearMap
  { toFun := pureH
    map_add' := fun x y => by apply Quaternion.ext <;> simp [pureH_re, pureH_imI, pureH_imJ, pureH_imK]
    map_smul' := fun c x => by apply Quaternion.ext <;> simp [pureH_re, pureH_imI, pureH_imJ, pureH_imK] }

noncomputable def arrayL : ℍ[ℝ] →L[ℝ] V4 := LinearMap.toContinuousLinearMap
  { toFun := fun p => ![p.imI, p.imJ, p.imK, p.re]
    map_add' := fun x y => by apply vec4_ext <;> simp
    map_smul' := fun c x => by apply vec4_ext <;> simp }

theorem pureL_apply (v : V3) : pureL v = pureH v := rfl

theorem arrayL_apply (p : ℍ[ℝ]) : arrayL p = ![p.imI, p.imJ, p.imK, p.re] := rfl

theorem toHLast_arrayL (p : ℍ[ℝ]) : toHLast (arrayL p) = p := by
  rw [arrayL_apply]; apply Quaternion.ext <;> simp [toHLast]

theorem arrayL_toHLast (q : V4) : arrayL (toHLast q) = q := by
  rw [arrayL_apply]; apply vec4_ext <;> simp [toHLast]

/-- For every continuous course of the rates there is a course of the attitude. -/
theorem attitude_exists {T : ℝ} (hT : 0 ≤ T) {ω : ℝ → V3} (hω : Continuous ω) {q₀ : V4} (hq : npNorm q₀ = 1) :
    ∃ q : ℝ → V4, q 0 = q₀ ∧ ∀ s ∈ Icc 0 T, ∃ q', HasDerivWithinAt q q' (Icc 0 T) s ∧
      toHLast q' = (1/2 : ℝ) • (toHLast (q s) * pureH (ω s)) := by
  set w : ℝ → ℍ[ℝ] := fun s => pureH (ω s) with hw
  have hwc : Continuous w := pureL.continuous.comp hω
  obtain ⟨W, hW⟩ := (isCompact_Icc (a := 0) (b := T)).exists_bound_of_continuousOn hwc.continuousOn
  have hW0 : 0 ≤ W := (norm_nonneg _).trans (hW 0 ⟨le_rfl, hT⟩)
  set x₀ := toHLast q₀ with hx₀
  obtain ⟨K, hK⟩ := bounded_lipschitz x₀ (W * T)
  have hpl : IsPicardLindelof (fun s p => (1/2 : ℝ) • (bounded p * w s)) (⟨0, le_rfl, hT⟩ : Icc 0 T) x₀
      (NNReal.mk (W * T) (by positivity)) 0 (NNReal.mk W hW0) (K * NNReal.mk W hW0) := by
    refine ⟨fun s hs => ?_, fun x hx => ?_, fun s hs x hx => ?_, ?_⟩
    · apply LipschitzOnWith.of_dist_le_mul
      intro x hx y hy
      have h1 := hK.dist_le_mul x hx y hy
      rw [dist_eq_norm] at h1 ⊢
      rw [← smul_sub, ← sub_mul, norm_smul, norm_mul]
      have h2 := hW s hs
      have h3 : ‖(1/2 : ℝ)‖ = 1/2 := by norm_num
      rw [h3]
      have h4 : ‖bounded x - bounded y‖ * ‖w s‖ ≤ (K * dist x y) * W := by gcongr
      have h5 : 0 ≤ (K * dist x y : ℝ) * W := by positivity
      calc 1 / 2 * (‖bounded x - bounded y‖ * ‖w s‖) ≤ (K * dist x y) * W := by linarith
        _ = ((K * NNReal.mk W hW0 : ℝ≥0) : ℝ) * dist x y := by rw [NNReal.coe_mul, NNReal.coe_mk]; ring
    · exact (((continuous_const.mul hwc).const_smul (1/2 : ℝ))).continuousOn
    · rw [norm_smul, norm_mul]
      have h1 := bounded_norm x
      have h2 := hW s hs
      have h3 : ‖(1/2 : ℝ)‖ = 1/2 := by norm_num
      have h4 : ‖bounded x‖ * ‖w s‖ ≤ 1 * W := by gcongr
      rw [h3, NNReal.coe_mk]
      linarith
    · simp [hT]
  obtain ⟨α, h0, hα⟩ := hpl.exists_eq_forall_mem_Icc_hasDerivWithinAt₀
  have h0 : α 0 = x₀ := h0
  -- the norm stays
  have hn : ∀ s ∈ Icc 0 T, ‖α s‖ = 1 := by
    have hd : ∀ s ∈ Icc 0 T, HasDerivWithinAt (fun s => ‖α s‖ ^ 2) 0 (Icc 0 T) s := by
      intro s hs
      refine (hα s hs).norm_sq.congr_deriv ?_
      rw [Quaternion.inner_def, bounded]
      simp only [hw, pureH_re, pureH_imI, pureH_imJ, pureH_imK, Quaternion.re_mul, Quaternion.imI_mul, Quaternion.imJ_mul,
        Quaternion.imK_mul, Quaternion.re_smul, Quaternion.imI_smul, Quaternion.imJ_smul, Quaternion.imK_smul,
        Quaternion.re_star, Quaternion.imI_star, Quaternion.imJ_star, Quaternion.imK_star, smul_eq_mul]
      ring
    intro s hs
    have h1 := const_of_deriv hd hs
    have h2 : ‖x₀‖ = 1 := by
      have h3 : ‖x₀‖ ^ 2 = npNorm q₀ ^ 2 := by
        rw [npNorm4_sq, sq, ← Quaternion.normSq_eq_norm_mul_self, Quaternion.normSq_def']
        simp [hx₀, toHLast]
        ring
      rw [hq] at h3
      nlinarith [norm_nonneg x₀]
    rw [h0, h2] at h1
    nlinarith [norm_nonneg (α s)]
  refine ⟨fun s => arrayL (α s), by dsimp only; rw [h0, arrayL_toHLast], fun s hs => ?_⟩
  refine ⟨arrayL ((1/2 : ℝ) • (bounded (α s) * w s)), arrayL.hasFDerivAt.comp_hasDerivWithinAt s (hα s hs), ?_⟩
  have e : bounded (α s) = α s := by rw [bounded, hn s hs]; norm_num
  rw [toHLast_arrayL, toHLast_arrayL, e]

/-- With zero total angular momentum there is a motion for all torques of the motors. -/
theorem coast_exists {I : M3} {Js : ℝ} {G : Matrix (Fin 3) (Fin 4) ℝ} {T : ℝ} (hT : 0 ≤ T) (hJs : Js ≠ 0)
    (hJ : (loopInertia I Js G).det ≠ 0) (u : Fin 4 → ℝ) {q₀ : V4} (hq : npNorm q₀ = 1) {ω₀ : V3} {Ω₀ : Fin 4 → ℝ}
    (h0 : I *ᵥ ω₀ + Js • (G *ᵥ Ω₀) = 0) :
    ∃ q ω Ω, Coast I Js G u T q ω Ω ∧ q 0 = q₀ ∧ ω 0 = ω₀ ∧ Ω 0 = Ω₀ := by
  set J := loopInertia I Js G with hJdef
  set a : V3 := J⁻¹ *ᵥ -(G *ᵥ u) with ha
  set b : Fin 4 → ℝ := Js⁻¹ • u - Gᵀ *ᵥ a with hb
  set ω : ℝ → V3 := fun s => ω₀ + s • a with hω
  set Ω : ℝ → Fin 4 → ℝ := fun s => Ω₀ + s • b with hΩ
  have hωc : Continuous ω := by fun_prop
  obtain ⟨q, hq0, hqd⟩ := attitude_exists hT hωc hq
  have hJa : J *ᵥ a = -(G *ᵥ u) := by
    rw [ha, Matrix.mulVec_mulVec, Matrix.mul_nonsing_inv J (isUnit_iff_ne_zero.2 hJ), Matrix.one_mulVec]
  have hab : I *ᵥ a + Js • (G *ᵥ b) = 0 := by
    have e : I *ᵥ a = J *ᵥ a + Js • (G *ᵥ (Gᵀ *ᵥ a)) := by
      rw [hJdef, loopInertia, Matrix.sub_mulVec, Matrix.smul_mulVec, ← Matrix.mulVec_mulVec]; abel
    rw [e, hJa, hb, Matrix.mulVec_sub, Matrix.mulVec_smul, smul_sub, smul_smul, mul_inv_cancel₀ hJs, one_smul]
    abel
  refine ⟨q, ω, Ω, fun s hs => ?_, hq0, by simp [hω], by simp [hΩ]⟩
  obtain ⟨q', h1, h2⟩ := hqd s hs
  have hid : HasDerivWithinAt (fun s : ℝ => s) 1 (Icc 0 T) s := hasDerivWithinAt_id s _
  refine ⟨q', a, b, h1, ?_, ?_, h2, ?_, ?_⟩
  · have := (hid.smul_const a).const_add ω₀
    rwa [one_smul] at this
  · have := (hid.smul_const b).const_add Ω₀
    rwa [one_smul] at this
  · have : I *ᵥ ω s + Js • (G *ᵥ Ω s) = 0 := by
      rw [hω, hΩ]
      dsimp only
      rw [Matrix.mulVec_add, Matrix.mulVec_add, Matrix.mulVec_smul, Matrix.mulVec_smul]
      have : I *ᵥ ω₀ + s • I *ᵥ a + Js • (G *ᵥ Ω₀ + s • G *ᵥ b) =
        (I *ᵥ ω₀ + Js • (G *ᵥ Ω₀)) + s • (I *ᵥ a + Js • (G *ᵥ b)) := by module
      rw [this, h0, hab, smul_zero, add_zero]
    rw [this, map_zero, neg_zero, hab]
  · intro i
    rw [hb]
    simp only [Pi.sub_apply, Pi.smul_apply, smul_eq_mul, sub_add_cancel]
    rw [← mul_assoc, mul_inv_cancel₀ hJs, one_mul]

end Adcs
