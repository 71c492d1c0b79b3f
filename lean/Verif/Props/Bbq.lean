import Verif.Props.MagControl
import Verif.Props.Environment
import Verif.Proofs.Tracking
import Mathlib.Analysis.SpecialFunctions.Trigonometric.Bounds

set_option autoImplicit false

/-! # C145, C146: the magnetic barbecue roll -/

namespace Adcs

open Str Ctl Sens JDay Quat Env
open scoped Matrix

theorem npNorm_add3 (x y : V3) : npNorm (x + y) ≤ npNorm x + npNorm y := by
  refine abs_le_of_sq_le_sq' ?_ (add_nonneg (npNorm_nonneg _) (npNorm_nonneg _)) |>.2
  have h : x ⬝ᵥ y ≤ npNorm x * npNorm y := by
    refine abs_le_of_sq_le_sq' ?_ (mul_nonneg (npNorm_nonneg _) (npNorm_nonneg _)) |>.2
    have := cauchy3 x y
    rw [mul_pow, npNorm_sq_dot, npNorm_sq_dot, npDot_eq_dotProduct, npDot_eq_dotProduct]
    linarith [sq (x ⬝ᵥ y)]
  have e : npNorm (x + y) ^ 2 = npNorm x ^ 2 + 2 * (x ⬝ᵥ y) + npNorm y ^ 2 := by
    simp only [npNorm3_sq, Pi.add_apply, Matrix.vec3_dotProduct]; ring
  rw [e]; linarith [add_sq (npNorm x) (npNorm y)]

/-! ## C145: where the reference points, and what `check` settles -/

theorem magInit_fields {model : CtlModel} {h3 : model.sat.nMt = 3} {bb : Bool} {c : MagController}
    (hc : MagController.init model h3 bb = .ok c) :
    c.sat = model.sat ∧ c.hdBody = model.sat.totalMoment *ᵥ bbq ∧
      c.hdIntl = npNorm (model.sat.totalMoment *ᵥ bbq) • sandwichOpp ecl ![0, 0, 1] := by
  unfold MagController.init at hc
  split at hc
  · cases hc
  · simp only [Except.ok.injEq] at hc
    subst hc
    exact ⟨rfl, rfl, rfl⟩

theorem bbq_eq : bbq = ![0, 0, 0.02932] := by
  unfold bbq
  apply vec3_ext <;> norm_num

theorem ecl_unit : npNorm ecl = 1 := by
  unfold ecl
  apply npNorm_vec4
  have := Real.sin_sq_add_cos_sq (0.5 * npRadians 23.439291)
  linear_combination this

theorem ecl_pole : sandwichOpp ecl ![0, 0, 1] =
    ![0, -Real.sin (npRadians 23.439291), Real.cos (npRadians 23.439291)] := by
  unfold ecl
  dsimp only
  generalize npRadians 23.439291 = e
  have h1 : Real.sin e = 2 * Real.sin (0.5 * e) * Real.cos (0.5 * e) := by
    rw [← Real.sin_two_mul]; congr 1; ring
  have h2 : Real.cos e = Real.cos (0.5 * e) ^ 2 - Real.sin (0.5 * e) ^ 2 := by
    rw [← Real.cos_two_mul']; congr 1; ring
  rw [h1, h2]
  unfold sandwichOpp
  apply vec3_ext <;>
    simp only [sandwich_0, sandwich_1, sandwich_2, conjugate_0, conjugate_1, conjugate_2, conjugate_3,
      Matrix.cons_val_zero, Matrix.cons_val_one, cons3_2, cons4_2, cons4_3] <;> ring

/-- The momentum wanted in inertial coordinates points to the north pole of the ecliptic and has the
magnitude of the momentum wanted in body coordinates, that of a spin of 0.02932 rad/s about the body's
`z` axis. -/
theorem C145_pole (model : CtlModel) (h3 : model.sat.nMt = 3) (bb : Bool) (c : MagController)
    (hc : MagController.init model h3 bb = .ok c) :
    c.hdBody = model.sat.totalMoment *ᵥ ![0, 0, 0.02932] ∧
    c.hdIntl = npNorm c.hdBody •
      ![0, -Real.sin (23.439291 * Real.pi / 180), Real.cos (23.439291 * Real.pi / 180)] ∧
    npNorm c.hdIntl = npNorm c.hdBody := by
  obtain ⟨-, h1, h2⟩ := magInit_fields hc
  rw [ecl_pole, ← h1] at h2
  have e : npRadians 23.439291 = 23.439291 * Real.pi / 180 := by unfold npRadians; ring
  rw [e] at h2
  refine ⟨by rw [h1, bbq_eq], h2, ?_⟩
  rw [h2, npNorm_smul, abs_of_nonneg (npNorm_nonneg _), npNorm_vec3, mul_one]
  have := Real.sin_sq_add_cos_sq (23.439291 * Real.pi / 180)
  linear_combination this

/-- The axis is orthogonal to the direction of the sun up to the change of the obliquity since the year
2000, of 0.013 degrees per century. -/
theorem C145_sun (model : CtlModel) (h3 : model.sat.nMt = 3) (bb : Bool) (c : MagController)
    (hc : MagController.init model h3 bb = .ok c) (jd : ℝ) :
    |c.hdIntl ⬝ᵥ Plain.earthToSun jd| ≤
      npNorm c.hdBody * |(0.0130042 * Real.pi / 180) * ((jd - 2451545) / 36525)| := by
  obtain ⟨-, h1, h2⟩ := magInit_fields hc
  rw [ecl_pole, ← h1] at h2
  rw [h2, smul_dotProduct, smul_eq_mul, abs_mul, abs_of_nonneg (npNorm_nonneg _)]
  refine mul_le_mul_of_nonneg_left ?_ (npNorm_nonneg _)
  unfold Plain.earthToSun
  dsimp only
  generalize npRadians (pyMod _ 360 + _ + _) = l
  set t := (jd - 2451545) / 36525
  have e : ![0, -Real.sin (npRadians 23.439291), Real.cos (npRadians 23.439291)] ⬝ᵥ
      ![Real.cos l, Real.cos (npRadians (23.439291 - 0.0130042 * t)) * Real.sin l,
        Real.sin (npRadians (23.439291 - 0.0130042 * t)) * Real.sin l] =
      Real.sin (-((0.0130042 * Real.pi / 180) * t)) * Real.sin l := by
    have : -((0.0130042 * Real.pi / 180) * t) =
        npRadians (23.439291 - 0.0130042 * t) - npRadians 23.439291 := by unfold npRadians; ring
    rw [this, Real.sin_sub]
    simp only [Matrix.vec3_dotProduct, Matrix.cons_val_zero, Matrix.cons_val_one, cons3_2]
    ring
  rw [e, abs_mul]
  calc |Real.sin (-((0.0130042 * Real.pi / 180) * t))| * |Real.sin l|
      ≤ |(-((0.0130042 * Real.pi / 180) * t))| * 1 :=
        mul_le_mul Real.abs_sin_le_abs (Real.abs_sin_le_one l) (abs_nonneg _) (abs_nonneg _)
    _ = _ := by rw [mul_one, abs_neg]

/-- A satellite that `check` finds aligned spins at the wanted rate about the wanted axis. -/
def C145_claim : Prop :=
  ∀ (model : CtlModel) (h3 : model.sat.nMt = 3) (mass : ℝ) (dims : V3) (ab cd : ℝ),
    Built model.sat mass dims ab cd → model.sat.totalMoment.PosDef →
    ∀ (c : MagController), MagController.init model h3 false = .ok c →
    ∀ (q : V4) (w : V3), npNorm q = 1 → c.check q w = 0 →
      w = ![0, 0, 0.02932] ∧ sandwich q c.hdIntl = c.hdBody

theorem sandwich_after_ecl (r : V4) (k : ℝ) :
    sandwich (product ecl r) (k • sandwichOpp ecl ![0, 0, 1]) = k • sandwich r ![0, 0, 1] := by
  rw [(C08_sandwich_product _ _ _).1, sandwich_smul, (C07_sandwich_opp ecl ecl_unit _).2, sandwich_smul]

/-- It is false: a satellite at rest, with its `z` axis to the south pole of the ecliptic, is found
aligned. `BBQ_transition` then goes on to the next mode. -/
theorem C145_aligned_fails : ¬ C145_claim := by
  intro H
  obtain ⟨sat, hb, hpd, ⟨h3, -⟩, hI, -, -⟩ := exSat3 true []
  obtain ⟨c, hc⟩ : ∃ c, MagController.init ⟨sat, some ⟨0, 0⟩, none⟩ h3 false = .ok c := ⟨_, rfl⟩
  obtain ⟨g0, g1, g2⟩ := magInit_fields hc
  dsimp only at g0 g1 g2
  have gz : sat.totalMoment *ᵥ bbq = ![0, 0, 0.006214 * 0.02932] := by
    rw [hI, bbq_eq]; apply vec3_ext <;> norm_num [Matrix.mulVec_diagonal]
  have gn : npNorm (sat.totalMoment *ᵥ bbq) = 0.006214 * 0.02932 := by
    rw [gz, show (![0, 0, 0.006214 * 0.02932] : V3) = (0.006214 * 0.02932 : ℝ) • ![0, 0, 1] by
      apply vec3_ext <;> norm_num, npNorm_smul, npNorm_vec3 (by norm_num), mul_one, abs_of_nonneg (by norm_num)]
  have hq : npNorm (product ecl ![0, 1, 0, 0]) = 1 :=
    (isUnit4_iff _).1 (isUnit4_product ((isUnit4_iff _).2 ecl_unit)
      ((isUnit4_iff _).2 (npNorm_vec4 (by norm_num))))
  have hs : sandwich (product ecl ![0, 1, 0, 0]) c.hdIntl = -c.hdBody := by
    rw [g2, sandwich_after_ecl, gn, g1, gz]
    apply vec3_ext <;> simp [sandwich_0, sandwich_1, sandwich_2]
  have hcheck : c.check (product ecl ![0, 1, 0, 0]) 0 = 0 := by
    rw [(C67_bbq c _ _).2, hs, Matrix.mulVec_zero, npNorm_eq_zero]
    simp
  have := (H _ h3 2 _ _ _ hb hpd c hc _ 0 hq hcheck).1
  have := congrFun this 2
  norm_num at this

/-- What holds: a satellite with a `check` below `e` and angular momentum `h` has its spin axis within
`4 |hd|^2 - (2 |h| - e)^2` (a square of distance) of the wanted one, if `2 |h|` is at least `e`; and when
`check` is zero, `h` is no larger than wanted, and is as large only in the wanted spin. Missing: slower
satellites, which `check` does not distinguish from ones that spin as wanted. -/
theorem C145_aligned_partial (model : CtlModel) (h3 : model.sat.nMt = 3) (bb : Bool) (c : MagController)
    (hc : MagController.init model h3 bb = .ok c) (hpd : model.sat.totalMoment.PosDef)
    (q : V4) (hq : npNorm q = 1) (w : V3) :
    (∀ e, c.check q w ≤ e → e ≤ 2 * npNorm (model.sat.totalMoment *ᵥ w) →
      npNorm (sandwich q c.hdIntl - c.hdBody) ^ 2 ≤
        4 * npNorm c.hdBody ^ 2 - (2 * npNorm (model.sat.totalMoment *ᵥ w) - e) ^ 2) ∧
    (c.check q w = 0 → npNorm (model.sat.totalMoment *ᵥ w) ≤ npNorm c.hdBody ∧
      (npNorm (model.sat.totalMoment *ᵥ w) = npNorm c.hdBody ↔
        w = ![0, 0, 0.02932] ∧ sandwich q c.hdIntl = c.hdBody)) := by
  obtain ⟨g0, g1, g2⟩ := magInit_fields hc
  have gl := (C145_pole model h3 bb c hc).2.2
  have gs : npNorm (sandwich q c.hdIntl) = npNorm c.hdBody := by
    rw [(C06_sandwich_preserves q hq c.hdIntl 0).2.1, gl]
  have hk := (C67_bbq c q w).2
  rw [g0] at hk
  set h := model.sat.totalMoment *ᵥ w with hh
  set H := sandwich q c.hdIntl with hH
  have par : npNorm (H - c.hdBody) ^ 2 = 4 * npNorm c.hdBody ^ 2 - npNorm (c.hdBody + H) ^ 2 := by
    have e1 : npNorm H ^ 2 = npNorm c.hdBody ^ 2 := by rw [gs]
    simp only [npNorm3_sq, Pi.sub_apply, Pi.add_apply] at e1 ⊢
    linear_combination 2 * e1
  have tri : 2 * npNorm h ≤ c.check q w + npNorm (c.hdBody + H) := by
    have := npNorm_add3 ((2 : ℝ) • h - c.hdBody - H) (c.hdBody + H)
    rw [← hk, show (2 : ℝ) • h - c.hdBody - H + (c.hdBody + H) = (2 : ℝ) • h by abel, npNorm_smul] at this
    rwa [abs_of_nonneg (by norm_num : (0 : ℝ) ≤ 2)] at this
  have first : ∀ e, c.check q w ≤ e → e ≤ 2 * npNorm h →
      npNorm (H - c.hdBody) ^ 2 ≤ 4 * npNorm c.hdBody ^ 2 - (2 * npNorm h - e) ^ 2 := by
    intro e h1 h2
    rw [par]
    have : (2 * npNorm h - e) ^ 2 ≤ npNorm (c.hdBody + H) ^ 2 :=
      pow_le_pow_left₀ (by linarith) (by linarith) 2
    linarith
  refine ⟨first, fun h0 => ?_⟩
  have k := first 0 h0.le (by have := npNorm_nonneg h; linarith)
  have k2 : npNorm h ≤ npNorm c.hdBody := by
    have := sq_nonneg (npNorm (H - c.hdBody))
    refine (abs_le_of_sq_le_sq' (by nlinarith) (npNorm_nonneg _)).2
  refine ⟨k2, ?_, ?_⟩
  · intro he
    rw [he] at k
    have z : H - c.hdBody = 0 := by
      refine npNorm_eq_zero.1 (pow_eq_zero_iff (two_ne_zero)|>.1 (le_antisymm (by linarith) (sq_nonneg _)))
    have hHd : H = c.hdBody := sub_eq_zero.1 z
    refine ⟨?_, hHd⟩
    rw [h0] at hk
    have z2 := npNorm_eq_zero.1 hk.symm
    rw [hHd] at z2
    have z3 : (2 : ℝ) • h = (2 : ℝ) • c.hdBody := by
      rw [two_smul ℝ c.hdBody]; exact sub_eq_zero.1 (by rw [← sub_sub]; exact z2)
    have z4 : h = c.hdBody := smul_right_injective _ (two_ne_zero (α := ℝ)) z3
    have hi : IsUnit model.sat.totalMoment := hpd.isUnit
    refine Matrix.mulVec_injective_of_isUnit hi ?_
    rw [← hh, z4, g1, bbq_eq]
  · rintro ⟨rfl, -⟩
    rw [hh, g1, bbq_eq]

/-- A concrete satellite, in the wanted spin. -/
example : ∃ (model : CtlModel) (h3 : model.sat.nMt = 3) (c : MagController),
    MagController.init model h3 false = .ok c ∧ model.sat.totalMoment.PosDef ∧
    npNorm ecl = 1 ∧ c.check ecl ![0, 0, 0.02932] = 0 ∧
    0 < npNorm (model.sat.totalMoment *ᵥ ![0, 0, 0.02932]) := by
  obtain ⟨sat, hb, hpd, ⟨h3, -⟩, hI, -, -⟩ := exSat3 true []
  refine ⟨⟨sat, some ⟨0, 0⟩, none⟩, h3, _, rfl, hpd, ecl_unit, ?_, ?_⟩
  · refine (C67_aligned ⟨sat, some ⟨0, 0⟩, none⟩ h3 false _ rfl ecl ?_).1
    dsimp only
    rw [sandwich_smul, (C07_sandwich_opp ecl ecl_unit _).2, hI, bbq_eq]
    have : (Matrix.diagonal ![0.012514, 0.012414, 0.006214] *ᵥ ![0, 0, 0.02932] : V3) =
        (0.006214 * 0.02932 : ℝ) • ![0, 0, 1] := by
      apply vec3_ext <;> norm_num [Matrix.mulVec_diagonal]
    rw [this, npNorm_smul, npNorm_vec3 (by norm_num), mul_one, abs_of_nonneg (by norm_num)]
  · refine npNorm_pos ?_
    rw [hI]
    intro h
    have := congrFun h 2
    norm_num [Matrix.mulVec_diagonal] at this

/-! ## C146: the law brings the spin to the wanted one -/

namespace Spec

/-- Sum of the squares of the two errors that the law is made of: of the angular momentum to the one wanted
in body coordinates, and to the one wanted in inertial coordinates. -/
noncomputable def rollError (J : M3) (body intl : V3) (q : V4) (w : V3) : ℝ :=
  npNorm (J *ᵥ w - body) ^ 2 + npNorm (J *ᵥ w - sandwich q intl) ^ 2

/-- At the time `t` the body turns with the rate `w` under the magnetic torque `m x B` and no other. -/
structure TurnsAt (J : M3) (q : ℝ → V4) (w : ℝ → V3) (m B : V3) (t : ℝ) : Prop where
  attitude : HasDerivAt q ((0.5 : ℝ) • product (q t) ![0, w t 0, w t 1, w t 2]) t
  momentum : HasDerivAt (fun τ => J *ᵥ w τ) (m ⨯₃ B - w t ⨯₃ (J *ᵥ w t)) t

end Spec

open Spec

theorem hasDerivAt_normSq {f : ℝ → V3} {f' : V3} {t : ℝ} (h : HasDerivAt f f' t) :
    HasDerivAt (fun τ => npNorm (f τ) ^ 2) (2 * (f t ⬝ᵥ f')) t := by
  have hc := hasDerivAt_pi.1 h
  have := (((hc 0).fun_mul (hc 0)).fun_add ((hc 1).fun_mul (hc 1))).fun_add ((hc 2).fun_mul (hc 2))
  have e : (fun τ => npNorm (f τ) ^ 2) = fun τ => f τ 0 * f τ 0 + f τ 1 * f τ 1 + f τ 2 * f τ 2 := by
    funext τ; rw [npNorm3_sq]; ring
  rw [e]
  refine this.congr_deriv ?_
  rw [Matrix.vec3_dotProduct]; ring

/-- Derivative of inertial coordinates in the turning body. -/
theorem hasDerivAt_fixed {q : ℝ → V4} {w : V3} {t : ℝ} (v : V3)
    (hq : HasDerivAt q ((0.5 : ℝ) • product (q t) ![0, w 0, w 1, w 2]) t) :
    HasDerivAt (fun τ => sandwich (q τ) v) (-(w ⨯₃ sandwich (q t) v)) t := by
  have h := hasDerivAt_sandwich2 hq (hasDerivAt_const t v)
  refine h.congr_deriv ?_
  rw [sandwich_kinematics, npCross_eq_crossProduct]
  have : sandwich (q t) 0 = 0 := by rw [sandwich_eq_dcm, Matrix.mulVec_zero]
  rw [this, zero_sub]

/-- Rate of change of the error for every satellite. -/
theorem rollError_deriv {J : M3} {body intl : V3} {q : ℝ → V4} {w : ℝ → V3} {m B : V3} {t : ℝ}
    (hT : TurnsAt J q w m B t) :
    HasDerivAt (fun τ => rollError J body intl (q τ) (w τ))
      (2 * ((J *ᵥ w t - body + (J *ᵥ w t - sandwich (q t) intl)) ⬝ᵥ (m ⨯₃ B)) +
        2 * (body ⬝ᵥ (w t ⨯₃ (J *ᵥ w t)))) t := by
  have h1 := hasDerivAt_normSq (hT.momentum.sub_const body)
  have h2 := hasDerivAt_normSq (hT.momentum.fun_sub (hasDerivAt_fixed intl hT.attitude))
  refine (h1.add h2).congr_deriv ?_
  generalize J *ᵥ w t = h
  generalize sandwich (q t) intl = H
  generalize m ⨯₃ B = T
  simp only [Pi.sub_apply, cross_apply, Matrix.vec3_dotProduct, Matrix.cons_val_zero, Matrix.cons_val_one,
    cons3_2, Pi.neg_apply, Pi.add_apply]
  ring

/-- While the torque asked for by `no_q_bbq_roll` acts, the error never grows. -/
def C146_claim : Prop :=
  ∀ (model : CtlModel) (h3 : model.sat.nMt = 3) (mass : ℝ) (dims : V3) (ab cd : ℝ),
    Built model.sat mass dims ab cd → model.sat.totalMoment.PosDef →
    ∀ (c : MagController), MagController.init model h3 false = .ok c →
    ∀ (B m : V3) (q : ℝ → V4) (w : ℝ → V3) (t : ℝ), B ≠ 0 → npNorm (q t) = 1 →
      magMoment B (c.bbqTorque (q t) (w t)) = .ok m → TurnsAt c.sat.totalMoment q w m B t →
      ∀ r, HasDerivAt (fun τ => rollError c.sat.totalMoment c.hdBody c.hdIntl (q τ) (w τ)) r t → r ≤ 0

/-- Motions with given values and torque at a time. -/
theorem exists_turn (J : M3) (hJ : J.PosDef) (q0 : V4) (w0 m B : V3) : ∃ (q : ℝ → V4) (w : ℝ → V3),
    q 0 = q0 ∧ w 0 = w0 ∧ TurnsAt J q w m B 0 := by
  set x : V3 := m ⨯₃ B - w0 ⨯₃ (J *ᵥ w0) with hx
  refine ⟨fun τ => q0 + τ • ((0.5 : ℝ) • product q0 ![0, w0 0, w0 1, w0 2]), fun τ => w0 + τ • (J⁻¹ *ᵥ x),
    by simp, by simp, ?_, ?_⟩
  · simp only [zero_smul, add_zero]
    refine (((hasDerivAt_id (0 : ℝ)).smul_const _).const_add _).congr_deriv ?_
    rw [one_smul]
  · simp only [zero_smul, add_zero, ← hx]
    have e : (fun τ : ℝ => J *ᵥ (w0 + τ • (J⁻¹ *ᵥ x))) = fun τ => J *ᵥ w0 + τ • x := by
      funext τ
      rw [Matrix.mulVec_add, Matrix.mulVec_smul, Matrix.mulVec_mulVec, Matrix.mul_nonsing_inv _
        ((Matrix.isUnit_iff_isUnit_det _).1 hJ.isUnit), Matrix.one_mulVec]
    rw [e]
    refine (((hasDerivAt_id (0 : ℝ)).smul_const _).const_add _).congr_deriv ?_
    rw [one_smul]

theorem bbqTorque_eq (c : MagController) (q : V4) (w : V3) : c.bbqTorque q w =
    (-kBbq) • (c.sat.totalMoment *ᵥ w - c.hdBody + (c.sat.totalMoment *ᵥ w - sandwich q c.hdIntl)) := rfl

/-- It is false for a body whose moments of inertia across the spin axis differ: the wobble carries momentum
away from the axis while the magnetic field is along the error and no torque is possible. -/
theorem C146_roll_fails : ¬ C146_claim := by
  intro H
  obtain ⟨sat, hb, hpd, ⟨h3, -⟩, hI, -, -⟩ := exSat3 true []
  obtain ⟨c, hc⟩ : ∃ c, MagController.init ⟨sat, some ⟨0, 0⟩, none⟩ h3 false = .ok c := ⟨_, rfl⟩
  obtain ⟨g0, g1, g2⟩ := magInit_fields hc
  dsimp only at g0 g1 g2
  have gz : sat.totalMoment *ᵥ bbq = (0.006214 * 0.02932 : ℝ) • ![0, 0, 1] := by
    rw [hI, bbq_eq]; apply vec3_ext <;> norm_num [Matrix.mulVec_diagonal]
  have gn : npNorm (sat.totalMoment *ᵥ bbq) = 0.006214 * 0.02932 := by
    rw [gz, npNorm_smul, npNorm_vec3 (by norm_num), mul_one, abs_of_nonneg (by norm_num)]
  have hs : sandwich ecl c.hdIntl = c.hdBody := by
    rw [g2, sandwich_smul, (C07_sandwich_opp ecl ecl_unit _).2, gn, g1, gz]
  set B : V3 := ![0.012514, -0.012414, -(0.006214 * 0.02932)] with hBdef
  have hB : B ≠ 0 := by intro h; have := congrFun h 0; norm_num [hBdef] at this
  obtain ⟨m, hm⟩ : ∃ m, magMoment B (c.bbqTorque ecl ![1, -1, 0]) = .ok m := ⟨_, magMoment_ok hB _⟩
  obtain ⟨q, w, hq, hw, hT⟩ := exists_turn c.sat.totalMoment (by rw [g0]; exact hpd) ecl ![1, -1, 0] m B
  have hr := H _ h3 2 _ _ _ hb hpd c hc B m q w 0 hB (by rw [hq]; exact ecl_unit) (by rw [hq, hw]; exact hm) hT _
    (rollError_deriv hT)
  rw [hq, hw, hs] at hr
  have he : c.sat.totalMoment *ᵥ ![1, -1, 0] - c.hdBody = B := by
    rw [g0, hI, g1, gz]
    apply vec3_ext <;> norm_num [Matrix.mulVec_diagonal, hBdef]
  have ht := detumble_dot hB _ (B + B) (by rw [bbqTorque_eq, hs, he] at hm; exact hm)
  rw [he, ht] at hr
  have hp := npDot_pos hB
  rw [npDot_eq_dotProduct] at hp
  have z : (B + B) ⬝ᵥ (B + B) - B ⬝ᵥ (B + B) * B ⬝ᵥ (B + B) / B ⬝ᵥ B = 0 := by
    simp only [add_dotProduct, dotProduct_add]
    field_simp
    ring
  rw [z, g1, gz, g0, hI] at hr
  simp only [cross_apply, Matrix.vec3_dotProduct, Matrix.cons_val_zero, Matrix.cons_val_one, cons3_2,
    Matrix.mulVec_diagonal, Pi.smul_apply, smul_eq_mul] at hr
  norm_num at hr

/-- What holds: for a body that is symmetric about its `z` axis the error never grows, at any time, in any
field and from every state; it stands still only when the field is along the sum of the two errors, so when
`check` is zero or no magnetic torque acts on it. Missing: other bodies. -/
theorem C146_roll_partial (model : CtlModel) (h3 : model.sat.nMt = 3) (bb : Bool) (c : MagController)
    (hc : MagController.init model h3 bb = .ok c) (a b : ℝ)
    (hJ : model.sat.totalMoment = Matrix.diagonal ![a, a, b]) (B m : V3) (hB : B ≠ 0)
    (q : ℝ → V4) (w : ℝ → V3) (t : ℝ) (hm : magMoment B (c.bbqTorque (q t) (w t)) = .ok m)
    (hT : TurnsAt c.sat.totalMoment q w m B t) :
    ∃ r, HasDerivAt (fun τ => rollError c.sat.totalMoment c.hdBody c.hdIntl (q τ) (w τ)) r t ∧ r ≤ 0 ∧
      (r = 0 ↔ (c.bbqTorque (q t) (w t)) ⨯₃ B = 0) := by
  obtain ⟨g0, g1, -⟩ := magInit_fields hc
  refine ⟨_, rollError_deriv hT, ?_⟩
  have hz : c.hdBody ⬝ᵥ (w t ⨯₃ (c.sat.totalMoment *ᵥ w t)) = 0 := by
    rw [g0, g1, hJ, bbq_eq]
    simp only [cross_apply, Matrix.vec3_dotProduct, Matrix.cons_val_zero, Matrix.cons_val_one, cons3_2,
      Matrix.mulVec_diagonal]
    ring
  have hp := npDot_pos hB
  rw [npDot_eq_dotProduct] at hp
  rw [hz, mul_zero, add_zero]
  rw [bbqTorque_eq] at hm ⊢
  set e := c.sat.totalMoment *ᵥ w t - c.hdBody + (c.sat.totalMoment *ᵥ w t - sandwich (q t) c.hdIntl)
  rw [detumble_dot hB e e hm]
  have hl : (e ⨯₃ B) ⬝ᵥ (e ⨯₃ B) = (e ⬝ᵥ e) * (B ⬝ᵥ B) - (B ⬝ᵥ e) * (B ⬝ᵥ e) := by
    simp only [cross_apply, Matrix.vec3_dotProduct, Matrix.cons_val_zero, Matrix.cons_val_one, cons3_2]
    ring
  have hv : e ⬝ᵥ e - (B ⬝ᵥ e) * (B ⬝ᵥ e) / (B ⬝ᵥ B) = ((e ⨯₃ B) ⬝ᵥ (e ⨯₃ B)) / (B ⬝ᵥ B) := by
    rw [hl]; field_simp
  have hn : 0 ≤ ((e ⨯₃ B) ⬝ᵥ (e ⨯₃ B)) / (B ⬝ᵥ B) := by
    refine div_nonneg ?_ hp.le
    have := dotProduct_star_self_nonneg (e ⨯₃ B)
    simpa using this
  have kp := kBbq_pos
  rw [hv]
  constructor
  · nlinarith
  · have e1 : ((-kBbq) • e) ⨯₃ B = (-kBbq) • (e ⨯₃ B) := by
      rw [map_smul, LinearMap.smul_apply]
    rw [e1, smul_eq_zero, neg_eq_zero, or_iff_right kp.ne']
    constructor
    · intro h0
      have : ((e ⨯₃ B) ⬝ᵥ (e ⨯₃ B)) / (B ⬝ᵥ B) = 0 := by
        have h5 : kBbq * (((e ⨯₃ B) ⬝ᵥ (e ⨯₃ B)) / (B ⬝ᵥ B)) = 0 := by linarith
        exact (mul_eq_zero.1 h5).resolve_left kp.ne'
      exact dotProduct_self_eq_zero.1 ((div_eq_zero_iff.1 this).resolve_right hp.ne')
    · intro h0
      rw [h0]; simp

/-- Over a whole motion, in a field that changes: the error does not grow, so `check` stays below twice the
root of the error at the start. -/
theorem C146_run_partial (model : CtlModel) (h3 : model.sat.nMt = 3) (bb : Bool) (c : MagController)
    (hc : MagController.init model h3 bb = .ok c) (a b : ℝ)
    (hJ : model.sat.totalMoment = Matrix.diagonal ![a, a, b]) (T : ℝ) (B m : ℝ → V3)
    (q : ℝ → V4) (w : ℝ → V3) (hB : ∀ t ∈ Set.Icc 0 T, B t ≠ 0)
    (hm : ∀ t ∈ Set.Icc 0 T, magMoment (B t) (c.bbqTorque (q t) (w t)) = .ok (m t))
    (hT : ∀ t ∈ Set.Icc 0 T, TurnsAt c.sat.totalMoment q w (m t) (B t) t) :
    AntitoneOn (fun t => rollError c.sat.totalMoment c.hdBody c.hdIntl (q t) (w t)) (Set.Icc 0 T) ∧
    ∀ t ∈ Set.Icc 0 T, c.check (q t) (w t) ^ 2 ≤
      2 * rollError c.sat.totalMoment c.hdBody c.hdIntl (q 0) (w 0) := by
  have mono : AntitoneOn (fun t => rollError c.sat.totalMoment c.hdBody c.hdIntl (q t) (w t)) (Set.Icc 0 T) := by
    have key : ∀ t ∈ Set.Icc 0 T, ∃ r,
        HasDerivAt (fun τ => rollError c.sat.totalMoment c.hdBody c.hdIntl (q τ) (w τ)) r t ∧ r ≤ 0 := by
      intro t ht
      obtain ⟨r, h1, h2, -⟩ := C146_roll_partial model h3 bb c hc a b hJ (B t) (m t) (hB t ht) q w t (hm t ht)
        (hT t ht)
      exact ⟨r, h1, h2⟩
    refine antitoneOn_of_deriv_nonpos (convex_Icc 0 T) ?_ ?_ ?_
    · intro t ht
      obtain ⟨r, h1, -⟩ := key t ht
      exact h1.continuousAt.continuousWithinAt
    · intro t ht
      obtain ⟨r, h1, -⟩ := key t (interior_subset ht)
      exact h1.differentiableAt.differentiableWithinAt
    · intro t ht
      obtain ⟨r, h1, h2⟩ := key t (interior_subset ht)
      rw [h1.deriv]; exact h2
  refine ⟨mono, fun t ht => ?_⟩
  have h0 : (0 : ℝ) ∈ Set.Icc 0 T := ⟨le_rfl, ht.1.trans ht.2⟩
  have h1 := mono h0 ht ht.1
  refine le_trans ?_ (mul_le_mul_of_nonneg_left h1 (by norm_num))
  simp only [MagController.check, rollError, npNorm3_sq, Pi.add_apply]
  generalize c.sat.totalMoment *ᵥ w t - c.hdBody = x
  generalize c.sat.totalMoment *ᵥ w t - sandwich (q t) c.hdIntl = y
  nlinarith [sq_nonneg (x 0 - y 0), sq_nonneg (x 1 - y 1), sq_nonneg (x 2 - y 2)]

/-- The commands of `no_q_bbq_roll` are those that `actuator_commands` finds for this torque. -/
theorem C146_commands (c : MagController) (s : Measurements c.sat.rw.n) :
    c.noQBbqRoll s = c.actuatorCommands s.mag ((-kBbq) •
      ((2 : ℝ) • (c.sat.totalMoment *ᵥ s.rate) - (c.hdBody + sandwich s.att c.hdIntl))) := by
  unfold MagController.noQBbqRoll
  rw [bbqTorque_eq]
  congr 2
  rw [two_smul]; abel

/-- A concrete motion, of any duration: a satellite at rest, with its axis to the pole of the ecliptic and a
field along its `x` axis, is spun up to the wanted rate. -/
example (T : ℝ) : ∃ (model : CtlModel) (h3 : model.sat.nMt = 3) (c : MagController) (a b : ℝ)
    (m : ℝ → V3) (q : ℝ → V4) (w : ℝ → V3), MagController.init model h3 false = .ok c ∧
    model.sat.totalMoment = Matrix.diagonal ![a, a, b] ∧ w 0 = 0 ∧ (![3e-5, 0, 0] : V3) ≠ 0 ∧
    (∀ t ∈ Set.Icc 0 T, magMoment ![3e-5, 0, 0] (c.bbqTorque (q t) (w t)) = .ok (m t)) ∧
    (∀ t ∈ Set.Icc 0 T, TurnsAt c.sat.totalMoment q w (m t) ![3e-5, 0, 0] t) ∧
    rollError c.sat.totalMoment c.hdBody c.hdIntl (q 0) (w 0) ≠ 0 ∧
    Filter.Tendsto w Filter.atTop (nhds ![0, 0, 0.02932]) := by
  obtain ⟨sat, hb, hpd, ⟨h3, -⟩, hI, -, -⟩ := exSatP ![0.0125, 0.0125, 0.0062]
    (by intro i; fin_cases i <;> norm_num) true []
  obtain ⟨c, hc⟩ : ∃ c, MagController.init ⟨sat, some ⟨0, 0⟩, none⟩ h3 false = .ok c := ⟨_, rfl⟩
  obtain ⟨g0, g1, g2⟩ := magInit_fields hc
  dsimp only at g0 g1 g2
  have hJ : sat.totalMoment = Matrix.diagonal ![0.012514, 0.012514, 0.006214] := by
    rw [hI]; congr 1; apply vec3_ext <;> norm_num
  have gz : sat.totalMoment *ᵥ bbq = (0.006214 * 0.02932 : ℝ) • ![0, 0, 1] := by
    rw [hJ, bbq_eq]; apply vec3_ext <;> norm_num [Matrix.mulVec_diagonal]
  have gn : npNorm (sat.totalMoment *ᵥ bbq) = 0.006214 * 0.02932 := by
    rw [gz, npNorm_smul, npNorm_vec3 (by norm_num), mul_one, abs_of_nonneg (by norm_num)]
  have hB : (![3e-5, 0, 0] : V3) ≠ 0 := by intro h; have := congrFun h 0; norm_num at this
  have kp := kBbq_pos
  -- the rate about the axis and its integral
  let u : ℝ → ℝ := fun t => 0.02932 - 0.02932 * Real.exp (-(2 * kBbq) * t)
  let θ : ℝ → ℝ := fun t => 0.02932 * t + 0.02932 * Real.exp (-(2 * kBbq) * t) / (2 * kBbq)
  have hE : ∀ t, HasDerivAt (fun t : ℝ => Real.exp (-(2 * kBbq) * t))
      (Real.exp (-(2 * kBbq) * t) * (-(2 * kBbq))) t := by
    intro t
    have := ((hasDerivAt_id t).const_mul (-(2 * kBbq))).exp
    simpa using this
  have hu : ∀ t, HasDerivAt u (-(2 * kBbq) * (u t - 0.02932)) t := by
    intro t
    refine (((hE t).const_mul 0.02932).const_sub 0.02932).congr_deriv ?_
    simp only [u]; ring
  have hθ : ∀ t, HasDerivAt θ (u t) t := by
    intro t
    refine (((hasDerivAt_id t).const_mul 0.02932).fun_add
      (((hE t).const_mul 0.02932).div_const (2 * kBbq))).congr_deriv ?_
    simp only [u]; field_simp; ring
  let q : ℝ → V4 := fun t => product ecl ![Real.cos (θ t / 2), 0, 0, Real.sin (θ t / 2)]
  let w : ℝ → V3 := fun t => ![0, 0, u t]
  have hH : ∀ t, sandwich (q t) c.hdIntl = c.hdBody := by
    intro t
    simp only [q]
    rw [g2, sandwich_after_ecl, gn, g1, gz]
    congr 1
    have := Real.sin_sq_add_cos_sq (θ t / 2)
    apply vec3_ext <;> simp only [sandwich_0, sandwich_1, sandwich_2, Matrix.cons_val_zero,
      Matrix.cons_val_one, cons3_2, cons4_2, cons4_3] <;> linarith
  have hw : ∀ t, c.sat.totalMoment *ᵥ w t = (0.006214 * u t) • ![0, 0, 1] := by
    intro t
    rw [g0, hJ]; apply vec3_ext <;> simp [Matrix.mulVec_diagonal, w]
  have htq : ∀ t, c.bbqTorque (q t) (w t) =
      (0.006214 * (-(2 * kBbq) * (u t - 0.02932))) • ![0, 0, 1] := by
    intro t
    rw [bbqTorque_eq, hH, hw, g1, gz]
    apply vec3_ext <;> simp <;> ring
  refine ⟨⟨sat, some ⟨0, 0⟩, none⟩, h3, c, 0.012514, 0.006214, _, q, w, hc, hJ, ?_, hB,
    fun t _ => magMoment_ok hB _, fun t _ => ⟨?_, ?_⟩, ?_, ?_⟩
  · apply vec3_ext <;> simp [w, u]
  · have hq2 : HasDerivAt (fun τ => (![Real.cos (θ τ / 2), 0, 0, Real.sin (θ τ / 2)] : V4))
        ![-Real.sin (θ t / 2) * (u t / 2), 0, 0, Real.cos (θ t / 2) * (u t / 2)] t := by
      rw [hasDerivAt_pi]
      intro i
      fin_cases i
      · exact ((hθ t).div_const 2).cos
      · exact hasDerivAt_const t 0
      · exact hasDerivAt_const t 0
      · exact ((hθ t).div_const 2).sin
    refine (hasDerivAt_product (hasDerivAt_const t ecl) hq2).congr_deriv ?_
    simp only [q, w]
    apply vec4_ext <;>
      simp only [Pi.add_apply, Pi.smul_apply, smul_eq_mul, product_0, product_1, product_2, product_3,
        Matrix.cons_val_zero, Matrix.cons_val_one, cons3_2, cons4_2, cons4_3, Pi.zero_apply] <;> ring
  · have e : (fun τ => c.sat.totalMoment *ᵥ w τ) = fun τ => (0.006214 * u τ) • (![0, 0, 1] : V3) := by
      funext τ; exact hw τ
    rw [e]
    refine (((hu t).const_mul 0.006214).smul_const _).congr_deriv ?_
    rw [hw, htq]
    apply vec3_ext <;>
      simp [cross_apply, npCross_0, npCross_1, npCross_2, npDot3, w] <;> ring_nf
  · unfold rollError
    have h1 : 0 < npNorm (c.sat.totalMoment *ᵥ w 0 - c.hdBody) := by
      refine npNorm_pos ?_
      rw [hw, g1, gz]
      intro h
      have := congrFun h 2
      norm_num [u] at this
    positivity
  · rw [tendsto_pi_nhds]
    have hlim : Filter.Tendsto u Filter.atTop (nhds 0.02932) := by
      have h1 : Filter.Tendsto (fun t : ℝ => Real.exp (-(2 * kBbq) * t)) Filter.atTop (nhds 0) :=
        Real.tendsto_exp_atBot.comp (Filter.tendsto_id.const_mul_atTop_of_neg (by linarith))
      simpa [u] using (h1.const_mul 0.02932).const_sub 0.02932
    intro i
    fin_cases i
    · exact tendsto_const_nhds
    · exact tendsto_const_nhds
    · exact hlim

end Adcs
