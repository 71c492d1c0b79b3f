import Verif.Props.LimitedSlew
import Verif.Props.HelperSat
import Mathlib.Analysis.ODE.ExistUnique

set_option autoImplicit false

/-! # C207: the turns exist; any start at rest -/

namespace Adcs

open Str Sens JDay Quat Vec Dyn Ctl Spec Set Filter Topology
open scoped Matrix NNReal

/-- The motion about one axis exists for any time. -/
theorem slew_ode {alpha gamma m : ℝ} (ha : 0 < alpha) (hg : 0 < gamma) (hm : 0 < m) (p0 : ℝ) {T : ℝ} (hT : 0 ≤ T) :
    ∃ p b : ℝ → ℝ, p 0 = p0 ∧ b 0 = 0 ∧ ∀ t ∈ Icc 0 T, HasDerivAt p (b t / 2) t ∧
      HasDerivAt b (-sat m (alpha * Real.sin (p t) + gamma * b t)) t := by
  obtain ⟨S, hS⟩ : ∃ S, S = T + 1 := ⟨_, rfl⟩
  have hS0 : 0 < S := by linarith
  set f : ℝ × ℝ → ℝ × ℝ := fun p => (p.2 / (2 * S), -sat m (alpha * Real.sin (S * p.1) + gamma * p.2)) with hf
  have hpl : IsPicardLindelof (fun _ => f) (⟨0, by constructor <;> linarith⟩ : Icc (-1) S) (p0 / S, 0)
      (NNReal.mk (m * S) (by positivity)) 0 (NNReal.mk m hm.le) (NNReal.mk (alpha * S + gamma + 1 / (2 * S)) (by positivity)) := by
    refine IsPicardLindelof.of_time_independent (fun x hx => ?_) ?_ ?_
    · have h1 : |x.2| ≤ m * S := by
        have := (norm_snd_le (x - (p0 / S, 0))).trans (mem_closedBall_iff_norm.1 hx)
        simpa using this
      rw [NNReal.coe_mk, hf, Prod.norm_def, Real.norm_eq_abs, Real.norm_eq_abs]
      refine max_le ?_ ?_
      · simp only
        rw [abs_div, abs_of_pos (by positivity : 0 < 2 * S), div_le_iff₀ (by positivity)]
        nlinarith [mul_pos hm hS0]
      · simp only
        rw [abs_neg]
        exact sat_abs hm.le _
    · refine LipschitzOnWith.of_dist_le_mul fun x _ y _ => ?_
      rw [dist_eq_norm, dist_eq_norm, NNReal.coe_mk]
      have n1 : |x.1 - y.1| ≤ ‖x - y‖ := norm_fst_le (x - y)
      have n2 : |x.2 - y.2| ≤ ‖x - y‖ := norm_snd_le (x - y)
      have n0 := norm_nonneg (x - y)
      rw [hf, Prod.norm_def, Real.norm_eq_abs, Real.norm_eq_abs]
      simp only [Prod.fst_sub, Prod.snd_sub]
      refine max_le ?_ ?_
      · rw [← sub_div, abs_div, abs_of_pos (by positivity : 0 < 2 * S)]
        have : |x.2 - y.2| / (2 * S) ≤ 1 / (2 * S) * ‖x - y‖ := by
          rw [div_mul_eq_mul_div, one_mul]; gcongr
        have h2 : 0 ≤ (alpha * S + gamma) * ‖x - y‖ := by positivity
        linarith
      · rw [neg_sub_neg, abs_sub_comm]
        refine (sat_lip m _ _).trans ?_
        have e : alpha * Real.sin (S * x.1) + gamma * x.2 - (alpha * Real.sin (S * y.1) + gamma * y.2) =
            alpha * (Real.sin (S * x.1) - Real.sin (S * y.1)) + gamma * (x.2 - y.2) := by ring
        rw [e]
        refine (abs_add_le _ _).trans ?_
        rw [abs_mul, abs_mul, abs_of_pos ha, abs_of_pos hg]
        have h3 : |Real.sin (S * x.1) - Real.sin (S * y.1)| ≤ S * ‖x - y‖ := by
          refine (Real.abs_sin_sub_sin_le _ _).trans ?_
          rw [← mul_sub, abs_mul, abs_of_pos hS0]
          gcongr
        have h4 := mul_le_mul_of_nonneg_left h3 ha.le
        have h5 := mul_le_mul_of_nonneg_left n2 hg.le
        have h6 : 0 ≤ 1 / (2 * S) * ‖x - y‖ := by positivity
        linarith
    · simp only [NNReal.coe_mk, NNReal.coe_zero, sub_zero, zero_sub, neg_neg]
      rw [max_eq_left (by linarith)]
  obtain ⟨z, z0, hz⟩ := hpl.exists_eq_forall_mem_Icc_hasDerivWithinAt₀
  have z0 : z 0 = (p0 / S, 0) := z0
  refine ⟨fun t => S * (z t).1, fun t => (z t).2, ?_, ?_, fun t ht => ?_⟩
  · simp only [z0]; field_simp
  · simp only [z0]
  · have hd : HasDerivAt z (f (z t)) t :=
      (hz t ⟨by linarith [ht.1], by linarith [ht.2]⟩).hasDerivAt (Icc_mem_nhds (by linarith [ht.1]) (by linarith [ht.2]))
    have d1 : HasDerivAt (fun t => (z t).1) (f (z t)).1 t :=
      (ContinuousLinearMap.fst ℝ ℝ ℝ).hasFDerivAt.comp_hasDerivAt t hd
    have d2 : HasDerivAt (fun t => (z t).2) (f (z t)).2 t :=
      (ContinuousLinearMap.snd ℝ ℝ ℝ).hasFDerivAt.comp_hasDerivAt t hd
    refine ⟨(d1.const_mul S).congr_deriv ?_, d2⟩
    simp only [hf]
    field_simp

section
variable {c : RwController} {mass : ℝ} {dims : V3} {ab cd : ℝ} {T : ℝ} {qc : V4}

theorem part_shares {n : ℕ} {ax : Fin n → V3} {par orth : Fin n → ℝ} (hp : ∀ i, par i ≠ 0) {maxT : ℝ} (hT : 0 ≤ maxT)
    {s : RWSystem} (hs : RWSystem.init (mkWheels ax par orth) maxT true = .ok s) (cmd : V3) :
    ∃ k : ℝ, s.accelerations cmd = .ok (fun i => (s.distribution *ᵥ (k • cmd)) i / (s.wheels i).parScalar) ∧ 0 ≤ k ∧ k ≤ 1 ∧
      (∀ i, |k * (s.distribution *ᵥ cmd) i| ≤ maxT) ∧
      ∀ k' : ℝ, 0 ≤ k' → k' ≤ 1 → (∀ i, |k' * (s.distribution *ᵥ cmd) i| ≤ maxT) → k' ≤ k := by
  have hsp := rwInit_spans hs
  obtain rfl := rwInit_eq hs
  have hA : (Matrix.of fun i j => (mkWheels ax par orth j).axis i) = axisMat ax := rfl
  set T := npPinv (axisMat ax) *ᵥ cmd with hTdef
  rcases n with _ | n
  · exfalso
    apply hsp
    have : axisMat ax * (axisMat ax)ᵀ = 0 := by ext i j; simp [Matrix.mul_apply]
    rw [this]; simp
  obtain ⟨y, hy, hle, -, k, hk0, hk1, hyk, hmax⟩ := C01_saturation T maxT hT
  refine ⟨k, ?_, hk0, hk1, ?_, ?_⟩
  · simp only [RWSystem.accelerations, RWSystem.wheelTorques]
    simp only [if_true, hA, ← hTdef, hy]
    rw [pyForall_ok]
    intro i
    simp only [Matrix.mulVec_smul, ← hTdef, ← hyk]
    simp [Wheel.acceleration, npDiv, mkWheels, Wheel.init, hp i]
  · intro i; have := hle i; rwa [hyk] at this
  · intro k' h0 h1 h; exact hmax k' h0 h1 h

/-- The accelerations, in closed form, whether the limit binds or not. -/
theorem accel_part (hT : 0 ≤ T) (hw : LimitedWheels c.sat T) (cmd : V3) :
    ∃ k : ℝ, c.sat.rw.accelerations cmd = .ok (wheelAccel c (k • cmd)) ∧ 0 ≤ k ∧ k ≤ 1 ∧
      (∀ i, |k * (c.sat.rw.distribution *ᵥ cmd) i| ≤ T) ∧
      ∀ k' : ℝ, 0 ≤ k' → k' ≤ 1 → (∀ i, |k' * (c.sat.rw.distribution *ᵥ cmd) i| ≤ T) → k' ≤ k := by
  obtain ⟨n, ax, par, orth, hp, hrw⟩ := hw
  exact part_shares hp hT hrw cmd

/-- There is an instant of the loop in any state. -/
theorem instant_part (hb : Built c.sat mass dims ab cd) (hm : mass ≠ 0) (hT : 0 ≤ T) (hw : LimitedWheels c.sat T)
    (hav : c.objAvoidance = false) {s : Measurements c.sat.rw.n} {objs : List V3} (hobj : c.objects s = .ok objs)
    (qc : V4) (tr : Trigger) (st : SatState c.sat.rw.n) :
    ∃ (d : Raw c.sat.rw.n) (k : ℝ), Spec.Instant c qc 0 tr (tr.step (errorQuat st.attrs.attitude qc 0)) st d ∧
      d.att = (0.5 : ℝ) • product st.attrs.attitude (pureQ st.attrs.bodyAngVel) ∧
      d.rate = c.sat.invTotMoment *ᵥ (k • lawAt c qc (tr.step (errorQuat st.attrs.attitude qc 0)).memory st
        - npCross st.attrs.bodyAngVel (Spec.totalMomentum c.sat st)) ∧
      d.whl = wheelAccel c (-(k • lawAt c qc (tr.step (errorQuat st.attrs.attitude qc 0)).memory st)) ∧ 0 ≤ k ∧ k ≤ 1 ∧
      (∀ i, |k * (c.sat.rw.distribution *ᵥ lawAt c qc (tr.step (errorQuat st.attrs.attitude qc 0)).memory st) i| ≤ T) ∧
      ∀ k' : ℝ, 0 ≤ k' → k' ≤ 1 →
        (∀ i, |k' * (c.sat.rw.distribution *ᵥ lawAt c qc (tr.step (errorQuat st.attrs.attitude qc 0)).memory st) i| ≤ T) →
        k' ≤ k := by
  set L := lawAt c qc (tr.step (errorQuat st.attrs.attitude qc 0)).memory st with hL
  obtain ⟨k, hk, k0, k1, g1, g2⟩ := accel_part hT hw (-L)
  obtain ⟨objs', ho⟩ := objects_any hobj tr st.attrs.attitude st.attrs.bodyAngVel st.attrs.wheelVel
  set s' : Measurements c.sat.rw.n :=
    { s with att := st.attrs.attitude, rate := st.attrs.bodyAngVel, whl := st.attrs.wheelVel } with hs'
  obtain ⟨d, hd, -, hwh, hatt, hr⟩ := derivative_rate hb hm st (k • L) 0 0 (wheelAccel c (k • -L))
    (by rw [accel_torque hw, smul_neg])
  refine ⟨d, k, ⟨s', objs', L, { c with trigger := tr.step (errorQuat st.attrs.attitude qc 0) }, wheelAccel c (k • -L), 0, 0,
    ⟨rfl, rfl, rfl⟩, ho, .inl hav, ?_, rfl, hk, ?_, hd⟩, hatt, ?_, by rw [hwh, smul_neg], k0, k1, fun i => ?_,
    fun k' a b h => g2 k' a b fun i => ?_⟩
  · rw [tracking_plain (c := { c with trigger := tr }) hav ho]
    have z : ∀ q : V4, sandwich q 0 = 0 := fun q => by rw [sandwich_eq_dcm, Matrix.mulVec_zero]
    have hzc : ∀ v : V3, npCross v 0 = 0 := fun v => by rw [npCross_eq_crossProduct, LinearMap.map_zero]
    refine Prod.ext ?_ rfl
    simp only [Except.ok.injEq]
    rw [z, hzc, add_zero, sub_zero, sub_zero]
    rfl
  · rw [Matrix.mulVec_zero]; simp [npNorm]
  · rw [hr, zero_add]; rfl
  · have := g1 i
    rwa [Matrix.mulVec_neg, Pi.neg_apply, mul_neg, abs_neg] at this
  · rw [Matrix.mulVec_neg, Pi.neg_apply, mul_neg, abs_neg]
    exact h i

theorem offBy_deriv (e : V3) (he : e ⬝ᵥ e = 1) {p : ℝ → ℝ} {b t : ℝ} (hp : HasDerivAt p (b / 2) t) :
    HasDerivAt (fun τ => Spec.offBy e (2 * p τ)) ((0.5 : ℝ) • product (Spec.offBy e (2 * p t)) (pureQ (b • e))) t := by
  have e2 : ∀ x : ℝ, 2 * x / 2 = x := fun x => by ring
  rw [Matrix.vec3_dotProduct] at he
  rw [hasDerivAt_pi]
  intro i
  fin_cases i
  · simp only [Spec.offBy, e2]
    refine hp.cos.congr_deriv ?_
    simp [product_0, pureQ, cons4_2, cons4_3, e2]
    linear_combination (1/2 * b * Real.sin (p t)) * he
  · simp only [Spec.offBy, e2]
    refine (hp.sin.mul_const (e 0)).congr_deriv ?_
    simp [product_1, pureQ, cons4_2, cons4_3, e2]
    ring
  · simp only [Spec.offBy, e2]
    refine (hp.sin.mul_const (e 1)).congr_deriv ?_
    simp [product_2, pureQ, cons4_2, cons4_3, e2]
    ring
  · simp only [Spec.offBy, e2]
    refine (hp.sin.mul_const (e 2)).congr_deriv ?_
    simp [product_3, pureQ, cons4_2, cons4_3, e2]
    ring

end

/-- The turn exists, for as long as one likes. -/
theorem C207_exists (c : RwController) (ha : 0 < c.alpha) (hg : 0 < c.gamma) {mass : ℝ} {dims : V3} {ab cd : ℝ}
    (hb : Built c.sat mass dims ab cd) (hm : mass ≠ 0) {T : ℝ} (hT : 0 < T) (hw : LimitedWheels c.sat T)
    (hav : c.objAvoidance = false) (s : Measurements c.sat.rw.n) (objs : List V3) (hobj : c.objects s = .ok objs)
    (qc : V4) (hqc : npNorm qc = 1) (tr0 : Trigger) (st0 : SatState c.sat.rw.n) (e : V3) (theta0 : ℝ)
    (h0 : Spec.AtRest qc tr0 st0 e theta0) (hH : Spec.totalMomentum c.sat st0 = 0) (t : ℝ) (ht : 0 ≤ t) :
    ∃ st, Spec.WheelRun c qc tr0 st0 t tr0 st 0 := by
  have he := h0.axis
  obtain ⟨m, hm0, hl⟩ := axisLimit_exists hb hT hw he
  obtain ⟨p, b, p0, b0, hpb⟩ := slew_ode ha hg hm0 (theta0 / 2) ht
  obtain ⟨hu0, hx0, hcos, hpi, -⟩ := rest_start hqc h0
  have hc1 := Real.cos_le_one (theta0 / 2)
  have cp : ContinuousOn p (Icc 0 t) := fun τ hτ => (hpb τ hτ).1.continuousAt.continuousWithinAt
  have cb : ContinuousOn b (Icc 0 t) := fun τ hτ => (hpb τ hτ).2.continuousAt.continuousWithinAt
  have hF : SatFlow c.alpha c.gamma m (fun τ => Real.cos (p τ)) (fun τ => Real.sin (p τ)) b t := by
    refine ⟨Real.continuous_cos.comp_continuousOn cp, Real.continuous_sin.comp_continuousOn cp, cb,
      fun τ _ => Real.cos_sq_add_sin_sq _, fun τ hτ => ?_, fun τ hτ => ?_, fun τ hτ => (hpb τ ⟨hτ.1, hτ.2.le⟩).2⟩
    · refine (hpb τ ⟨hτ.1, hτ.2.le⟩).1.cos.congr_deriv ?_
      norm_num; ring
    · refine (hpb τ ⟨hτ.1, hτ.2.le⟩).1.sin.congr_deriv ?_
      norm_num; ring
  have hV0 : slewV c.alpha m (Real.cos (p 0)) (b 0) ≤ pot c.alpha m (Real.cos (theta0 / 2)) := by
    rw [p0, b0]; simp [slewV]
  have hstay : ∀ τ ∈ Icc 0 t, -0.3 < Real.cos (p τ) := fun τ hτ =>
    lt_of_lt_of_le hcos (hF.stays ha hg hm0 hcos.le hc1 hV0 hτ).2.1
  -- the wheels
  set u : ℝ → ℝ := fun τ => sat m (c.alpha * Real.sin (p τ) + c.gamma * b τ) with hu
  have cu : ContinuousOn u (Icc 0 t) := (sat_continuous m).comp_continuousOn
    ((continuousOn_const.mul (Real.continuous_sin.comp_continuousOn cp)).add (continuousOn_const.mul cb))
  set v := wheelAccel c (c.sat.totalMoment *ᵥ e) with hv
  set U := IccExtend ht ((Icc 0 t).domRestrict u) with hU
  have cU : Continuous U := (continuousOn_iff_continuous_domRestrict.1 cu).Icc_extend'
  have eU : ∀ τ ∈ Icc 0 t, U τ = u τ := fun τ hτ => IccExtend_of_mem ht _ hτ
  set W : ℝ → Fin c.sat.rw.n → ℝ := fun τ => st0.attrs.wheelVel + (∫ x in (0 : ℝ)..τ, U x) • v with hW
  have hWd : ∀ τ, HasDerivAt W (U τ • v) τ := fun τ =>
    ((intervalIntegral.integral_hasDerivAt_right (cU.intervalIntegrable _ _) (cU.stronglyMeasurableAtFilter _ _)
      cU.continuousAt).smul_const v).const_add _
  have hW0 : W 0 = st0.attrs.wheelVel := by simp [hW]
  have htv : ∀ r : ℝ, c.sat.rw.torque (r • v) = r • c.sat.totalMoment *ᵥ e := by
    intro r
    have : r • v = wheelAccel c (r • c.sat.totalMoment *ᵥ e) := by
      funext i
      simp only [hv, wheelAccel, Matrix.mulVec_smul, Pi.smul_apply, smul_eq_mul]
      ring
    rw [this, accel_torque hw]
  set st : ℝ → SatState c.sat.rw.n := fun τ =>
    withSpin st0 (tr0.memory • product qc (Spec.offBy e (2 * p τ))) (b τ • e) (W τ) with hst
  have hst0 : st 0 = st0 := by
    have e1 : 2 * p 0 = theta0 := by rw [p0]; ring
    simp only [hst, withSpin]
    rw [e1, ← h0.attitude, b0, zero_smul, ← h0.rest, hW0]
  have dq : ∀ τ ∈ Icc 0 t, HasDerivAt (fun τ => (st τ).attrs.attitude)
      ((0.5 : ℝ) • product (st τ).attrs.attitude (pureQ (st τ).attrs.bodyAngVel)) τ := by
    intro τ hτ
    refine ((hasDerivAt_product (hasDerivAt_const τ qc) (offBy_deriv e he (hpb τ hτ).1)).const_smul tr0.memory).congr_deriv ?_
    have z : product 0 (Spec.offBy e (2 * p τ)) = 0 := by
      apply vec4_ext <;> simp [product_0, product_1, product_2, product_3]
    show _ = (0.5 : ℝ) • product (tr0.memory • product qc (Spec.offBy e (2 * p τ))) (pureQ (b τ • e))
    rw [z, zero_add, (C04_product_bilinear _ _ 0 _).2.2.2, ← product_assoc, (C04_product_bilinear _ _ 0 _).2.2.1, smul_comm]
  have dw : ∀ τ ∈ Icc 0 t, HasDerivAt (fun τ => (st τ).attrs.bodyAngVel) (-u τ • e) τ := fun τ hτ =>
    (hpb τ hτ).2.smul_const e
  have cw : ContinuousOn (fun τ => (st τ).attrs.bodyAngVel) (Icc 0 t) := fun τ hτ =>
    (dw τ hτ).continuousAt.continuousWithinAt
  have hzero : ∀ τ ∈ Icc 0 t, Spec.totalMomentum c.sat (st τ) = 0 := by
    have hd : ∀ τ ∈ Icc 0 t, HasDerivAt (fun τ => Spec.totalMomentum c.sat (st τ)) 0 τ := by
      intro τ hτ
      refine ((hasDerivAt_mulVec3 (J := c.sat.totalMoment) (dw τ hτ)).fun_add (hasDerivAt_momentum c.sat (hWd τ))).congr_deriv ?_
      rw [htv, eU τ hτ, Matrix.mulVec_smul, neg_smul, neg_add_cancel]
    intro τ hτ
    have := constant_of_has_deriv_right_zero (fun τ hτ => (hd τ hτ).continuousAt.continuousWithinAt)
      (fun τ hτ => (hd τ ⟨hτ.1, hτ.2.le⟩).hasDerivWithinAt) τ hτ
    rw [this, hst0, hH]
  refine ⟨st t, ?_⟩
  have key := Spec.WheelRun.flow (c := c) (qc := qc) (tr0 := tr0) (st0 := st0) (t := 0) (tr := tr0) (n := 0) st t ht
    (hst0 ▸ .start) (fun τ hτ => (dq τ hτ).continuousAt.continuousWithinAt) cw
    (fun τ hτ => (hWd τ).continuousAt.continuousWithinAt) (fun τ hτ => ?_)
  · rwa [zero_add] at key
  · have hτ' : τ ∈ Icc 0 t := ⟨hτ.1, hτ.2.le⟩
    have herr : tr0.memory • errorQuat (st τ).attrs.attitude qc = Spec.offBy e (2 * p τ) :=
      (signed_error h0.sign hqc).1 rfl
    have hx : tr0.memory * errorQuat (st τ).attrs.attitude qc 0 = Real.cos (p τ) := by
      have := congrFun herr 0
      simp only [Spec.offBy, Pi.smul_apply, smul_eq_mul, Matrix.cons_val_zero] at this
      rw [this]; congr 1; ring
    have hstep : tr0.step (errorQuat (st τ).attrs.attitude qc 0) = tr0 := by
      by_contra hne
      obtain ⟨-, -, j3⟩ := trigger_switch h0.sign (by rw [h0.width]; norm_num) hne
      rw [h0.width, mul_comm, hx] at j3
      linarith [hstay τ hτ']
    obtain ⟨d, k, hi, hatt, hrate, hwh, k0, k1, g1, g2⟩ := instant_part hb hm hT.le hw hav hobj qc tr0 (st τ)
    rw [hstep] at hi hrate hwh g1 g2
    have hlaw : lawAt c qc tr0.memory (st τ) = c.sat.totalMoment *ᵥ (-(c.alpha * Real.sin (p τ) + c.gamma * b τ) • e) := by
      have hzc : npCross (st τ).attrs.bodyAngVel 0 = 0 := by rw [npCross_eq_crossProduct, LinearMap.map_zero]
      have e1 : tr0.memory • vecPart (errorQuat (st τ).attrs.attitude qc) = Real.sin (p τ) • e := by
        have e2 : vecPart (tr0.memory • errorQuat (st τ).attrs.attitude qc) = Real.sin (p τ) • e := by
          rw [herr]
          have e2 : 2 * p τ / 2 = p τ := by ring
          apply vec3_ext <;> simp [vecPart_0, vecPart_1, vecPart_2, Spec.offBy, cons4_2, cons4_3, e2]
        rw [← e2]
        apply vec3_ext <;> simp only [vecPart_0, vecPart_1, vecPart_2, Pi.smul_apply]
      rw [lawAt, hzero τ hτ', hzc, zero_add]
      congr 1
      rw [show -tr0.memory * c.alpha = -c.alpha * tr0.memory by ring, ← smul_smul, e1]
      show -c.alpha • Real.sin (p τ) • e - c.gamma • b τ • e = _
      module
    rw [hlaw] at hrate hwh g1 g2
    have hks := part_sat hT hm0 hl k0 k1 g1 g2
    have hkl : k • c.sat.totalMoment *ᵥ (-(c.alpha * Real.sin (p τ) + c.gamma * b τ) • e) = c.sat.totalMoment *ᵥ (-u τ • e) := by
      rw [← Matrix.mulVec_smul, smul_smul]
      congr 2
      rw [hu]
      simp only
      rw [← hks]; ring
    rw [hkl] at hrate hwh
    refine ⟨d, hi, hatt ▸ dq τ hτ', ?_, ?_⟩
    · refine (dw τ hτ').congr_deriv ?_
      have hzc : npCross (st τ).attrs.bodyAngVel 0 = 0 := by rw [npCross_eq_crossProduct, LinearMap.map_zero]
      rw [hrate, hzero τ hτ', hzc, sub_zero, hb.cancel]
    · refine (hWd τ).congr_deriv ?_
      rw [hwh, eU τ hτ', ← Matrix.mulVec_neg]
      funext i
      simp only [hv, wheelAccel, Matrix.mulVec_smul, neg_smul, neg_neg, Pi.smul_apply, smul_eq_mul]
      ring

/-- If the trigger flips when it is first asked, it does so at once. -/
theorem run_first {c : RwController} {mass : ℝ} {dims : V3} {ab cd : ℝ} {T : ℝ} {qc : V4} (hb : Built c.sat mass dims ab cd)
    (hm : mass ≠ 0) (hT : 0 ≤ T) (hw : LimitedWheels c.sat T) {tr0 : Trigger} {st0 : SatState c.sat.rw.n}
    (hne : tr0.step (errorQuat st0.attrs.attitude qc 0) ≠ tr0) {t : ℝ} {tr : Trigger} {st : SatState c.sat.rw.n} {n : ℕ}
    (h : Spec.WheelRun c qc tr0 st0 t tr st n) :
    (t = 0 ∧ tr = tr0 ∧ st = st0 ∧ n = 0) ∨
      ∃ n', n = n' + 1 ∧ Spec.WheelRun c qc (tr0.step (errorQuat st0.attrs.attitude qc 0)) st0 t tr st n' := by
  induction h with
  | start => exact .inl ⟨rfl, rfl, rfl, rfl⟩
  | @flow t tr n st D hD hprev c1 c2 c3 hf ih =>
    rcases ih with ⟨i1, i2, i3, i4⟩ | ⟨n', i1, i2⟩
    · rcases hD.eq_or_lt with h0 | h0
      · subst h0
        exact .inl ⟨by rw [i1, add_zero], i2, i3, i4⟩
      · exfalso
        obtain ⟨d, hi, -⟩ := hf 0 ⟨le_rfl, h0⟩
        have := (limited_instant hb hm hT hw hi).1
        rw [i2, i3] at this
        exact hne this.symm
    · exact .inr ⟨n', i1, .flow st D hD i2 c1 c2 c3 hf⟩
  | @switch t tr tr' n st d hprev hi hsw ih =>
    rcases ih with ⟨i1, i2, i3, i4⟩ | ⟨n', i1, i2⟩
    · subst i1 i2 i3 i4
      refine .inr ⟨0, rfl, ?_⟩
      rw [(limited_instant hb hm hT hw hi).1]
      exact .start
    · exact .inr ⟨n' + 1, by rw [i1], .switch i2 hi hsw⟩

/-- From any state of rest, whatever the controller remembers: at most one switch, at the very start, and the satellite
comes to rest in the command, or its negative, exponentially. -/
theorem C207_rest (c : RwController) (ha : 0 < c.alpha) (hg : 0 < c.gamma) {mass : ℝ} {dims : V3} {ab cd : ℝ}
    (hb : Built c.sat mass dims ab cd) (hm : mass ≠ 0) {T : ℝ} (hT : 0 < T) (hw : LimitedWheels c.sat T)
    (qc : V4) (hqc : npNorm qc = 1) (tr0 : Trigger) (hhw : tr0.halfWidth = 0.3) (hs : tr0.memory = 1 ∨ tr0.memory = -1)
    (st0 : SatState c.sat.rw.n) (hu : npNorm st0.attrs.attitude = 1) (hr : st0.attrs.bodyAngVel = 0)
    (hH : Spec.totalMomentum c.sat st0 = 0) :
    ∃ C > 0, ∃ κ > 0, ∀ (t : ℝ) (tr : Trigger) (st : SatState c.sat.rw.n) (n : ℕ),
      Spec.WheelRun c qc tr0 st0 t tr st n → n ≤ 1 ∧
        npNorm st.attrs.bodyAngVel + npNorm (st.attrs.attitude - tr.memory • qc) ≤ C * Real.exp (-κ * t) := by
  obtain ⟨e, theta0, h0⟩ := C188_start qc hqc tr0 hhw hs st0 hu hr
  obtain ⟨C, hC, κ, hκ, h⟩ := C207_turn c ha hg hb hm hT hw e h0.axis
  set tr1 := tr0.step (errorQuat st0.attrs.attitude qc 0) with htr1
  have hd2 : ∀ sg : ℝ, sg = 1 ∨ sg = -1 → npNorm (st0.attrs.attitude - sg • qc) ≤ 2 := by
    intro sg hsg
    have h1 := quat_dist hsg hu hqc
    have h2 := quat_dist (sgn := -sg) (by rcases hsg with h | h <;> rw [h] <;> norm_num) hu hqc
    have h3 := sq_nonneg (npNorm (st0.attrs.attitude - -sg • qc))
    refine abs_le_of_sq_le_sq' ?_ (by norm_num) |>.2
    nlinarith
  have hrun1 : ∀ (t : ℝ) (tr : Trigger) (st : SatState c.sat.rw.n) (n : ℕ), Spec.WheelRun c qc tr1 st0 t tr st n → n = 0 ∧
      npNorm st.attrs.bodyAngVel + npNorm (st.attrs.attitude - tr.memory • qc) ≤ (2 * C + 2) * Real.exp (-κ * t) := by
    intro t tr st n hrun
    obtain ⟨r1, r2, -, r3⟩ := h qc hqc tr1 st0 theta0 h0 hH t tr st n hrun
    refine ⟨r1, ?_⟩
    rw [r2]
    refine r3.trans (mul_le_mul_of_nonneg_right ?_ (Real.exp_pos _).le)
    have := mul_le_mul_of_nonneg_left (hd2 tr1.memory h0.sign) hC.le
    linarith
  refine ⟨2 * C + 2, by positivity, κ, hκ, fun t tr st n hrun => ?_⟩
  by_cases hne : tr1 = tr0
  · rw [← hne] at hrun
    obtain ⟨r1, r2⟩ := hrun1 t tr st n hrun
    exact ⟨by omega, r2⟩
  · rcases run_first hb hm hT.le hw hne hrun with ⟨i1, i2, i3, i4⟩ | ⟨n', i1, i2⟩
    · subst i1 i2 i3 i4
      refine ⟨by omega, ?_⟩
      have h1 := hd2 tr.memory hs
      have h2 : npNorm st.attrs.bodyAngVel = 0 := by rw [hr]; simp [npNorm]
      rw [h2, mul_zero, Real.exp_zero, mul_one, zero_add]
      linarith
    · obtain ⟨r1, r2⟩ := hrun1 t tr st n' i2
      exact ⟨by omega, r2⟩

/-- The satellite of the examples with wheels of 2 mN m, which cannot deliver the torque asked for at the start: it rests
half a turn from the command, its wheels do too, and there is a run of an hour. -/
example : ∃ (model : CtlModel) (c : RwController) (st0 st : SatState c.sat.rw.n),
    RwController.init model 1 1 = .ok c ∧ Built c.sat 2 ![0.1, 0.1, 0.2] 0.8 2.2 ∧ LimitedWheels c.sat 0.002 ∧
    0 < c.alpha ∧ 0 < c.gamma ∧ Spec.totalMomentum c.sat st0 = 0 ∧
    Spec.AtRest ![1, 0, 0, 0] c.trigger st0 ![0, 0, 1] Real.pi ∧
    (∀ a, c.sat.rw.accelerations (-lawAt c ![1, 0, 0, 0] c.trigger.memory st0) = .ok a →
      c.sat.rw.torque a ≠ -lawAt c ![1, 0, 0, 0] c.trigger.memory st0) ∧
    Spec.WheelRun { c with objAvoidance := false } ![1, 0, 0, 0] c.trigger st0 3600 c.trigger st 0 := by
  obtain ⟨model, c, x, s, objs, hc, hb, hw, hpd, hI, hobj, hrw⟩ := exLimited
  obtain ⟨ha, hal, hga, hhw, hmem, -⟩ := C69_gains model 1 1 c hc
  obtain ⟨a0, hta, hacc⟩ := exAccel hrw
  have hga' : 0 < c.gamma := by rw [hga]; norm_num
  set st0 : SatState c.sat.rw.n := withSpin x (Spec.offBy ![0, 0, 1] Real.pi) 0 0 with hst0
  have hH : Spec.totalMomentum c.sat st0 = 0 := by
    show c.sat.totalMoment *ᵥ 0 + c.sat.rw.momentum 0 = 0
    rw [Matrix.mulVec_zero, zero_add]
    funext i; simp [RWSystem.momentum, Wheel.momentum]
  have h0 : Spec.AtRest ![1, 0, 0, 0] c.trigger st0 ![0, 0, 1] Real.pi := by
    refine ⟨by simp [Matrix.vec3_dotProduct], .inl hmem, hhw, Real.pi_pos.le, ?_, ?_, rfl⟩
    · have := Real.strictAntiOn_arccos (a := -0.3) (b := 0) ⟨by norm_num, by norm_num⟩ ⟨by norm_num, by norm_num⟩ (by norm_num)
      rw [Real.arccos_zero] at this
      linarith
    · rw [hmem, one_smul, one_product]; rfl
  obtain ⟨st, hrun⟩ := C207_exists { c with objAvoidance := false } ha hga' hb (by norm_num) (by norm_num : (0 : ℝ) < 0.002) hw rfl s objs hobj
    ![1, 0, 0, 0] (npNorm_vec4 (by norm_num)) c.trigger st0 _ _ h0 hH 3600 (by norm_num)
  refine ⟨model, c, st0, st, hc, hb, hw, ha, hga', hH, h0, fun a hac => ?_, hrun⟩
  have hlaw : lawAt c ![1, 0, 0, 0] c.trigger.memory st0 = ![0, 0, -0.012428] := by
    have hzc : npCross st0.attrs.bodyAngVel 0 = 0 := by rw [npCross_eq_crossProduct, LinearMap.map_zero]
    have e0 : errorQuat st0.attrs.attitude ![1, 0, 0, 0] = Spec.offBy ![0, 0, 1] Real.pi := by
      have := (signed_error (.inl rfl) (npNorm_vec4 (by norm_num)) (q := st0.attrs.attitude) (qc := ![1, 0, 0, 0])
        (p := Spec.offBy ![0, 0, 1] Real.pi)).1 (by rw [one_smul, one_product]; rfl)
      rwa [one_smul] at this
    rw [lawAt, hH, hzc, zero_add, e0, hmem, hal, hga, hI]
    have hb0 : st0.attrs.bodyAngVel = 0 := rfl
    rw [hb0, smul_zero, sub_zero]
    apply vec3_ext <;> simp [Matrix.mulVec_diagonal, vecPart_0, vecPart_1, vecPart_2, Spec.offBy, cons4_2, cons4_3] <;> norm_num
  rw [hlaw] at hac ⊢
  have e : -(![0, 0, -0.012428] : V3) = ![0, 0, 0.012428] := by apply vec3_ext <;> simp
  rw [e] at hac ⊢
  rw [hacc 0.012428 (by norm_num)] at hac
  rw [← Except.ok.inj hac, hta]
  intro h
  have := congrFun h 2
  norm_num at this

/-- The satellite of the examples, with any gains, for instance those of the manager (0.707, 0.1): from rest in any
attitude, with its wheels at rest, it reaches every command. -/
theorem C207_examples (stop : ℝ) (gains : Fin 2 → ℝ) (sat : Satellite) (hsat : Examples.makeSatellite stop gains = .ok sat)
    (damping natFreq : ℝ) (hd : 0 < damping) (hn : 0 < natFreq) (model : CtlModel) (c : RwController) (hms : model.sat = sat)
    (hc : RwController.init model damping natFreq = .ok c) (av : Bool) (qc : V4) (hqc : npNorm qc = 1)
    (st0 : SatState c.sat.rw.n) (hu : npNorm st0.attrs.attitude = 1) (hr : st0.attrs.bodyAngVel = 0)
    (hw : st0.attrs.wheelVel = 0) :
    ∃ C > 0, ∃ κ > 0, ∀ (t : ℝ) (tr : Trigger) (st : SatState c.sat.rw.n) (n : ℕ),
      Spec.WheelRun { c with objAvoidance := av } qc c.trigger st0 t tr st n → n ≤ 1 ∧
        npNorm st.attrs.bodyAngVel + npNorm (st.attrs.attitude - tr.memory • qc) ≤ C * Real.exp (-κ * t) := by
  obtain ⟨ha, hal, hga, hhw, hmem, hcs⟩ := C69_gains model damping natFreq c hc
  rw [hms] at hcs
  subst hcs
  obtain ⟨hb, -, -⟩ := helper_sat hsat
  have hH : Spec.totalMomentum c.sat st0 = 0 := by
    rw [Spec.totalMomentum, hr, hw, Matrix.mulVec_zero, zero_add]
    funext i; simp [RWSystem.momentum, Wheel.momentum]
  exact C207_rest { c with objAvoidance := av } ha (by show 0 < c.gamma; rw [hga]; positivity) hb (by norm_num)
    (by norm_num : (0 : ℝ) < 0.0005) (helper_limited hsat) qc hqc c.trigger hhw (.inl hmem) st0 hu hr hH

end Adcs
