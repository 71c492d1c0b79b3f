import Verif.Proofs.LimitedSlew
import Verif.Props.LimitedRuns
import Verif.Props.Slew

set_option autoImplicit false

/-! # C207: turns from rest with wheels whose torque is limited -/

namespace Adcs

open Str Sens JDay Quat Vec Dyn Ctl Spec Set Filter Topology
open scoped Matrix

/-! ## One axis -/

section
variable {alpha gamma m : ℝ}

theorem SatFlow.stays (ha : 0 < alpha) (hg : 0 < gamma) (hm : 0 < m) {x a b : ℝ → ℝ} {D x0 : ℝ}
    (h : SatFlow alpha gamma m x a b D) (h0 : -0.3 ≤ x0) (hx0 : x0 ≤ 1)
    (hV : slewV alpha m (x 0) (b 0) ≤ pot alpha m x0) {t : ℝ} (ht : t ∈ Icc 0 D) :
    slewV alpha m (x t) (b t) ≤ pot alpha m x0 ∧ x0 ≤ x t ∧ x t ≤ 1 ∧ |b t| ≤ √(6 * alpha) := by
  have h1 := ((h.mono ht.2).falls ha hg hm ht.1).trans hV
  have hx : x t ≤ 1 := by nlinarith [h.unit t ht, sq_nonneg (a t)]
  obtain ⟨h2, h3⟩ := slewV_region ha hm h0 hx0 hx h1
  exact ⟨h1, h2, hx, h3⟩

/-- The energy with the cross term, along a turn. -/
theorem SatFlow.decays (ha : 0 < alpha) (hg : 0 < gamma) (hm : 0 < m) {d κ : ℝ}
    (hr : ∀ x a b : ℝ, x ^ 2 + a ^ 2 = 1 → -0.3 ≤ x → |b| ≤ √(6 * alpha) →
      -(b * (sat m (alpha * a + gamma * b) - sat m (alpha * a))) +
        d * (-sat m (alpha * a + gamma * b) * bend (m / 2) (alpha * a)
          + 0.5 * alpha * x * max 0 (1 - (alpha * a) ^ 2 / (m / 2) ^ 2) * b ^ 2) ≤ -κ * slewW alpha m d x a b ∧
      slewV alpha m x b / 2 ≤ slewW alpha m d x a b)
    {x a b : ℝ → ℝ} {D x0 : ℝ} (hD : 0 ≤ D) (h : SatFlow alpha gamma m x a b D) (h0 : -0.3 ≤ x0) (hx0 : x0 ≤ 1)
    (hV : slewV alpha m (x 0) (b 0) ≤ pot alpha m x0) {W : ℝ} (hW0 : 0 ≤ W)
    (hW : slewW alpha m d (x 0) (a 0) (b 0) ≤ W) :
    slewW alpha m d (x D) (a D) (b D) ≤ W * Real.exp (-κ * D) := by
  refine decay_barrier (f := fun t => slewW alpha m d (x t) (a t) (b t)) (k0 := κ) hD ?_ (fun t ht => ?_) hW0 hW
  · unfold slewW
    have hc : Continuous (bend (m / 2)) := continuous_iff_continuousAt.2 fun y => (bend_deriv (by positivity) y).continuousAt
    exact (h.contV hm).add (continuousOn_const.mul (h.contB.mul (hc.comp_continuousOn (continuousOn_const.mul h.contA))))
  · have ht' : t ∈ Icc 0 D := ⟨ht.1, ht.2.le⟩
    obtain ⟨-, s2, -, s4⟩ := h.stays ha hg hm h0 hx0 hV ht'
    exact ⟨_, κ, le_rfl, (h.derivV ha hm ht).fun_add ((h.derivCross hm ht).const_mul d),
      (hr _ _ _ (h.unit t ht') (h0.trans s2) s4).1⟩

end

/-! ## The wheels -/

section
variable {c : RwController} {mass : ℝ} {dims : V3} {ab cd : ℝ} {T : ℝ} {qc : V4}

/-- The acceleration that the wheels can deliver about the axis `e`. -/
def AxisLimit (c : RwController) (T : ℝ) (e : V3) (m : ℝ) : Prop :=
  (∀ i, m * |(c.sat.rw.distribution *ᵥ (c.sat.totalMoment *ᵥ e)) i| ≤ T) ∧
    ∃ i, m * |(c.sat.rw.distribution *ᵥ (c.sat.totalMoment *ᵥ e)) i| = T

theorem axisLimit_exists (hb : Built c.sat mass dims ab cd) (hT : 0 < T) (hw : LimitedWheels c.sat T) {e : V3}
    (he : e ⬝ᵥ e = 1) : ∃ m > 0, AxisLimit c T e m := by
  set v := c.sat.rw.distribution *ᵥ (c.sat.totalMoment *ᵥ e) with hv
  have hne : ∃ i, v i ≠ 0 := by
    by_contra hn
    push Not at hn
    have h1 := accel_torque hw (c.sat.totalMoment *ᵥ e)
    have h2 : wheelAccel c (c.sat.totalMoment *ᵥ e) = fun _ => 0 := by
      funext i
      have : (c.sat.rw.distribution *ᵥ c.sat.totalMoment *ᵥ e) i = 0 := hn i
      rw [wheelAccel, this, zero_div]
    have h3 : c.sat.totalMoment *ᵥ e = 0 := by
      rw [← h1, h2]
      funext j
      simp [RWSystem.torque, Wheel.torque]
    have h4 : e = 0 := by
      have := congrArg (c.sat.invTotMoment *ᵥ ·) h3
      simpa [Matrix.mulVec_mulVec, hb.inverse'] using this
    rw [h4, zero_dotProduct] at he
    exact zero_ne_one he
  obtain ⟨i0, hi0⟩ := hne
  have : Nonempty (Fin c.sat.rw.n) := ⟨i0⟩
  obtain ⟨i, hi⟩ := Finite.exists_max fun i => |v i|
  have hp : 0 < |v i| := lt_of_lt_of_le (abs_pos.2 hi0) (hi i0)
  refine ⟨T / |v i|, by positivity, fun j => ?_, i, by rw [← hv]; field_simp⟩
  calc T / |v i| * |v j| ≤ T / |v i| * |v i| := mul_le_mul_of_nonneg_left (hi j) (by positivity)
    _ = T := by field_simp

theorem part_sat (hT : 0 < T) {e : V3} {m : ℝ} (hm : 0 < m) (hl : AxisLimit c T e m) {k u : ℝ} (hk0 : 0 ≤ k) (hk1 : k ≤ 1)
    (h1 : ∀ i, |k * (c.sat.rw.distribution *ᵥ (c.sat.totalMoment *ᵥ (-u • e))) i| ≤ T)
    (h2 : ∀ k' : ℝ, 0 ≤ k' → k' ≤ 1 →
      (∀ i, |k' * (c.sat.rw.distribution *ᵥ (c.sat.totalMoment *ᵥ (-u • e))) i| ≤ T) → k' ≤ k) : k * u = sat m u := by
  set v := c.sat.rw.distribution *ᵥ (c.sat.totalMoment *ᵥ e) with hv
  have e1 : ∀ (k : ℝ) i, |k * (c.sat.rw.distribution *ᵥ (c.sat.totalMoment *ᵥ (-u • e))) i| = |k| * |u| * |v i| := by
    intro k i
    rw [Matrix.mulVec_smul, Matrix.mulVec_smul, Pi.smul_apply, smul_eq_mul, abs_mul, abs_mul, abs_neg]
    ring
  obtain ⟨l1, i, l2⟩ := hl
  have hvi : 0 < |v i| := by
    rcases (abs_nonneg (v i)).eq_or_lt with h | h
    · rw [← h, mul_zero] at l2; linarith
    · exact h
  have up : k * |u| ≤ m := by
    have := h1 i
    rw [e1, abs_of_nonneg hk0, ← l2] at this
    exact le_of_mul_le_mul_right this hvi
  have hks : |k * u| = min m |u| := by
    rw [abs_mul, abs_of_nonneg hk0]
    refine le_antisymm (le_min up (by nlinarith [abs_nonneg u])) ?_
    rcases le_total |u| m with h | h
    · have := h2 1 zero_le_one le_rfl fun j => by
        rw [e1, abs_one, one_mul]
        exact (mul_le_mul_of_nonneg_right h (abs_nonneg _)).trans (l1 j)
      rw [min_eq_right h]
      nlinarith [abs_nonneg u]
    · have hu : 0 < |u| := lt_of_lt_of_le hm h
      have := h2 (m / |u|) (by positivity) ((div_le_one hu).2 h) fun j => by
        rw [e1, abs_of_nonneg (by positivity), div_mul_cancel₀ _ hu.ne']
        exact l1 j
      rw [min_eq_left h]
      rwa [div_le_iff₀ hu] at this
  rcases le_total 0 u with h | h
  · rw [abs_of_nonneg (mul_nonneg hk0 h), abs_of_nonneg h] at hks
    rw [hks, sat, max_eq_right (le_min (by linarith) (by linarith))]
  · rw [abs_of_nonpos (mul_nonpos_of_nonneg_of_nonpos hk0 h), abs_of_nonpos h] at hks
    have h3 : sat m u = -sat m (-u) := by rw [sat_neg hm.le, neg_neg]
    rw [h3, sat, max_eq_right (le_min (by linarith) (by linarith)), ← hks, neg_neg]

/-- A stretch of the loop, without angular momentum. -/
theorem flow_part (hb : Built c.sat mass dims ab cd) (hm : mass ≠ 0) (hT : 0 < T) (hw : LimitedWheels c.sat T)
    (hqc : npNorm qc = 1) {e : V3} {m : ℝ} (hm0 : 0 < m) (hl : AxisLimit c T e m) {tr : Trigger}
    (hs : tr.memory = 1 ∨ tr.memory = -1) {st : ℝ → SatState c.sat.rw.n} {D : ℝ}
    (hu : npNorm (st 0).attrs.attitude = 1) (hH : Spec.totalMomentum c.sat (st 0) = 0)
    (c1 : ContinuousOn (fun τ => (st τ).attrs.attitude) (Icc 0 D))
    (c2 : ContinuousOn (fun τ => (st τ).attrs.bodyAngVel) (Icc 0 D))
    (c3 : ContinuousOn (fun τ => (st τ).attrs.wheelVel) (Icc 0 D))
    (h : ∀ τ ∈ Ico 0 D, ∃ d, Spec.Instant c qc 0 tr tr (st τ) d ∧
        HasDerivAt (fun τ => (st τ).attrs.attitude) d.att τ ∧ HasDerivAt (fun τ => (st τ).attrs.bodyAngVel) d.rate τ ∧
        HasDerivAt (fun τ => (st τ).attrs.wheelVel) d.whl τ) :
    PartFlow c.alpha c.gamma m e (fun τ => tr.memory • errorQuat (st τ).attrs.attitude qc)
      (fun τ => (st τ).attrs.bodyAngVel) D := by
  have hdq : ∀ τ ∈ Ico 0 D, HasDerivAt (fun τ => (st τ).attrs.attitude)
      ((0.5 : ℝ) • product (st τ).attrs.attitude (pureQ (st τ).attrs.bodyAngVel)) τ := by
    intro τ hτ
    obtain ⟨d, hi, hdq, -⟩ := h τ hτ
    rw [← (limited_instant hb hm hT.le hw hi).2.1]
    exact hdq
  have hunit : ∀ τ ∈ Icc 0 D, npNorm (st τ).attrs.attitude = 1 := by
    intro τ hτ
    rw [← hu]
    exact norm_flow (q := fun τ => (st τ).attrs.attitude) (w := fun τ => (st τ).attrs.bodyAngVel) hτ.1
      (c1.mono (Icc_subset_Icc_right hτ.2)) fun σ hσ => hdq σ ⟨hσ.1, hσ.2.trans_le hτ.2⟩
  have hzero : ∀ τ ∈ Icc 0 D, Spec.totalMomentum c.sat (st τ) = 0 := by
    intro τ hτ
    have := momentum_piece hb hm hT.le hw hτ.1 (c2.mono (Icc_subset_Icc_right hτ.2)) (c3.mono (Icc_subset_Icc_right hτ.2))
      fun σ hσ => h σ ⟨hσ.1, hσ.2.trans_le hτ.2⟩
    by_contra hne
    have h1 := npNorm_pos hne
    rw [this, hH] at h1
    simp [npNorm] at h1
  refine ⟨ContinuousOn.fun_const_smul ((errorQuat_continuous qc).comp_continuousOn c1) _, c2, ?_, ?_, ?_⟩
  · intro τ hτ
    have h1 := errorQuat_unit ((isUnit4_iff _).2 (hunit τ hτ)) ((isUnit4_iff _).2 hqc)
    unfold IsUnit4 at h1 ⊢
    simp only [Pi.smul_apply, smul_eq_mul]
    rcases hs with h | h <;> rw [h] <;> linarith
  · intro τ hτ
    have hp := (hasDerivAt_product (hasDerivAt_const τ (conjugate qc)) (hdq τ hτ)).const_smul tr.memory
    refine hp.congr_deriv ?_
    have z : product 0 (st τ).attrs.attitude = 0 := by
      apply vec4_ext <;> simp [product_0, product_1, product_2, product_3]
    rw [z, zero_add, (C04_product_bilinear _ _ 0 _).2.2.2, ← product_assoc, (C04_product_bilinear _ _ 0 _).2.2.1,
      smul_comm]
    rfl
  · intro τ hτ
    obtain ⟨d, hi, -, hdw, -⟩ := h τ hτ
    obtain ⟨-, -, k, k0, k1, -, hr, g1, g2⟩ := limited_instant hb hm hT.le hw hi
    have hz := hzero τ ⟨hτ.1, hτ.2.le⟩
    have hzc : npCross (st τ).attrs.bodyAngVel 0 = 0 := by rw [npCross_eq_crossProduct, LinearMap.map_zero]
    have e1 : vecPart (tr.memory • errorQuat (st τ).attrs.attitude qc) =
        tr.memory • vecPart (errorQuat (st τ).attrs.attitude qc) := by
      apply vec3_ext <;> simp only [vecPart_0, vecPart_1, vecPart_2, Pi.smul_apply]
    have hlaw : lawAt c qc tr.memory (st τ) = c.sat.totalMoment *ᵥ
        (-c.alpha • vecPart (tr.memory • errorQuat (st τ).attrs.attitude qc) - c.gamma • (st τ).attrs.bodyAngVel) := by
      rw [lawAt, hz, hzc, zero_add, e1, smul_smul, show -c.alpha * tr.memory = -tr.memory * c.alpha by ring]
    rw [hlaw] at hr g1 g2
    rw [hz, hzc, sub_zero, ← Matrix.mulVec_smul, Matrix.mulVec_mulVec, hb.inverse', Matrix.one_mulVec] at hr
    refine ⟨k, k0, k1, hr ▸ hdw, fun u hu => ?_⟩
    rw [hu] at g1 g2
    exact part_sat hT hm0 hl k0 k1 g1 g2

theorem rest_start {tr0 : Trigger} {st0 : SatState c.sat.rw.n} {e : V3} {theta0 : ℝ} (hqc : npNorm qc = 1)
    (h0 : Spec.AtRest qc tr0 st0 e theta0) :
    npNorm st0.attrs.attitude = 1 ∧ tr0.memory * errorQuat st0.attrs.attitude qc 0 = Real.cos (theta0 / 2) ∧
    -0.3 < Real.cos (theta0 / 2) ∧ theta0 / 2 ∈ Icc 0 Real.pi ∧
    across e (vecPart (tr0.memory • errorQuat st0.attrs.attitude qc)) st0.attrs.bodyAngVel ≤ 0 := by
  have he := h0.axis
  have hp0 : tr0.memory • errorQuat st0.attrs.attitude qc = Spec.offBy e theta0 := (signed_error h0.sign hqc).1 h0.attitude
  have hpi : theta0 / 2 ∈ Icc 0 Real.pi := by
    have := Real.arccos_le_pi (-0.3)
    exact ⟨by linarith [h0.nonneg], by linarith [h0.bound]⟩
  refine ⟨?_, congrFun hp0 0, ?_, hpi, ?_⟩
  · rw [← isUnit4_iff, h0.attitude]
    have h1 := isUnit4_product ((isUnit4_iff _).2 hqc) (offBy_unit he theta0)
    unfold IsUnit4 at h1 ⊢
    simp only [Pi.smul_apply, smul_eq_mul]
    rcases h0.sign with h | h <;> rw [h] <;> linarith
  · have h1 := Real.strictAntiOn_cos hpi ⟨Real.arccos_nonneg _, Real.arccos_le_pi _⟩ (show theta0 / 2 < Real.arccos (-0.3) by linarith [h0.bound])
    rwa [Real.cos_arccos (by norm_num) (by norm_num)] at h1
  · have hv : vecPart (tr0.memory • errorQuat st0.attrs.attitude qc) = Real.sin (theta0 / 2) • e := by
      rw [hp0]
      apply vec3_ext <;> simp [vecPart_0, vecPart_1, vecPart_2, Spec.offBy, cons4_2, cons4_3]
    rw [hv, h0.rest]
    unfold across
    simp only [smul_dotProduct, dotProduct_smul, he, zero_dotProduct, smul_eq_mul]
    ring_nf; rfl

/-- What holds all along a turn from rest. -/
theorem turn_limited (ha : 0 < c.alpha) (hg : 0 < c.gamma) (hb : Built c.sat mass dims ab cd) (hm : mass ≠ 0) (hT : 0 < T)
    (hw : LimitedWheels c.sat T) {e : V3} {m : ℝ} (hm0 : 0 < m) (hl : AxisLimit c T e m) {d κ : ℝ}
    (hr : ∀ x a b : ℝ, x ^ 2 + a ^ 2 = 1 → -0.3 ≤ x → |b| ≤ √(6 * c.alpha) →
      -(b * (sat m (c.alpha * a + c.gamma * b) - sat m (c.alpha * a))) +
        d * (-sat m (c.alpha * a + c.gamma * b) * bend (m / 2) (c.alpha * a)
          + 0.5 * c.alpha * x * max 0 (1 - (c.alpha * a) ^ 2 / (m / 2) ^ 2) * b ^ 2) ≤ -κ * slewW c.alpha m d x a b ∧
      slewV c.alpha m x b / 2 ≤ slewW c.alpha m d x a b)
    (hqc : npNorm qc = 1) {tr0 : Trigger} {st0 : SatState c.sat.rw.n} {theta0 : ℝ} (h0 : Spec.AtRest qc tr0 st0 e theta0)
    (hH : Spec.totalMomentum c.sat st0 = 0) {t : ℝ} {tr : Trigger} {st : SatState c.sat.rw.n} {n : ℕ}
    (hrun : Spec.WheelRun c qc tr0 st0 t tr st n) :
    n = 0 ∧ tr = tr0 ∧
      across e (vecPart (tr0.memory • errorQuat st.attrs.attitude qc)) st.attrs.bodyAngVel ≤ 0 ∧
      slewV c.alpha m (tr0.memory * errorQuat st.attrs.attitude qc 0) (st.attrs.bodyAngVel ⬝ᵥ e)
        ≤ pot c.alpha m (Real.cos (theta0 / 2)) ∧
      slewW c.alpha m d (tr0.memory * errorQuat st.attrs.attitude qc 0)
        (vecPart (tr0.memory • errorQuat st.attrs.attitude qc) ⬝ᵥ e) (st.attrs.bodyAngVel ⬝ᵥ e)
        ≤ pot c.alpha m (Real.cos (theta0 / 2)) * Real.exp (-κ * t) := by
  have he := h0.axis
  have hhw : 0 < tr0.halfWidth := by rw [h0.width]; norm_num
  obtain ⟨hu0, hx0, hcos, -, hac⟩ := rest_start hqc h0
  have hc1 := Real.cos_le_one (theta0 / 2)
  have hpot : 0 ≤ pot c.alpha m (Real.cos (theta0 / 2)) := by
    refine le_trans (mul_nonneg ?_ (by linarith)) (pot_bounds ha hm0 hc1).1
    exact (div_pos (by positivity) (lt_of_lt_of_le hm0 (le_max_left _ _))).le
  have hkeep := fun {t tr st n} (h : Spec.WheelRun c qc tr0 st0 t tr st n) => run_keeps hb hm hT.le hw hhw h0.sign hu0 h
  induction hrun with
  | start =>
    refine ⟨rfl, rfl, hac, ?_, ?_⟩
    · rw [hx0, h0.rest, zero_dotProduct]; simp [slewV]
    · rw [hx0, h0.rest, zero_dotProduct]; simp [slewW, slewV]
  | @flow t tr n st D hD hprev c1 c2 c3 h ih =>
    obtain ⟨i1, i2, i3, i4, i5⟩ := ih
    subst i2
    obtain ⟨-, -, -, u1, u2⟩ := hkeep hprev
    have hz : Spec.totalMomentum c.sat (st 0) = 0 := by
      by_contra hne
      have h1 := npNorm_pos hne
      rw [u2, hH] at h1
      simp [npNorm] at h1
    have hF := flow_part hb hm hT hw hqc hm0 hl h0.sign u1 hz c1 c2 c3 h
    have hP := hF.plane ha.le hg.le he i3
    refine ⟨i1, rfl, hF.axis ha.le hg.le he i3 ⟨hD, le_rfl⟩, ?_, ?_⟩
    · exact (hP.stays ha hg hm0 hcos.le hc1 i4 ⟨hD, le_rfl⟩).1
    · refine (hP.decays ha hg hm0 hr hD hcos.le hc1 i4 (mul_nonneg hpot (Real.exp_pos _).le) i5).trans (le_of_eq ?_)
      rw [mul_assoc, ← Real.exp_add]
      congr 2
      ring
  | @switch t tr tr' n st dd hprev hi hne ih =>
    obtain ⟨i1, i2, i3, i4, i5⟩ := ih
    subst i2
    have hst := (limited_instant hb hm hT.le hw hi).1
    obtain ⟨-, -, j3⟩ := trigger_switch h0.sign hhw (x := errorQuat st.attrs.attitude qc 0) (hst ▸ hne)
    obtain ⟨-, -, -, u1, -⟩ := hkeep hprev
    have hx1 : tr.memory * errorQuat st.attrs.attitude qc 0 ≤ 1 := by
      have := quat_dist h0.sign u1 hqc
      nlinarith [sq_nonneg (npNorm (st.attrs.attitude - tr.memory • qc))]
    have := (slewV_region ha hm0 hcos.le hc1 hx1 i4).1
    rw [h0.width, mul_comm] at j3
    linarith

end

/-- However small the limit of the wheels and whatever the gains: from rest, with no angular momentum, the satellite turns
about the one axis `e`, never farther from the command than at the start, without a switch of the sign, and comes to rest
in the command exponentially; the rate and the constant depend on the axis, not on the angle, nor on the command. -/
theorem C207_turn (c : RwController) (ha : 0 < c.alpha) (hg : 0 < c.gamma) {mass : ℝ} {dims : V3} {ab cd : ℝ}
    (hb : Built c.sat mass dims ab cd) (hm : mass ≠ 0) {T : ℝ} (hT : 0 < T) (hw : LimitedWheels c.sat T)
    (e : V3) (he : e ⬝ᵥ e = 1) :
    ∃ C > 0, ∃ κ > 0, ∀ (qc : V4), npNorm qc = 1 → ∀ (tr0 : Trigger) (st0 : SatState c.sat.rw.n) (theta0 : ℝ),
      Spec.AtRest qc tr0 st0 e theta0 → Spec.totalMomentum c.sat st0 = 0 →
      ∀ (t : ℝ) (tr : Trigger) (st : SatState c.sat.rw.n) (n : ℕ), Spec.WheelRun c qc tr0 st0 t tr st n →
        n = 0 ∧ tr = tr0 ∧
        (∃ theta rate : ℝ, |theta| ≤ theta0 ∧ st.attrs.attitude = tr0.memory • product qc (Spec.offBy e theta) ∧
          st.attrs.bodyAngVel = rate • e) ∧
        npNorm st.attrs.bodyAngVel + npNorm (st.attrs.attitude - tr0.memory • qc)
          ≤ C * npNorm (st0.attrs.attitude - tr0.memory • qc) * Real.exp (-κ * t) := by
  obtain ⟨m, hm0, hl⟩ := axisLimit_exists hb hT hw he
  obtain ⟨d, hd, κ, hκ, hr⟩ := slew_rate ha hg hm0 (B := √(6 * c.alpha)) (Real.sqrt_pos.2 (by positivity))
  set g := 2 * c.alpha * m / max m c.alpha with hgd
  have hg0 : 0 < g := div_pos (by positivity) (lt_of_lt_of_le hm0 (le_max_left _ _))
  set K := 2 * c.alpha * (4 + 4 / g) with hK
  have hK0 : 0 < K := by positivity
  refine ⟨√K, Real.sqrt_pos.2 hK0, κ / 2, by positivity, fun qc hqc tr0 st0 theta0 h0 hH t tr st n hrun => ?_⟩
  obtain ⟨r1, r2, r3, r4, r5⟩ := turn_limited ha hg hb hm hT hw hm0 hl hr hqc h0 hH hrun
  obtain ⟨hu0, hx0, hcos, hpi, -⟩ := rest_start hqc h0
  have hhw : 0 < tr0.halfWidth := by rw [h0.width]; norm_num
  obtain ⟨-, -, -, hut, -⟩ := run_keeps hb hm hT.le hw hhw h0.sign hu0 hrun
  have hc1 := Real.cos_le_one (theta0 / 2)
  set p := tr0.memory • errorQuat st.attrs.attitude qc with hp
  have hpu : IsUnit4 p := by
    have h1 := errorQuat_unit ((isUnit4_iff _).2 hut) ((isUnit4_iff _).2 hqc)
    unfold IsUnit4 at h1 ⊢
    simp only [hp, Pi.smul_apply, smul_eq_mul]
    rcases h0.sign with h | h <;> rw [h] <;> linarith
  obtain ⟨z1, z2⟩ := across_zero he r3
  have hpx : p 0 = tr0.memory * errorQuat st.attrs.attitude qc 0 := rfl
  have hx1 : p 0 ≤ 1 := (abs_le.1 (signed_unit_le hpu he).1).2
  have hreg := (slewV_region ha hm0 hcos.le hc1 hx1 r4).1
  refine ⟨r1, r2, ?_, ?_⟩
  · obtain ⟨theta, q1, q2, -, -⟩ := offBy_of hpu he z1
    refine ⟨theta, _, ?_, (signed_error h0.sign hqc).2 q1, z2⟩
    rw [q2]
    have h1 : Real.arccos (p 0) ≤ Real.arccos (Real.cos (theta0 / 2)) := Real.antitone_arccos hreg
    rw [Real.arccos_cos hpi.1 hpi.2] at h1
    linarith
  · set b := st.attrs.bodyAngVel ⬝ᵥ e with hb'
    have hw2 : npNorm st.attrs.bodyAngVel ^ 2 = b ^ 2 := by
      rw [← dot_self3]
      conv_lhs => rw [z2]
      rw [smul_dotProduct, dotProduct_smul, he]; simp only [smul_eq_mul]; ring
    have hd2 : npNorm (st.attrs.attitude - tr0.memory • qc) ^ 2 = 2 * (1 - p 0) := quat_dist h0.sign hut hqc
    have hd0 : npNorm (st0.attrs.attitude - tr0.memory • qc) ^ 2 = 2 * (1 - Real.cos (theta0 / 2)) := by
      rw [quat_dist h0.sign hu0 hqc, hx0]
    have hxm := (abs_le.1 (signed_unit_le hpu he).1).1
    have hua : p 0 ^ 2 + (vecPart p ⬝ᵥ e) ^ 2 = 1 := by
      have h1 := vecPart_unit hpu
      have h2 : vecPart p ⬝ᵥ vecPart p = (vecPart p ⬝ᵥ e) ^ 2 := by
        conv_lhs => rw [z1]
        rw [smul_dotProduct, dotProduct_smul, he]; simp only [smul_eq_mul]; ring
      linarith
    have hhalf := (hr (p 0) (vecPart p ⬝ᵥ e) b hua (by linarith) (slewV_region ha hm0 hcos.le hc1 hx1 r4).2).2
    have hlow := slewV_low (alpha := c.alpha) (b := b) ha hm0 hx1
    rw [← hgd] at hlow
    have hup := (pot_bounds ha hm0 hc1).2
    have hE := Real.exp_pos (-κ * t)
    have hV : slewV c.alpha m (p 0) b ≤ 2 * c.alpha * npNorm (st0.attrs.attitude - tr0.memory • qc) ^ 2 * Real.exp (-κ * t) := by
      have h1 := mul_le_mul_of_nonneg_right hup hE.le
      rw [hd0]
      rw [← hpx] at r5
      linarith
    have hE2 : Real.exp (-(κ / 2) * t) ^ 2 = Real.exp (-κ * t) := by
      rw [← Real.exp_nat_mul]; congr 1; push_cast; ring
    refine abs_le_of_sq_le_sq' ?_ (by have := npNorm_nonneg (st0.attrs.attitude - tr0.memory • qc); positivity) |>.2
    have hsq : (√K * npNorm (st0.attrs.attitude - tr0.memory • qc) * Real.exp (-(κ / 2) * t)) ^ 2 =
        K * npNorm (st0.attrs.attitude - tr0.memory • qc) ^ 2 * Real.exp (-κ * t) := by
      rw [mul_pow, mul_pow, Real.sq_sqrt hK0.le, hE2]
    rw [hsq]
    have h1 : (npNorm st.attrs.bodyAngVel + npNorm (st.attrs.attitude - tr0.memory • qc)) ^ 2 ≤
        2 * (b ^ 2 + 2 * (1 - p 0)) := by
      rw [← hw2, ← hd2]
      nlinarith [sq_nonneg (npNorm st.attrs.bodyAngVel - npNorm (st.attrs.attitude - tr0.memory • qc))]
    have h2 : 2 * (b ^ 2 + 2 * (1 - p 0)) ≤ (4 + 4 / g) * (b ^ 2 / 2 + g * (1 - p 0)) := by
      have e1 : (4 + 4 / g) * (b ^ 2 / 2 + g * (1 - p 0)) =
          2 * b ^ 2 + 4 * g * (1 - p 0) + 2 * b ^ 2 / g + 4 * (1 - p 0) := by field_simp; ring
      have t1 : 0 ≤ 2 * b ^ 2 / g := by positivity
      have t2 : 0 ≤ 4 * g * (1 - p 0) := mul_nonneg (by positivity) (by linarith)
      rw [e1]; linarith
    have h3 := mul_le_mul_of_nonneg_left (hlow.trans hV) (by positivity : 0 ≤ 4 + 4 / g)
    calc _ ≤ _ := h1
      _ ≤ _ := h2
      _ ≤ _ := h3
      _ = _ := by rw [hK]; ring

end Adcs
