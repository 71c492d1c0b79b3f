import Verif.Props.LimitedTrack
import Verif.Props.RollIn
import Verif.Props.KeepOut
import Verif.Props.Torquers

set_option autoImplicit false

/-! # C205: the motions with limited wheels exist -/

namespace Adcs

open Str Sens JDay Quat Vec Dyn Ctl Spec Set Filter Topology
open scoped Matrix

/-- The state with other speeds of the wheels. -/
def setWheels {n : ℕ} (st : SatState n) (w : Fin n → ℝ) : SatState n := { st with attrs := { st.attrs with wheelVel := w } }

section
variable {c : RwController} {mass : ℝ} {dims : V3} {ab cd : ℝ} {T : ℝ} {qc : V4}

/-- Within the limit: the accelerations, in closed form. -/
noncomputable def wheelAccel (c : RwController) (cmd : V3) : Fin c.sat.rw.n → ℝ := fun i =>
  (c.sat.rw.distribution *ᵥ cmd) i / (c.sat.rw.wheels i).parScalar

theorem accel_within (hT : 0 ≤ T) (hw : LimitedWheels c.sat T) (cmd : V3)
    (h : ∀ i, |(c.sat.rw.distribution *ᵥ cmd) i| ≤ T) :
    c.sat.rw.accelerations cmd = .ok (wheelAccel c cmd) := by
  obtain ⟨a, h1, -⟩ := (twin_wheels hw).accelerations cmd
  have h2 := twin_accelerations hT hw cmd h
  have h3 : c.sat.rw.accelerations cmd = .ok a := h2.symm.trans h1
  rw [h3]
  congr 1
  have h4 : pyForall (fun i => (c.sat.rw.wheels i).acceleration ((c.sat.rw.distribution *ᵥ cmd) i)) = .ok a := h1
  have h5 := (pyForall_ok (n := c.sat.rw.n) (g := a)).1 h4
  funext i
  have := h5 i
  unfold Wheel.acceleration npDiv at this
  split_ifs at this
  exact (Except.ok.inj this).symm

theorem accel_torque (hw : LimitedWheels c.sat T) (cmd : V3) : c.sat.rw.torque (wheelAccel c cmd) = cmd := by
  obtain ⟨a, h1, h2⟩ := (twin_wheels hw).accelerations cmd
  have h4 : pyForall (fun i => (c.sat.rw.wheels i).acceleration ((c.sat.rw.distribution *ᵥ cmd) i)) = .ok a := h1
  have h5 := (pyForall_ok (n := c.sat.rw.n) (g := a)).1 h4
  have e : a = wheelAccel c cmd := by
    funext i
    have := h5 i
    unfold Wheel.acceleration npDiv at this
    split_ifs at this
    exact (Except.ok.inj this).symm
  rw [← e]
  exact h2

/-- The same instant with other speeds of the wheels, within the limit. -/
theorem relaunch (hb : Built c.sat mass dims ab cd) (hm : mass ≠ 0) (hT : 0 ≤ T) (hw : LimitedWheels c.sat T)
    {tr tr' : Trigger} {st : SatState c.sat.rw.n} {d : Raw c.sat.rw.n}
    (h : Spec.Instant (unlimitedTwin c) qc 0 tr tr' st d) (w : Fin c.sat.rw.n → ℝ)
    (hl : ∀ i, |(c.sat.rw.distribution *ᵥ lawAt c qc tr'.memory (setWheels st w)) i| ≤ T) :
    ∃ d', Spec.Instant c qc 0 tr tr' (setWheels st w) d' ∧ d'.att = d.att ∧ d'.rate = d.rate ∧
      d'.whl = wheelAccel c (-lawAt c qc tr'.memory (setWheels st w)) := by
  obtain ⟨hst, hatt, x, hx, hrate⟩ := instant_eq (twin_built hb) hm (twin_wheels hw) h
  have hx0 : x = 0 := by
    by_contra hne
    exact absurd hx (not_le.2 (npNorm_pos hne))
  obtain ⟨s, objs, law, c', a, F, To, hs, hobj, hcl, -, -, -, hTo, -⟩ := h
  have hT0 : To = 0 := by
    have h0 : c.sat.invTotMoment *ᵥ To = 0 := by
      by_contra hne
      exact absurd hTo (not_le.2 (npNorm_pos hne))
    have := congrArg (c.sat.totalMoment *ᵥ ·) h0
    simpa [Matrix.mulVec_mulVec, hb.inverse] using this
  have hobj2 : ({ c with trigger := tr } : RwController).objects { s with whl := w } = .ok objs := hobj
  set L := lawAt c qc tr'.memory (setWheels st w) with hL
  obtain ⟨d', hd', -, hwh, hatt', hr'⟩ := derivative_rate hb hm (setWheels st w) L F To (wheelAccel c (-L))
    (accel_torque hw (-L))
  refine ⟨d', ⟨{ s with whl := w }, objs, L, { c with trigger := (tr.sign (errorQuat s.att qc 0)).2 },
    wheelAccel c (-L), F, To, ⟨hs.1, hs.2.1, rfl⟩, hobj2, hcl, ?_, ?_, accel_within hT hw (-L) ?_, hTo, hd'⟩, ?_, ?_, hwh⟩
  · rw [tracking_clear hobj2 hcl,
      tracking_plain (c := { c with trigger := tr, objAvoidance := false }) rfl hobj2]
    refine Prod.ext ?_ rfl
    simp only [Except.ok.injEq]
    have hsg : (tr.sign (errorQuat s.att qc 0)).1 = tr'.memory := by rw [hst, ← hs.1]; rfl
    have z : ∀ q : V4, sandwich q 0 = 0 := fun q => by rw [sandwich_eq_dcm, Matrix.mulVec_zero]
    have hzc : ∀ v : V3, npCross v 0 = 0 := fun v => by rw [npCross_eq_crossProduct, LinearMap.map_zero]
    rw [hsg, z, hzc, add_zero, sub_zero, sub_zero, hs.1, hs.2.1]
    rfl
  · rw [hst, hs.1]; rfl
  · intro i
    rw [Matrix.mulVec_neg, Pi.neg_apply, abs_neg]
    exact hl i
  · rw [hatt', hatt]; rfl
  · rw [hr', hrate, hx0, add_zero, hT0, zero_add]
    have e : L - npCross (setWheels st w).attrs.bodyAngVel
        (c.sat.totalMoment *ᵥ (setWheels st w).attrs.bodyAngVel + c.sat.rw.momentum (setWheels st w).attrs.wheelVel) =
        c.sat.totalMoment *ᵥ ((-tr'.memory * c.alpha) • vecPart (errorQuat st.attrs.attitude qc)
          - c.gamma • st.attrs.bodyAngVel) := by
      rw [hL, lawAt, Spec.totalMomentum, add_sub_cancel_left]; rfl
    rw [e, Matrix.mulVec_mulVec, hb.inverse', Matrix.one_mulVec, neg_mul]
    rfl

/-- The angular momentum seen from the body: the inertial vector does not move. -/
theorem inertial_turns {q : ℝ → V4} {w : V3} {t : ℝ} (o : V3)
    (hq : HasDerivAt q ((0.5 : ℝ) • product (q t) (pureQ w)) t) :
    HasDerivAt (fun τ => sandwich (q τ) o) (-npCross w (sandwich (q t) o)) t :=
  hasDerivWithinAt_univ.1 (sandwich_right o hq.hasDerivWithinAt)

/-- Speeds of the wheels that follow the commands. -/
theorem wheels_follow (hb : Built c.sat mass dims ab cd) (hw : LimitedWheels c.sat T) {sgn D : ℝ}
    (hD : 0 ≤ D) {q : ℝ → V4} {w : ℝ → V3} (c1 : ContinuousOn q (Icc 0 D)) (c2 : ContinuousOn w (Icc 0 D))
    (hu : npNorm (q 0) = 1)
    (hq : ∀ τ ∈ Ico 0 D, HasDerivAt q ((0.5 : ℝ) • product (q τ) (pureQ (w τ))) τ)
    (hwd : ∀ τ ∈ Ico 0 D, HasDerivAt w (-(sgn * c.alpha) • vecPart (errorQuat (q τ) qc) - c.gamma • w τ) τ)
    (w0 : Fin c.sat.rw.n → ℝ) :
    ∃ W : ℝ → Fin c.sat.rw.n → ℝ, W 0 = w0 ∧ ContinuousOn W (Icc 0 D) ∧
      ∀ τ ∈ Icc 0 D, npNorm (c.sat.totalMoment *ᵥ w τ + c.sat.rw.momentum (W τ)) =
          npNorm (c.sat.totalMoment *ᵥ w 0 + c.sat.rw.momentum w0) ∧
        (τ < D → HasDerivAt W (wheelAccel c (-(npCross (w τ) (c.sat.totalMoment *ᵥ w τ + c.sat.rw.momentum (W τ)) +
          c.sat.totalMoment *ᵥ ((-sgn * c.alpha) • vecPart (errorQuat (q τ) qc) - c.gamma • w τ)))) τ) := by
  set J := c.sat.totalMoment with hJ
  set h := sandwichOpp (q 0) (J *ᵥ w 0 + c.sat.rw.momentum w0) with hh
  set H := fun τ => sandwich (q τ) h with hH
  set u := fun τ => (-sgn * c.alpha) • vecPart (errorQuat (q τ) qc) - c.gamma • w τ with hu'
  set L := fun τ => npCross (w τ) (H τ) + J *ᵥ u τ with hL
  set a := fun τ => wheelAccel c (-L τ) with ha
  have cH : ContinuousOn H (Icc 0 D) := sandwich_contOn c1 h
  have ku : ContinuousOn u (Icc 0 D) := by
    have k1 := continuousOn_pi.1 c1
    have a0 := k1 0; have a1 := k1 1; have a2 := k1 2; have a3 := k1 3
    refine ContinuousOn.sub (ContinuousOn.fun_const_smul (continuousOn_pi.2 fun i => ?_) _) (c2.const_smul c.gamma : ContinuousOn (fun τ => c.gamma • w τ) _)
    fin_cases i
    · simp only [Fin.zero_eta, vecPart_0, errorQuat, product_1, conjugate_0, conjugate_1, conjugate_2, conjugate_3]; fun_prop
    · simp only [Fin.mk_one, vecPart_1, errorQuat, product_2, conjugate_0, conjugate_1, conjugate_2, conjugate_3]; fun_prop
    · change ContinuousOn (fun τ => vecPart (errorQuat (q τ) qc) 2) _
      simp only [vecPart_2, errorQuat, product_3, conjugate_0, conjugate_1, conjugate_2, conjugate_3]; fun_prop
  have cL : ContinuousOn L (Icc 0 D) := by
    have k2 := continuousOn_pi.1 c2
    have kH := continuousOn_pi.1 cH
    have k3 := continuousOn_pi.1 ku
    have b0 := k2 0; have b1 := k2 1; have b2 := k2 2
    have d0 := kH 0; have d1 := kH 1; have d2 := kH 2
    have e0 := k3 0; have e1 := k3 1; have e2 := k3 2
    refine ContinuousOn.add (continuousOn_pi.2 fun i => ?_) (continuousOn_pi.2 fun i => ?_)
    · fin_cases i
      · simp only [Fin.zero_eta, npCross_0]; fun_prop
      · simp only [Fin.mk_one, npCross_1]; fun_prop
      · change ContinuousOn (fun τ => npCross (w τ) (H τ) 2) _
        simp only [npCross_2]; fun_prop
    · simp only [Matrix.mulVec, dotProduct, Fin.sum_univ_three]; fun_prop
  have ca : ContinuousOn a (Icc 0 D) := by
    refine continuousOn_pi.2 fun i => ?_
    have kL := continuousOn_pi.1 cL
    have e0 := kL 0; have e1 := kL 1; have e2 := kL 2
    simp only [ha, wheelAccel, Matrix.mulVec, dotProduct, Fin.sum_univ_three, Pi.neg_apply]
    fun_prop
  set A := IccExtend hD ((Icc 0 D).domRestrict a) with hA
  have cA : Continuous A := (continuousOn_iff_continuous_domRestrict.1 ca).Icc_extend'
  have eA : ∀ τ ∈ Icc 0 D, A τ = a τ := fun τ hτ => IccExtend_of_mem hD _ hτ
  set W := fun τ => w0 + ∫ x in (0 : ℝ)..τ, A x with hW
  have hWd : ∀ τ, HasDerivAt W (A τ) τ := fun τ =>
    (intervalIntegral.integral_hasDerivAt_right (cA.intervalIntegrable _ _) (cA.stronglyMeasurableAtFilter _ _)
      cA.continuousAt).const_add w0
  have hW0 : W 0 = w0 := by simp [hW]
  have cW : Continuous W := continuous_iff_continuousAt.2 fun τ => (hWd τ).continuousAt
  have hsum : ∀ τ ∈ Icc 0 D, J *ᵥ w τ + c.sat.rw.momentum (W τ) = H τ := by
    have hz : ∀ τ ∈ Ico 0 D, HasDerivAt (fun τ => J *ᵥ w τ + c.sat.rw.momentum (W τ) - H τ) 0 τ := by
      intro τ hτ
      have h1 := hasDerivAt_mulVec3 (J := J) (hwd τ hτ)
      have h2 := hasDerivAt_momentum c.sat (hWd τ)
      have h3 := inertial_turns h (hq τ hτ)
      refine ((h1.fun_add h2).fun_sub h3).congr_deriv ?_
      rw [eA τ ⟨hτ.1, hτ.2.le⟩, ha]
      simp only
      rw [accel_torque hw, hL]
      simp only [hu', neg_mul]
      abel
    have hc : ContinuousOn (fun τ => J *ᵥ w τ + c.sat.rw.momentum (W τ) - H τ) (Icc 0 D) := by
      refine ContinuousOn.sub (ContinuousOn.add ?_ ?_) cH
      · refine continuousOn_pi.2 fun i => ?_
        have k2 := continuousOn_pi.1 c2
        have b0 := k2 0; have b1 := k2 1; have b2 := k2 2
        simp only [Matrix.mulVec, dotProduct, Fin.sum_univ_three]; fun_prop
      · exact (continuous_iff_continuousAt.2 fun τ => (hasDerivAt_momentum c.sat (hWd τ)).continuousAt).continuousOn
    intro τ hτ
    have := constant_of_has_deriv_right_zero hc (fun t ht => (hz t ht).hasDerivWithinAt) τ hτ
    have e0 : H 0 = J *ᵥ w 0 + c.sat.rw.momentum w0 := sandwich_sandwichOpp ((isUnit4_iff _).2 hu) _
    rw [hW0, ← e0, sub_self] at this
    exact sub_eq_zero.1 this
  refine ⟨W, hW0, cW.continuousOn, fun τ hτ => ⟨?_, fun hlt => ?_⟩⟩
  · have hn : npNorm (q τ) = 1 := by
      have := norm_flow hτ.1 (c1.mono (Icc_subset_Icc_right hτ.2)) (fun σ hσ => hq σ ⟨hσ.1, hσ.2.trans_le hτ.2⟩)
      rw [this, hu]
    rw [hsum τ hτ, hH, norm_sandwich hn, hh, opp_norm hu]
  · rw [hsum τ hτ]
    have := hWd τ
    rw [eA τ hτ] at this
    exact this

theorem setWheels_self {n : ℕ} (st : SatState n) : setWheels st st.attrs.wheelVel = st := rfl

/-- A run with unlimited wheels that begins in the region where the limit does not bind is one with limited wheels, once
their speeds follow the commands. -/
theorem run_lifts (ha : 0 < c.alpha) (hg : 0 < c.gamma) (hb : Built c.sat mass dims ab cd) (hm : mass ≠ 0) (hT : 0 ≤ T)
    (hw : LimitedWheels c.sat T) {j : ℝ} (hj : 0 ≤ j)
    (hjb : ∀ x, npNorm (c.sat.totalMoment *ᵥ x) ≤ j * npNorm x) {ks : ℝ} (hks0 : 0 ≤ ks)
    (hks : ∀ (x : V3) i, |(c.sat.rw.distribution *ᵥ x) i| ≤ ks * npNorm x) {B V : ℝ}
    (hV : ks * (√(2 * V) * B + j * (√(c.alpha * V) + c.gamma * √(2 * V))) ≤ T) (hqc : npNorm qc = 1)
    {tr0 tr : Trigger} {st0 st : SatState (unlimitedTwin c).sat.rw.n} {t : ℝ} {n : ℕ} (hh : 0 < tr0.halfWidth)
    (hm0 : tr0.memory = 1 ∨ tr0.memory = -1) (hu : npNorm st0.attrs.attitude = 1)
    (hB : npNorm (Spec.totalMomentum c.sat st0) ≤ B)
    (h0 : lyap c.alpha tr0.memory (errorQuat st0.attrs.attitude qc 0) st0.attrs.bodyAngVel < V)
    (hrun : Spec.LoopRun (unlimitedTwin c) qc 0 tr0 st0 t tr st n) :
    ∃ w, Spec.WheelRun c qc tr0 st0 t tr (setWheels st w) n := by
  have hyb := fun {t tr} {st : SatState c.sat.rw.n} {n} (h : Spec.LoopRun (unlimitedTwin c) qc 0 tr0 st0 t tr st n) =>
    LoopRun.hybrid (twin_built hb) hm (twin_wheels hw) hh hm0 h
  have hlow := fun {t tr} {st : SatState c.sat.rw.n} {n} (h : Spec.LoopRun (unlimitedTwin c) qc 0 tr0 st0 t tr st n) =>
    C69_run hg.le ha hqc hm0 hu (hyb h).2.2
  have hlow' : ∀ {t tr} {st : SatState c.sat.rw.n} {n}, Spec.LoopRun (unlimitedTwin c) qc 0 tr0 st0 t tr st n →
      lyap c.alpha tr.memory (errorQuat st.attrs.attitude qc 0) st.attrs.bodyAngVel < V := by
    intro t tr st n h
    have h1 := (hlow h).2.2.1
    have h2 : 0 ≤ 4 * c.alpha * tr0.halfWidth * n := by positivity
    refine lt_of_le_of_lt ?_ h0
    refine le_trans ?_ h1
    exact le_add_of_nonneg_right h2
  have hkeep := fun {t tr st n} (h : Spec.WheelRun c qc tr0 st0 t tr st n) => run_keeps hb hm hT hw hh hm0 hu h
  induction hrun with
  | start => exact ⟨st0.attrs.wheelVel, .start⟩
  | @flow t tr n st D hD hprev c1 c2 h ih =>
    obtain ⟨w0, hw0⟩ := ih
    obtain ⟨-, i1, -, i3, i4⟩ := hkeep hw0
    have hin : ∀ τ ∈ Ico 0 D,
        HasDerivAt (fun τ => (st τ).attrs.attitude) ((0.5 : ℝ) • product (st τ).attrs.attitude (pureQ (st τ).attrs.bodyAngVel)) τ ∧
        HasDerivAt (fun τ => (st τ).attrs.bodyAngVel)
          (-(tr.memory * c.alpha) • vecPart (errorQuat (st τ).attrs.attitude qc) - c.gamma • (st τ).attrs.bodyAngVel) τ := by
      intro τ hτ
      obtain ⟨d, hi, d1, d2⟩ := h τ hτ
      obtain ⟨-, hatt, x, hx, hr⟩ := instant_eq (twin_built hb) hm (twin_wheels hw) hi
      have hx0 : x = 0 := by
        by_contra hne
        exact absurd hx (not_le.2 (npNorm_pos hne))
      refine ⟨hatt ▸ d1, ?_⟩
      rw [hr, hx0, add_zero] at d2
      exact d2
    obtain ⟨W, hW0, cW, hW⟩ := wheels_follow (qc := qc) (sgn := tr.memory) hb hw hD c1 c2 i3 (fun τ hτ => (hin τ hτ).1)
      (fun τ hτ => (hin τ hτ).2) w0
    refine ⟨W D, Spec.WheelRun.flow (c := c) (fun τ => setWheels (st τ) (W τ)) D hD
      (by simpa only [hW0] using hw0) c1 c2 cW ?_⟩
    intro τ hτ
    have hτ' : τ ∈ Icc 0 D := ⟨hτ.1, hτ.2.le⟩
    obtain ⟨d, hi, d1, d2⟩ := h τ hτ
    have hpre : Spec.LoopRun (unlimitedTwin c) qc 0 tr0 st0 (t + τ) tr (st τ) n :=
      Spec.LoopRun.flow (c := unlimitedTwin c) st τ hτ.1 hprev (c1.mono (Icc_subset_Icc_right hτ.2.le))
        (c2.mono (Icc_subset_Icc_right hτ.2.le)) fun σ hσ => h σ ⟨hσ.1, hσ.2.trans hτ.2⟩
    have hmom : npNorm (Spec.totalMomentum c.sat (setWheels (st τ) (W τ))) ≤ B :=
      ((hW τ hτ').1.le.trans i4.le).trans hB
    obtain ⟨d', hi', e1, e2, e3⟩ := relaunch hb hm hT hw hi (W τ)
      (within (st := setWheels (st τ) (W τ)) ha hg hj hjb hks0 hks hV hqc (hlow hpre).2.1 i1 i1 hmom (hlow' hpre).le)
    refine ⟨d', hi', e1 ▸ d1, e2 ▸ d2, ?_⟩
    rw [e3]
    exact (hW τ hτ').2 hτ.2
  | @switch t tr tr' n st d hprev hi hne ih =>
    obtain ⟨w0, hw0⟩ := ih
    obtain ⟨-, i1, -, i3, i4⟩ := hkeep hw0
    have hs' := (hyb (Spec.LoopRun.switch (c := unlimitedTwin c) hprev hi hne)).2.1
    obtain ⟨d', hi', -⟩ := relaunch hb hm hT hw hi w0
      (within (st := setWheels st w0) ha hg hj hjb hks0 hks hV hqc i3 i1 hs' (i4.le.trans hB) (hlow' hprev).le)
    exact ⟨w0, .switch hw0 hi' hne⟩

end

/-- In the region of `C205_near` there is a motion for as long as one likes. -/
theorem C205_exists (c : RwController) (ha : 0 < c.alpha) (hg : 0 < c.gamma) {mass : ℝ} {dims : V3} {ab cd : ℝ}
    (hb : Built c.sat mass dims ab cd) (hm : mass ≠ 0) {T : ℝ} (hT : 0 ≤ T) (hw : LimitedWheels c.sat T)
    (hav : c.objAvoidance = false) (s0 : Measurements c.sat.rw.n) (objs0 : List V3) (hobj : c.objects s0 = .ok objs0)
    {j ks B V : ℝ} (hj : 0 ≤ j) (hks0 : 0 ≤ ks) (hjb : ∀ x, npNorm (c.sat.totalMoment *ᵥ x) ≤ j * npNorm x)
    (hks : ∀ (x : V3) i, |(c.sat.rw.distribution *ᵥ x) i| ≤ ks * npNorm x)
    (hV : ks * (√(2 * V) * B + j * (√(c.alpha * V) + c.gamma * √(2 * V))) ≤ T) (qc : V4) (hqc : npNorm qc = 1)
    (tr0 : Trigger) (hh : 0 < tr0.halfWidth) (hm0 : tr0.memory = 1 ∨ tr0.memory = -1) (st0 : SatState c.sat.rw.n)
    (hu : npNorm st0.attrs.attitude = 1) (hB : npNorm (Spec.totalMomentum c.sat st0) ≤ B)
    (h0 : Spec.trackError c.alpha tr0.memory qc st0 < V) (t : ℝ) (ht : 0 ≤ t) :
    ∃ tr st n, Spec.WheelRun c qc tr0 st0 t tr st n := by
  obtain ⟨tr, st, n, h⟩ := C140_exists (unlimitedTwin c) ha hg.le (twin_built hb) hm (twin_wheels hw) hav s0 objs0 hobj qc hqc
    tr0 hh hm0 st0 hu t ht
  obtain ⟨w, hr⟩ := run_lifts ha hg hb hm hT hw hj hjb hks0 hks hV hqc hh hm0 hu hB
    (by rw [← trackError_eq hm0 hqc hu]; exact h0) h
  exact ⟨tr, _, n, hr⟩

/-! ## How long it takes -/

theorem npNorm_sum3 {n : ℕ} (f : Fin n → V3) : npNorm (∑ i, f i) ≤ ∑ i, npNorm (f i) := by
  classical
  induction (Finset.univ : Finset (Fin n)) using Finset.induction with
  | empty => simp [npNorm]
  | insert a s ha ih =>
    rw [Finset.sum_insert ha, Finset.sum_insert ha]
    exact (npNorm_add3 _ _).trans (add_le_add_right ih _)

/-- What the wheels can deliver together. -/
theorem delivered_le {c : RwController} {T : ℝ} (hT : 0 ≤ T) (hw : LimitedWheels c.sat T) (cmd : V3)
    (h : ∀ i, |(c.sat.rw.distribution *ᵥ cmd) i| ≤ T) :
    npNorm cmd ≤ (∑ i, npNorm (c.sat.rw.wheels i).axis) * T := by
  have e := accel_torque hw cmd
  rw [← e]
  refine (npNorm_sum3 _).trans ?_
  rw [Finset.sum_mul]
  refine Finset.sum_le_sum fun i _ => ?_
  have e2 : (c.sat.rw.wheels i).torque (wheelAccel c cmd i) =
      ((wheelAccel c cmd i) * (c.sat.rw.wheels i).parScalar) • (c.sat.rw.wheels i).axis := by
    funext m
    simp only [Wheel.torque, Pi.smul_apply, smul_eq_mul]
    ring
  rw [e2, npNorm_smul, mul_comm]
  refine mul_le_mul_of_nonneg_left ?_ (npNorm_nonneg _)
  by_cases hp : (c.sat.rw.wheels i).parScalar = 0
  · rw [hp, mul_zero, abs_zero]; exact hT
  · rw [wheelAccel, div_mul_cancel₀ _ hp]; exact h i

/-- A quantity whose square root falls at most at the rate `r`. -/
theorem sqrt_falls {f : ℝ → ℝ} {D r : ℝ} (hD : 0 ≤ D) (hr : 0 ≤ r) (hf : ∀ t, 0 ≤ f t) (hc : ContinuousOn f (Icc 0 D))
    (h : ∀ t ∈ Ico 0 D, ∃ f', HasDerivAt f f' t ∧ -(2 * r * √(f t)) ≤ f') : √(f 0) - r * D ≤ √(f D) := by
  have key : ∀ e > 0, √(f 0) ≤ √(f D + e) + r * D := by
    intro e he
    have hmono : MonotoneOn (fun t => √(f t + e) + r * t) (Icc 0 D) := by
      refine monotoneOn_of_deriv_nonneg (convex_Icc 0 D) ?_ ?_ ?_
      · exact ((hc.add continuousOn_const).sqrt).add (continuousOn_const.mul continuousOn_id)
      · intro t ht
        rw [interior_Icc] at ht
        obtain ⟨f', hf', -⟩ := h t ⟨ht.1.le, ht.2⟩
        have hpos : f t + e ≠ 0 := by have := hf t; linarith
        exact (((hf'.add_const e).sqrt hpos).add ((hasDerivAt_id t).const_mul r)).differentiableAt.differentiableWithinAt
      · intro t ht
        rw [interior_Icc] at ht
        obtain ⟨f', hf', hb⟩ := h t ⟨ht.1.le, ht.2⟩
        have hpos : 0 < f t + e := by have := hf t; linarith
        have hs : 0 < √(f t + e) := Real.sqrt_pos.2 hpos
        have hd := ((hf'.add_const e).sqrt hpos.ne').fun_add ((hasDerivAt_id t).const_mul r)
        have hd' : deriv (fun t => √(f t + e) + r * t) t = f' / (2 * √(f t + e)) + r * 1 := hd.deriv
        rw [hd', mul_one]
        have h1 : √(f t) ≤ √(f t + e) := Real.sqrt_le_sqrt (by linarith)
        have h2 : -r ≤ f' / (2 * √(f t + e)) := by
          rw [le_div_iff₀ (by positivity)]
          have := mul_le_mul_of_nonneg_left h1 hr
          linarith
        linarith
    have h1 := hmono (left_mem_Icc.2 hD) (right_mem_Icc.2 hD) hD
    simp only [mul_zero, add_zero] at h1
    exact (Real.sqrt_le_sqrt (by linarith)).trans h1
  have hlim : Tendsto (fun e => √(f D + e) + r * D) (𝓝[>] 0) (𝓝 (√(f D) + r * D)) := by
    have : Continuous fun e : ℝ => √(f D + e) + r * D := by fun_prop
    have h0 := this.tendsto 0
    simp only [add_zero] at h0
    exact h0.mono_left nhdsWithin_le_nhds
  have := ge_of_tendsto hlim (by filter_upwards [self_mem_nhdsWithin] with e he using key e he)
  linarith

/-- It takes time to stop: with the limit `T`, the square root of the kinetic energy falls at most at the rate
`S T / √(2 mu)`, where `S` is the sum of the lengths of the wheels' axes and `mu` a lower bound of the inertia. -/
theorem C205_takes_time (c : RwController) {mass : ℝ} {dims : V3} {ab cd : ℝ} (hb : Built c.sat mass dims ab cd)
    (hm : mass ≠ 0) {T : ℝ} (hT : 0 ≤ T) (hw : LimitedWheels c.sat T) (hJ : c.sat.totalMoment.PosDef) {mu : ℝ} (hmu : 0 < mu)
    (hmub : ∀ x : V3, mu * (x ⬝ᵥ x) ≤ x ⬝ᵥ c.sat.totalMoment *ᵥ x) (qc : V4)
    (tr0 tr : Trigger) (st0 st : SatState c.sat.rw.n) (t : ℝ) (n : ℕ) (hrun : Spec.WheelRun c qc tr0 st0 t tr st n) :
    √(Spec.turnEnergy c.sat st0) - (∑ i, npNorm (c.sat.rw.wheels i).axis) * T / √(2 * mu) * t ≤
      √(Spec.turnEnergy c.sat st) := by
  set S := ∑ i, npNorm (c.sat.rw.wheels i).axis with hS
  have hS0 : 0 ≤ S := Finset.sum_nonneg fun i _ => npNorm_nonneg _
  have hnn : ∀ st : SatState c.sat.rw.n, 0 ≤ Spec.turnEnergy c.sat st := fun st =>
    div_nonneg (psd_nonneg hJ.posSemidef _) (by norm_num)
  have hmu2 : 0 < √(2 * mu) := Real.sqrt_pos.2 (by linarith)
  induction hrun with
  | start => simp
  | @flow t tr n st D hD _ c1 c2 c3 h ih =>
    have := sqrt_falls (f := fun τ => Spec.turnEnergy c.sat (st τ)) (r := S * T / √(2 * mu)) hD (by positivity)
      (fun τ => hnn _) (turnEnergy_continuousOn c2) (fun τ hτ => by
        obtain ⟨d, hi, -, d2, -⟩ := h τ hτ
        obtain ⟨-, -, k, -, -, -, hr, hsh, -⟩ := limited_instant hb hm hT hw hi
        set J := c.sat.totalMoment with hJd
        set w := (st τ).attrs.bodyAngVel with hwd
        set L := k • lawAt c qc tr.memory (st τ) with hL
        have hLle : npNorm L ≤ S * T := delivered_le hT hw L fun i => by
          rw [hL, Matrix.mulVec_smul]; exact hsh i
        have hsym : ∀ x y : V3, x ⬝ᵥ J *ᵥ y = y ⬝ᵥ J *ᵥ x := fun x y => by
          rw [Matrix.dotProduct_mulVec, ← Matrix.mulVec_transpose, psd_symm hJ.posSemidef, dotProduct_comm]
        have hder : HasDerivAt (fun τ => Spec.turnEnergy c.sat (st τ)) (w ⬝ᵥ L) τ := by
          refine ((hasDerivAt_dot3 d2 (hasDerivAt_mulVec3 (J := J) d2)).div_const 2).congr_deriv ?_
          rw [hsym d.rate, hr, Matrix.mulVec_mulVec, hb.inverse, Matrix.one_mulVec, dotProduct_sub]
          have hz : ∀ v : V3, w ⬝ᵥ npCross w v = 0 := fun v => by
            simp only [Matrix.vec3_dotProduct, npCross_0, npCross_1, npCross_2]; ring
          rw [hz, sub_zero]
          ring
        refine ⟨_, hder, ?_⟩
        have h1 := (abs_le.1 (dot_bound w L)).1
        have h2 : npNorm w ≤ √(2 * Spec.turnEnergy c.sat (st τ) / mu) := by
          refine Real.le_sqrt_of_sq_le ?_
          rw [le_div_iff₀ hmu, ← dot_self3, mul_comm]
          have := hmub w
          rw [Spec.turnEnergy]
          linarith
        have h3 : npNorm w * npNorm L ≤ √(2 * Spec.turnEnergy c.sat (st τ) / mu) * (S * T) :=
          mul_le_mul h2 hLle (npNorm_nonneg _) (Real.sqrt_nonneg _)
        have h4 : √(2 * Spec.turnEnergy c.sat (st τ) / mu) * (S * T) =
            2 * (S * T / √(2 * mu)) * √(Spec.turnEnergy c.sat (st τ)) := by
          have e1 : 2 * Spec.turnEnergy c.sat (st τ) / mu = 4 * Spec.turnEnergy c.sat (st τ) / (2 * mu) := by
            field_simp; ring
          rw [e1, Real.sqrt_div' _ (by positivity), Real.sqrt_mul (by norm_num)]
          have e4 : √(4 : ℝ) = 2 := by
            rw [show (4 : ℝ) = 2 ^ 2 by norm_num, Real.sqrt_sq (by norm_num)]
          rw [e4]
          field_simp
        linarith)
    have e : S * T / √(2 * mu) * (t + D) = S * T / √(2 * mu) * t + S * T / √(2 * mu) * D := by ring
    rw [e]
    linarith
  | switch _ _ _ ih => exact ih

/-! ## Examples -/

/-- A controller of the satellite of the examples, whose wheels are limited to 2 mN m. -/
theorem exLimited : ∃ (model : CtlModel) (c : RwController) (x : SatState c.sat.rw.n) (s : Measurements c.sat.rw.n)
    (objs : List V3), RwController.init model 1 1 = .ok c ∧ Built c.sat 2 ![0.1, 0.1, 0.2] 0.8 2.2 ∧
    LimitedWheels c.sat 0.002 ∧ c.sat.totalMoment.PosDef ∧
    c.sat.totalMoment = Matrix.diagonal ![0.012514, 0.012414, 0.006214] ∧ c.objects s = .ok objs ∧
    RWSystem.init (mkWheels exAxes (fun _ => 1e-5) (fun _ => 2e-6)) 0.002 true = .ok c.sat.rw := by
  obtain ⟨sat, hb, hpd, -, hI, hins, hrw⟩ := exSat3 true []
  set model : CtlModel := ⟨sat, some exClock, some fun _ _ => .ok ![1, 0, 0]⟩ with hmodel
  have hc0 : RwController.init model 1 1 =
      .ok ⟨sat, exClock, some fun _ _ => .ok ![1, 0, 0], true, Trigger.init 1 0.3, 2 * 1 ^ 2, 2 * 1 * 1,
        sat.instruments.map fun i => setGains i Real.pi (2 * 1 ^ 2 * 1)⟩ := by
    unfold RwController.init
    simp only [hmodel]
    rw [if_neg (by norm_num)]
  obtain ⟨-, c1, st1, -⟩ := exLoop 0 0 []
  exact ⟨model, _, { arr := exRaw sat.rw.n, clock := none, attrs := { st1.attrs with wheelVel := 0 } },
    ⟨0, 0, 0, 0, 0, 0, 0⟩, _, hc0, hb, ⟨3, exAxes, _, _, fun _ => by norm_num, hrw⟩, hpd, hI, rfl, hrw⟩

/-- The hypotheses of `C205_near` are met: an hour of tracking, from a state that is not at rest. -/
example : ∃ (model : CtlModel) (c : RwController) (st0 st : SatState c.sat.rw.n) (tr : Trigger) (n : ℕ) (j ks V : ℝ),
    RwController.init model 1 1 = .ok c ∧ Built c.sat 2 ![0.1, 0.1, 0.2] 0.8 2.2 ∧ LimitedWheels c.sat 0.002 ∧
    0 ≤ j ∧ 0 ≤ ks ∧ (∀ x, npNorm (c.sat.totalMoment *ᵥ x) ≤ j * npNorm x) ∧
    (∀ (x : V3) i, |(c.sat.rw.distribution *ᵥ x) i| ≤ ks * npNorm x) ∧
    ks * (√(2 * V) * 1 + j * (√(c.alpha * V) + c.gamma * √(2 * V))) ≤ 0.002 ∧
    c.trigger.halfWidth = 0.3 ∧ c.trigger.memory = 1 ∧ npNorm st0.attrs.attitude = 1 ∧ st0.attrs.bodyAngVel ≠ 0 ∧
    npNorm (Spec.totalMomentum c.sat st0) ≤ 1 ∧ Spec.trackError c.alpha 1 ![1, 0, 0, 0] st0 < V ∧
    Spec.WheelRun { c with objAvoidance := false } ![1, 0, 0, 0] c.trigger st0 3600 tr st n := by
  obtain ⟨model, c, x, s, objs, hc, hb, hw, hpd, hI, hobj, -⟩ := exLimited
  obtain ⟨ha, -, hga, hhw, hmem, -⟩ := C69_gains model 1 1 c hc
  have hg : 0 < c.gamma := by rw [hga]; norm_num
  obtain ⟨j, ks, V, hj, hks0, hV, hjb, hks, hle⟩ := C205_region c (T := 0.002) (by norm_num) 1
  set r := min √V (1 / (j + 1)) with hr
  have hr0 : 0 < r := lt_min (Real.sqrt_pos.2 hV) (by positivity)
  set st0 := withSpin x ![1, 0, 0, 0] ![r, 0, 0] 0 with hst0
  have hq1 : npNorm (![1, 0, 0, 0] : V4) = 1 := npNorm_vec4 (by norm_num)
  have hwn : npNorm (![r, 0, 0] : V3) = r := by
    rw [npNorm, Fin.sum_univ_three]
    simp [Real.sqrt_sq hr0.le]
  have hmom : npNorm (Spec.totalMomentum c.sat st0) ≤ 1 := by
    show npNorm (c.sat.totalMoment *ᵥ ![r, 0, 0] + c.sat.rw.momentum 0) ≤ 1
    have : c.sat.rw.momentum 0 = 0 := by
      funext i; simp [RWSystem.momentum, Wheel.momentum]
    rw [this, add_zero]
    refine (hjb _).trans ?_
    rw [hwn]
    have h1 : r ≤ 1 / (j + 1) := min_le_right _ _
    rw [le_div_iff₀ (by positivity)] at h1
    nlinarith
  have herr : Spec.trackError c.alpha 1 ![1, 0, 0, 0] st0 < V := by
    show ![r, 0, 0] ⬝ᵥ ![r, 0, 0] / 2 + c.alpha * npNorm (![1, 0, 0, 0] - (1 : ℝ) • ![1, 0, 0, 0]) ^ 2 < V
    rw [one_smul, sub_self, dot_self3, hwn]
    have h0 : npNorm (0 : V4) = 0 := by simp [npNorm]
    rw [h0]
    have h1 : r ^ 2 ≤ V := by
      have := pow_le_pow_left₀ hr0.le (min_le_left √V (1 / (j + 1))) 2
      rwa [Real.sq_sqrt hV.le] at this
    have h2 : 0 < r ^ 2 := by positivity
    norm_num
    linarith
  obtain ⟨tr, st, n, hrun⟩ := C205_exists { c with objAvoidance := false } ha hg hb (by norm_num) (by norm_num) hw rfl s objs
    hobj hj hks0 hjb hks hle ![1, 0, 0, 0] hq1 c.trigger (by rw [hhw]; norm_num) (.inl hmem) st0 hq1 hmom
    (by rw [hmem]; exact herr) 3600 (by norm_num)
  refine ⟨model, c, st0, st, tr, n, j, ks, V, hc, hb, hw, hj, hks0, hjb, hks, hle, hhw, hmem, hq1, ?_, hmom, herr, hrun⟩
  intro h0
  exact hr0.ne' (congrFun h0 0)

/-- More than 2 mN m about the third axis: the wheels deliver 2 mN m. -/
theorem exAccel {s : RWSystem} (hs : RWSystem.init (mkWheels exAxes (fun _ => 1e-5) (fun _ => 2e-6)) 0.002 true = .ok s) :
    ∃ a0 : Fin s.n → ℝ, s.torque a0 = ![0, 0, 0.002] ∧ ∀ v : ℝ, 0.002 ≤ v → s.accelerations ![0, 0, v] = .ok a0 := by
  have e := rwInit_eq hs
  subst e
  have hA : (Matrix.of fun i j => (mkWheels exAxes (fun _ => 1e-5) (fun _ => 2e-6) j).axis i) = (1 : M3) := by
    ext i j
    simp [mkWheels, Wheel.init, exAxes, Pi.single_apply, Matrix.one_apply]
  have hD : npPinv (Matrix.of fun i j => (mkWheels exAxes (fun _ => 1e-5) (fun _ => 2e-6) j).axis i) = (1 : M3) := by
    rw [hA]; simp [npPinv]
  refine ⟨![0, 0, 0.002 / 1e-5], ?_, fun v hv => ?_⟩
  · have h1 := torque_eq (ax := exAxes) (par := fun _ => 1e-5) (orth := fun _ => 2e-6) ![0, 0, 0.002 / 1e-5]
    have h2 : axisMat exAxes = 1 := hA
    rw [h2, Matrix.one_mulVec] at h1
    refine h1.trans ?_
    apply vec3_ext
    · simp
    · simp
    · show (1e-5 : ℝ) * (0.002 / 1e-5) = 0.002
      norm_num
  · have hsat : Vec.saturation (![0, 0, v] : Fin 3 → ℝ) 0.002 = .ok ![0, 0, 0.002] := by
      obtain ⟨y, hy, hle, -, k, hk0, hk1, hyk, hmax⟩ := C01_saturation (n := 2) ![0, 0, v] 0.002 (by norm_num)
      rw [hy, hyk]
      congr 1
      have hv0 : 0 < v := by linarith
      have h1 : k * v ≤ 0.002 := by
        have := hle 2
        rw [hyk] at this
        simpa [abs_of_nonneg hk0, abs_of_pos hv0, abs_mul] using this
      have h2 : 0.002 / v ≤ k := hmax _ (by positivity) ((div_le_one hv0).2 hv) fun i => by
        fin_cases i
        · norm_num
        · norm_num
        · simp only [Fin.reduceFinMk, Pi.smul_apply, smul_eq_mul]
          show |0.002 / v * v| ≤ 0.002
          rw [div_mul_cancel₀ _ hv0.ne', abs_of_pos (by norm_num)]
      rw [div_le_iff₀ hv0] at h2
      have h3 : k * v = 0.002 := le_antisymm h1 h2
      apply vec3_ext
      · simp
      · simp
      · exact h3
    unfold RWSystem.accelerations RWSystem.wheelTorques
    simp only [hD, Matrix.one_mulVec, if_true, hsat]
    rw [pyForall_ok]
    intro i
    have hne : ¬ (1e-5 : ℝ) = 0 := by norm_num
    fin_cases i <;> simp [Wheel.acceleration, npDiv, mkWheels, Wheel.init, hne]

/-- A run in which the limit binds: the satellite turns at 10 rad/s, and for a tenth of a second the wheels slow it down
with all they have. -/
theorem exBraking : ∃ (model : CtlModel) (c : RwController) (st : ℝ → SatState c.sat.rw.n),
    RwController.init model 1 1 = .ok c ∧ Built c.sat 2 ![0.1, 0.1, 0.2] 0.8 2.2 ∧ LimitedWheels c.sat 0.002 ∧
    c.sat.totalMoment.PosDef ∧ npNorm (st 0).attrs.attitude = 1 ∧
    (∀ τ, (st τ).attrs.bodyAngVel = ![0, 0, 10 - 0.002 / 0.006214 * τ]) ∧
    Spec.WheelRun { c with objAvoidance := false } ![1, 0, 0, 0] c.trigger (st 0) 0.1 c.trigger (st 0.1) 0 := by
  obtain ⟨model, c, x, s, objs, hc, hb, hw, hpd, hI, hobj, hrw⟩ := exLimited
  obtain ⟨ha, hal, hga, hhw, hmem, -⟩ := C69_gains model 1 1 c hc
  obtain ⟨a0, hta, hacc⟩ := exAccel hrw
  obtain ⟨b, hb'⟩ : ∃ b : ℝ, b = 0.002 / 0.006214 := ⟨_, rfl⟩
  rw [← hb']
  set θ : ℝ → ℝ := fun τ => 10 * τ - b / 2 * τ ^ 2 with hθ
  set w : ℝ → V3 := fun τ => ![0, 0, 10 - b * τ] with hwd
  set st : ℝ → SatState c.sat.rw.n := fun τ => withSpin x (zTurn (θ τ)) (w τ) (τ • a0) with hst
  have hθd : ∀ τ, HasDerivAt θ (10 - b * τ) τ := fun τ => by
    refine (((hasDerivAt_id τ).const_mul 10).fun_sub ((hasDerivAt_pow 2 τ).const_mul (b / 2))).congr_deriv ?_
    norm_num; ring
  have hqd : ∀ τ, HasDerivAt (fun τ => (st τ).attrs.attitude) ((0.5 : ℝ) • product (zTurn (θ τ)) ![0, 0, 0, 10 - b * τ]) τ :=
    fun τ => zTurn_deriv (hθd τ)
  have hwd' : ∀ τ, HasDerivAt (fun τ => (st τ).attrs.bodyAngVel) ![0, 0, -b] τ := by
    intro τ
    refine hasDerivAt_pi.2 fun i => ?_
    fin_cases i
    · exact hasDerivAt_const τ 0
    · exact hasDerivAt_const τ 0
    · show HasDerivAt (fun τ => 10 - b * τ) (-b) τ
      simpa using ((hasDerivAt_id τ).const_mul b).const_sub 10
  have hvd : ∀ τ, HasDerivAt (fun τ => (st τ).attrs.wheelVel) a0 τ := by
    intro τ
    have h1 := (hasDerivAt_id τ).smul_const a0
    rw [one_smul] at h1
    exact h1
  have hmomt : ∀ τ : ℝ, c.sat.rw.momentum (τ • a0) = ![0, 0, τ * 0.002] := by
    intro τ
    have := momentum_line c.sat.rw 0 a0 τ
    have h0 : c.sat.rw.momentum 0 = 0 := by
      funext i; simp [RWSystem.momentum, Wheel.momentum]
    rw [zero_add, h0, zero_add, hta] at this
    rw [this]
    apply vec3_ext <;> simp
  have hJ3 : ∀ z : ℝ, c.sat.totalMoment *ᵥ ![0, 0, z] = ![0, 0, 0.006214 * z] := by
    intro z
    rw [hI]
    apply vec3_ext <;> simp [Matrix.mulVec_diagonal]
  have hgyro : ∀ τ, npCross (st τ).attrs.bodyAngVel (Spec.totalMomentum c.sat (st τ)) = 0 := by
    intro τ
    show npCross (w τ) (c.sat.totalMoment *ᵥ w τ + c.sat.rw.momentum (τ • a0)) = 0
    rw [hmomt, hwd]
    simp only
    rw [hJ3]
    apply vec3_ext <;> simp [npCross_0, npCross_1, npCross_2]
  have hzu : ∀ φ, npNorm (zTurn φ) = 1 := fun φ => npNorm_vec4 (by
    have := Real.cos_sq_add_sin_sq (φ / 2); linarith)
  refine ⟨model, c, st, hc, hb, hw, hpd, hzu _, fun τ => rfl, ?_⟩
  have hb0 : 0 < b ∧ b < 1 := by rw [hb']; norm_num
  have key := Spec.WheelRun.flow (c := { c with objAvoidance := false }) (qc := ![1, 0, 0, 0]) (tr0 := c.trigger)
    (st0 := st 0) (t := 0) (tr := c.trigger) (n := 0) st 0.1 (by norm_num) .start
    (fun τ _ => (hqd τ).continuousAt.continuousWithinAt) (fun τ _ => (hwd' τ).continuousAt.continuousWithinAt)
    (fun τ _ => (hvd τ).continuousAt.continuousWithinAt) (fun τ hτ => by
      have hθr : 0 ≤ θ τ ∧ θ τ ≤ 1 := by
        have h1 : 0 ≤ τ := hτ.1
        have h2 : τ ≤ 0.1 := hτ.2.le
        norm_num at h2
        constructor
        · show 0 ≤ 10 * τ - b / 2 * τ ^ 2
          nlinarith [mul_nonneg h1 h1, hb0.1, hb0.2]
        · show 10 * τ - b / 2 * τ ^ 2 ≤ 1
          nlinarith [mul_nonneg h1 h1, hb0.1, mul_nonneg hb0.1.le (sq_nonneg τ)]
      have hpi := Real.pi_gt_three
      have hcos : 0 ≤ Real.cos (θ τ / 2) := Real.cos_nonneg_of_mem_Icc ⟨by linarith, by linarith⟩
      have hsin : 0 ≤ Real.sin (θ τ / 2) := Real.sin_nonneg_of_nonneg_of_le_pi (by linarith) (by linarith)
      have herr : errorQuat (st τ).attrs.attitude ![1, 0, 0, 0] = zTurn (θ τ) := zTurn_error _
      have hstep : c.trigger.step (errorQuat (st τ).attrs.attitude ![1, 0, 0, 0] 0) = c.trigger := by
        rw [herr]
        unfold Trigger.step
        rw [if_neg]
        rw [hmem, hhw]
        show ¬ Real.cos (θ τ / 2) * 1 ≤ -0.3
        norm_num
        linarith
      obtain ⟨objs', ho⟩ := objects_any hobj c.trigger (st τ).attrs.attitude (st τ).attrs.bodyAngVel (st τ).attrs.wheelVel
      set s' : Measurements c.sat.rw.n :=
        { s with att := (st τ).attrs.attitude, rate := (st τ).attrs.bodyAngVel, whl := (st τ).attrs.wheelVel } with hs'
      have ho' : ({ c with objAvoidance := false, trigger := c.trigger } : RwController).objects s' = .ok objs' := ho
      set v : ℝ := 0.006214 * (2 * Real.sin (θ τ / 2) + 2 * (10 - b * τ)) with hv
      have hlaw : lawAt { c with objAvoidance := false } ![1, 0, 0, 0] c.trigger.memory (st τ) = ![0, 0, -v] := by
        rw [lawAt]
        show npCross (st τ).attrs.bodyAngVel (Spec.totalMomentum c.sat (st τ)) + c.sat.totalMoment *ᵥ _ = _
        rw [hgyro, zero_add, herr, hmem]
        have : ((-1 : ℝ) * c.alpha) • vecPart (zTurn (θ τ)) - c.gamma • (st τ).attrs.bodyAngVel =
            ![0, 0, -(2 * Real.sin (θ τ / 2) + 2 * (10 - b * τ))] := by
          rw [hal, hga]
          apply vec3_ext
          · show (-1 * (2 * 1 ^ 2)) * 0 - 2 * 1 * 1 * 0 = (0 : ℝ); norm_num
          · show (-1 * (2 * 1 ^ 2)) * 0 - 2 * 1 * 1 * 0 = (0 : ℝ); norm_num
          · show (-1 * (2 * 1 ^ 2)) * Real.sin (θ τ / 2) - 2 * 1 * 1 * (10 - b * τ) = -(2 * Real.sin (θ τ / 2) + 2 * (10 - b * τ))
            ring
        show c.sat.totalMoment *ᵥ (((-1 : ℝ) * c.alpha) • vecPart (zTurn (θ τ)) - c.gamma • (st τ).attrs.bodyAngVel) = _
        rw [this, hJ3, hv]
        apply vec3_ext
        · rfl
        · rfl
        · exact mul_neg _ _
      have hv2 : 0.002 ≤ v := by
        have h2 : b * τ ≤ 1 := by
          have h1 : 0 ≤ τ := hτ.1
          have h3 : τ ≤ 0.1 := hτ.2.le
          norm_num at h3
          nlinarith
        have h3 : 18 ≤ 2 * Real.sin (θ τ / 2) + 2 * (10 - b * τ) := by
          have h4 := mul_nonneg (zero_le_two (α := ℝ)) hsin
          linarith only [h2, h4]
        calc (0.002 : ℝ) ≤ 0.006214 * 18 := by norm_num
          _ ≤ v := mul_le_mul_of_nonneg_left h3 (by norm_num)
      obtain ⟨d, hd, -, hwh, hatt, hr⟩ := derivative_rate hb (by norm_num) (st τ) ![0, 0, -0.002] 0 0 a0
        (by rw [hta]; apply vec3_ext <;> simp)
      refine ⟨d, ⟨s', objs', ![0, 0, -v], { c with objAvoidance := false }, a0, 0, 0, ⟨rfl, rfl, rfl⟩, ho', .inl rfl,
        ?_, rfl, ?_, ?_, hd⟩, ?_, ?_, ?_⟩
      · rw [tracking_plain (c := { c with objAvoidance := false, trigger := c.trigger }) rfl ho']
        have hsg : c.trigger.sign (errorQuat s'.att ![1, 0, 0, 0] 0) = (c.trigger.memory, c.trigger) := by
          unfold Trigger.sign
          show ((c.trigger.step (errorQuat (st τ).attrs.attitude ![1, 0, 0, 0] 0)).memory, c.trigger.step _) = _
          rw [hstep]
        have z : ∀ q : V4, sandwich q 0 = 0 := fun q => by rw [sandwich_eq_dcm, Matrix.mulVec_zero]
        have hzc : ∀ v : V3, npCross v 0 = 0 := fun v => by rw [npCross_eq_crossProduct, LinearMap.map_zero]
        simp only [hsg]
        rw [z, hzc, add_zero, sub_zero, sub_zero, ← hlaw]
        rfl
      · have e : -(![0, 0, -v] : V3) = ![0, 0, v] := by apply vec3_ext <;> simp
        show c.sat.rw.accelerations (-![0, 0, -v]) = .ok a0
        rw [e]
        exact hacc v hv2
      · show npNorm (c.sat.invTotMoment *ᵥ 0) ≤ 0
        rw [Matrix.mulVec_zero]
        simp [npNorm]
      · rw [hatt]
        exact hqd τ
      · rw [hr, zero_add]
        have e1 : npCross (st τ).attrs.bodyAngVel (c.sat.totalMoment *ᵥ (st τ).attrs.bodyAngVel
          + c.sat.rw.momentum (st τ).attrs.wheelVel) = 0 := hgyro τ
        rw [e1, sub_zero]
        have e2 : c.sat.invTotMoment *ᵥ ![0, 0, -0.002] = ![0, 0, -b] := by
          have : (![0, 0, -0.002] : V3) = c.sat.totalMoment *ᵥ ![0, 0, -b] := by
            rw [hJ3, hb']
            apply vec3_ext <;> norm_num
          rw [this, hb.cancel]
        rw [e2]
        exact hwd' τ
      · rw [hwh]; exact hvd τ)
  simpa using key

end Adcs
