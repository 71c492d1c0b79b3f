import Verif.Proofs.Convergence
import Verif.Props.Avoidance
import Mathlib.Analysis.ODE.ExistUnique

set_option autoImplicit false

/-! # C140: the tracking law brings the satellite to the commanded attitude -/

namespace Adcs

open Str Ctl Sens JDay Quat Vec Dyn
open scoped Matrix Topology

/-- One instant of the closed loop, for the controller `c` with the memory `tr` of its trigger: it is given the true
state, no object to be avoided is near (or avoidance is off), it holds its sign, and `d` is the derivative which the
library's dynamics give for its commands under a force of any size and a torque that accelerates by at most `δ`. -/
def Spec.Instant (c : RwController) (qc : V4) (δ : ℝ) (tr tr' : Trigger) (st : SatState c.sat.rw.n)
    (d : Raw c.sat.rw.n) : Prop :=
  ∃ (s : Measurements c.sat.rw.n) (objs : List V3) (law : V3) (c' : RwController) (a : Fin c.sat.rw.n → ℝ) (F T : V3),
    Measured s st ∧ ({ c with trigger := tr } : RwController).objects s = .ok objs ∧
    (c.objAvoidance = false ∨ Clear c.instruments objs) ∧
    ({ c with trigger := tr } : RwController).tracking s 0 0 qc = (.ok law, c') ∧ c'.trigger = tr' ∧
    c.actuatorCommands law = .ok a ∧ npNorm (c.sat.invTotMoment *ᵥ T) ≤ δ ∧ derivative c.sat st ⟨F, T⟩ a = .ok d

/-- Runs of the closed loop from the memory `tr0` and the state `st0`: time, memory, state, number of switches. A piece
of motion is continuous, and up to its end (exclusive) the controller holds its sign; there it may switch. -/
inductive Spec.LoopRun (c : RwController) (qc : V4) (δ : ℝ) (tr0 : Trigger) (st0 : SatState c.sat.rw.n) :
    ℝ → Trigger → SatState c.sat.rw.n → ℕ → Prop
  | start : LoopRun c qc δ tr0 st0 0 tr0 st0 0
  | flow {t : ℝ} {tr : Trigger} {n : ℕ} (st : ℝ → SatState c.sat.rw.n) (T : ℝ) (hT : 0 ≤ T) :
      LoopRun c qc δ tr0 st0 t tr (st 0) n →
      ContinuousOn (fun τ => (st τ).attrs.attitude) (Set.Icc 0 T) →
      ContinuousOn (fun τ => (st τ).attrs.bodyAngVel) (Set.Icc 0 T) →
      (∀ τ ∈ Set.Ico 0 T, ∃ d, Spec.Instant c qc δ tr tr (st τ) d ∧
        HasDerivAt (fun τ => (st τ).attrs.attitude) d.att τ ∧ HasDerivAt (fun τ => (st τ).attrs.bodyAngVel) d.rate τ) →
      LoopRun c qc δ tr0 st0 (t + T) tr (st T) n
  | switch {t : ℝ} {tr tr' : Trigger} {n : ℕ} {st : SatState c.sat.rw.n} {d : Raw c.sat.rw.n} :
      LoopRun c qc δ tr0 st0 t tr st n → Spec.Instant c qc δ tr tr' st d → tr' ≠ tr →
      LoopRun c qc δ tr0 st0 t tr' st (n + 1)

theorem tracking_clear {c : RwController} {s : Measurements c.sat.rw.n} {objs : List V3} (hobj : c.objects s = .ok objs)
    (h : c.objAvoidance = false ∨ Clear c.instruments objs) (wc wcd : V3) (qc : V4) :
    c.tracking s wc wcd qc =
      ((({ c with objAvoidance := false } : RwController).tracking s wc wcd qc).1,
        { c with trigger := (c.trigger.sign (errorQuat s.att qc 0)).2 }) := by
  rcases h with h | h
  · rw [tracking_plain h hobj, tracking_plain (c := { c with objAvoidance := false }) rfl hobj]
  · refine Prod.ext (C71_tracking c s objs hobj h wc wcd qc) ?_
    unfold RwController.tracking
    rw [hobj]
    simp only [C71_plain c objs h]
    split_ifs <;> rfl

/-- What happens at an instant. -/
theorem instant_eq {c : RwController} {mass : ℝ} {dims : V3} {ab cd : ℝ} (hb : Built c.sat mass dims ab cd)
    (hm : mass ≠ 0) (hw : UnlimitedWheels c.sat) {qc : V4} {δ : ℝ} {tr tr' : Trigger} {st : SatState c.sat.rw.n}
    {d : Raw c.sat.rw.n} (h : Spec.Instant c qc δ tr tr' st d) :
    tr' = tr.step (errorQuat st.attrs.attitude qc 0) ∧
    d.att = (0.5 : ℝ) • product st.attrs.attitude (pureQ st.attrs.bodyAngVel) ∧
    ∃ x : V3, npNorm x ≤ δ ∧ d.rate = -(tr'.memory * c.alpha) • vecPart (errorQuat st.attrs.attitude qc)
      - c.gamma • st.attrs.bodyAngVel + x := by
  obtain ⟨s, objs, law, c', a, F, T, hs, hobj, hcl, ht, htr, ha, hT, hd⟩ := h
  obtain ⟨law2, c2, a2, d2, h1, h2, h3, h4, h5, h6⟩ :=
    C69_acceleration { c with trigger := tr, objAvoidance := false } hb hm hw rfl st s hs objs hobj 0 0 qc F T
  rw [tracking_clear hobj hcl] at ht
  obtain ⟨e1, e2⟩ := Prod.ext_iff.1 ht
  simp only at e1 e2
  have e1' : law2 = law := by
    have := congrArg Prod.fst h1
    exact Except.ok.inj (this.symm.trans e1)
  subst e1'
  have e3 : a2 = a := Except.ok.inj (h2.symm.trans ha)
  subst e3
  have e4 : d2 = d := Except.ok.inj (h3.symm.trans hd)
  subst e4
  have hstep : tr' = tr.step (errorQuat st.attrs.attitude qc 0) := by
    rw [← htr, ← e2, ← hs.1]; rfl
  have hmem : c2.trigger.memory = tr'.memory := by
    rw [h4, hstep, ← hs.1]; rfl
  refine ⟨hstep, by rw [h5, hs.1, hs.2.1], c.sat.invTotMoment *ᵥ T, hT, ?_⟩
  have z : ∀ q : V4, sandwich q 0 = 0 := fun q => by rw [sandwich_eq_dcm, Matrix.mulVec_zero]
  rw [h6, z, hmem, hs.1, hs.2.1]
  simp only [LinearMap.map_zero, add_zero, sub_zero, neg_smul]
  abel

/-- The decay over a stretch without switch. -/
theorem strict_flow {alpha gamma hyst eps k δ : ℝ} (ha : 0 < alpha) (hg : 0 < gamma) (he : 0 < eps)
    (hk : 0 < k) (h1 : eps ^ 2 ≤ alpha / 2) (h2 : eps * (1 + gamma ^ 2 / alpha) ≤ gamma) (h3 : 3 * k ≤ gamma)
    (h4 : 12 * k ≤ eps * (1 - hyst)) {qc : V4} (hqc : npNorm qc = 1) {sgn : ℝ} (hs : sgn = 1 ∨ sgn = -1) {q : ℝ → V4}
    {w : ℝ → V3} {T : ℝ} (hT : 0 ≤ T) (hu : npNorm (q 0) = 1)
    (hcq : ContinuousOn q (Set.Icc 0 T)) (hcw : ContinuousOn w (Set.Icc 0 T))
    (hq : ∀ t ∈ Set.Ico 0 T, HasDerivAt q ((0.5 : ℝ) • product (q t) (pureQ (w t))) t)
    (hw : ∀ t ∈ Set.Ico 0 T, ∃ x : V3, npNorm x ≤ δ ∧
      HasDerivAt w (-(sgn * alpha) • vecPart (errorQuat (q t) qc) - gamma • w t + x) t)
    (hx : ∀ t ∈ Set.Ico 0 T, -hyst ≤ sgn * errorQuat (q t) qc 0) :
    strict alpha eps sgn (errorQuat (q T) qc) (w T) ≤
      Real.exp (-k * T) * strict alpha eps sgn (errorQuat (q 0) qc) (w 0)
        + (1 - Real.exp (-k * T)) * ((1 / gamma + eps / alpha) * δ ^ 2 / k) := by
  set D := (1 / gamma + eps / alpha) * δ ^ 2 with hD
  set W := fun t => strict alpha eps sgn (errorQuat (q t) qc) (w t) with hW
  have hunit : ∀ t ∈ Set.Ico 0 T, IsUnit4 (errorQuat (q t) qc) := by
    intro t ht
    refine errorQuat_unit ((isUnit4_iff _).2 ?_) ((isUnit4_iff _).2 hqc)
    rw [norm_flow ht.1 (hcq.mono (Set.Icc_subset_Icc_right ht.2.le)) fun τ hτ => hq τ ⟨hτ.1, hτ.2.trans ht.2⟩, hu]
  have hs2 : sgn ^ 2 = 1 := by rcases hs with rfl | rfl <;> norm_num
  have hd : ∀ t ∈ Set.Ico 0 T, ∃ W', HasDerivAt W W' t ∧ W' ≤ -k * W t + D := by
    intro t ht
    obtain ⟨x, hxδ, hdw⟩ := hw t ht
    refine ⟨_, strict_deriv (eps := eps) hs (hq t ht) hdw, ?_⟩
    have hv := vecPart_unit (hunit t ht)
    have hxx : x ⬝ᵥ x ≤ δ ^ 2 := by
      have e : x ⬝ᵥ x = npNorm x ^ 2 := by
        rw [npNorm, Real.sq_sqrt (Finset.sum_nonneg fun i _ => sq_nonneg _)]
        simp only [dotProduct, sq]
      rw [e]
      exact pow_le_pow_left₀ (Real.sqrt_nonneg _) hxδ 2
    have hb : vecPart (errorQuat (q t) qc) ⬝ᵥ vecPart (errorQuat (q t) qc) = 1 - (sgn * errorQuat (q t) qc 0) ^ 2 := by
      rw [hv, mul_pow, hs2, one_mul]
    have hp : (sgn * (vecPart (errorQuat (q t) qc) ⬝ᵥ w t)) ^ 2 ≤
        (w t ⬝ᵥ w t) * (vecPart (errorQuat (q t) qc) ⬝ᵥ vecPart (errorQuat (q t) qc)) := by
      rw [mul_pow, hs2, one_mul, mul_comm]; exact dot_sq_le _ _
    have hr : (w t ⬝ᵥ x) ^ 2 ≤ (w t ⬝ᵥ w t) * δ ^ 2 :=
      (dot_sq_le _ _).trans (mul_le_mul_of_nonneg_left hxx (dot_self_nonneg3 _))
    have hu' : (sgn * (vecPart (errorQuat (q t) qc) ⬝ᵥ x)) ^ 2 ≤
        (vecPart (errorQuat (q t) qc) ⬝ᵥ vecPart (errorQuat (q t) qc)) * δ ^ 2 := by
      rw [mul_pow, hs2, one_mul]
      exact (dot_sq_le _ _).trans (mul_le_mul_of_nonneg_left hxx (dot_self_nonneg3 _))
    have := decay_ineq ha hg he hk h1 h2 h3 h4 (dot_self_nonneg3 (w t)) (sq_nonneg δ) hb (dot_self_nonneg3 _) (hx t ht) hp hr hu'
    exact this
  -- `exp(kt) (W - D/k)` does not increase
  have hanti : AntitoneOn (fun t => Real.exp (k * t) * (W t - D / k)) (Set.Icc 0 T) := by
    have hder : ∀ t ∈ Set.Ico 0 T, ∃ y, HasDerivAt (fun t => Real.exp (k * t) * (W t - D / k)) y t ∧ y ≤ 0 := by
      intro t ht
      obtain ⟨W', h, hle⟩ := hd t ht
      have hexp : HasDerivAt (fun t => Real.exp (k * t)) (Real.exp (k * t) * k) t := by
        simpa using ((hasDerivAt_id t).const_mul k).exp
      refine ⟨_, hexp.fun_mul (h.sub_const (D / k)), ?_⟩
      have e : Real.exp (k * t) * k * (W t - D / k) + Real.exp (k * t) * W' =
          Real.exp (k * t) * (W' - (-k * W t + D)) := by field_simp; ring
      rw [e]
      exact mul_nonpos_of_nonneg_of_nonpos (Real.exp_pos _).le (by linarith)
    apply antitoneOn_of_deriv_nonpos (convex_Icc 0 T)
    · exact (by fun_prop : Continuous fun t : ℝ => Real.exp (k * t)).continuousOn.mul
        ((strict_continuousOn hcq hcw).sub continuousOn_const)
    · intro t ht
      rw [interior_Icc] at ht
      obtain ⟨y, h, -⟩ := hder t ⟨ht.1.le, ht.2⟩
      exact h.differentiableAt.differentiableWithinAt
    · intro t ht
      rw [interior_Icc] at ht
      obtain ⟨y, h, hy⟩ := hder t ⟨ht.1.le, ht.2⟩
      rw [h.deriv]; exact hy
  have h := hanti ⟨le_rfl, hT⟩ ⟨hT, le_rfl⟩ hT
  simp only [mul_zero, Real.exp_zero, one_mul] at h
  have hE : Real.exp (-k * T) * Real.exp (k * T) = 1 := by rw [← Real.exp_add]; simp
  have h' := mul_le_mul_of_nonneg_left h (Real.exp_pos (-k * T)).le
  rw [← mul_assoc, hE, one_mul] at h'
  show W T ≤ Real.exp (-k * T) * W 0 + (1 - Real.exp (-k * T)) * (D / k)
  linarith

theorem trigger_switches {tr : Trigger} (hm : tr.memory = 1 ∨ tr.memory = -1) (hh : 0 < tr.halfWidth) {x : ℝ}
    (h : x * tr.memory ≤ -tr.halfWidth) : tr.step x ≠ tr := by
  intro he
  have hmem := congrArg Trigger.memory he
  rw [Trigger.step, if_pos h] at hmem
  simp only at hmem
  rcases hm with hm | hm <;> rw [hm] at hmem h
  · have hx : x < 0 := by linarith
    rw [npSign, if_pos hx] at hmem
    norm_num at hmem
  · have hx : 0 < x := by linarith
    rw [npSign, if_neg hx.not_gt, if_neg hx.ne'] at hmem
    norm_num at hmem

theorem trigger_switch {tr : Trigger} (hm : tr.memory = 1 ∨ tr.memory = -1) (hh : 0 < tr.halfWidth) {x : ℝ}
    (h : tr.step x ≠ tr) : (tr.step x).memory = -tr.memory ∧ (tr.step x).halfWidth = tr.halfWidth ∧
      x * tr.memory ≤ -tr.halfWidth := by
  have hc : x * tr.memory ≤ -tr.halfWidth := by
    by_contra hc
    exact h (by rw [Trigger.step, if_neg hc])
  refine ⟨?_, by rw [Trigger.step, if_pos hc], hc⟩
  refine pm_flip hm (trigger_step_pm hm x) fun he => ?_
  exact h (by
    have e2 : (tr.step x).halfWidth = tr.halfWidth := by rw [Trigger.step, if_pos hc]
    cases htr : tr.step x
    cases tr
    rw [htr] at he e2
    simp only at he e2
    rw [he, e2])

theorem quat_dist {sgn : ℝ} (hs : sgn = 1 ∨ sgn = -1) {q qc : V4} (hq : npNorm q = 1) (hc : npNorm qc = 1) :
    npNorm (q - sgn • qc) ^ 2 = 2 * (1 - sgn * errorQuat q qc 0) := by
  have hs2 : sgn ^ 2 = 1 := by rcases hs with rfl | rfl <;> norm_num
  have h1 := (isUnit4_iff _).2 hq
  have h2 := (isUnit4_iff _).2 hc
  unfold IsUnit4 at h1 h2
  rw [npNorm, Real.sq_sqrt (Finset.sum_nonneg fun i _ => sq_nonneg _), Fin.sum_univ_four]
  simp only [errorQuat, product_0, conjugate_0, conjugate_1, conjugate_2, conjugate_3, Pi.sub_apply, Pi.smul_apply, smul_eq_mul]
  have e : (q 0 - sgn * qc 0) ^ 2 + (q 1 - sgn * qc 1) ^ 2 + (q 2 - sgn * qc 2) ^ 2 + (q 3 - sgn * qc 3) ^ 2 =
    (q 0 ^ 2 + q 1 ^ 2 + q 2 ^ 2 + q 3 ^ 2) + sgn ^ 2 * (qc 0 ^ 2 + qc 1 ^ 2 + qc 2 ^ 2 + qc 3 ^ 2)
      - 2 * sgn * (q 0 * qc 0 + q 1 * qc 1 + q 2 * qc 2 + q 3 * qc 3) := by ring
  rw [e, h1, h2, hs2]
  ring

/-- Convergence, with constants that depend on the gains and the width of the hysteresis only: after the time `t`, with
`n` switches, rate and distance from the commanded attitude (up to the sign of the quaternion) are bounded by a term that
falls off exponentially and a term for the disturbing torques. -/
theorem C140_converges {alpha gamma hw : ℝ} (ha : 0 < alpha) (hg : 0 < gamma) (hhw : hw < 1) (hh : 0 < hw) :
    ∃ k C : ℝ, 0 < k ∧ 0 ≤ C ∧ ∀ (c : RwController), c.alpha = alpha → c.gamma = gamma →
      ∀ (mass : ℝ) (dims : V3) (ab cd : ℝ), Built c.sat mass dims ab cd → mass ≠ 0 → UnlimitedWheels c.sat →
      ∀ (qc : V4), npNorm qc = 1 → ∀ (δ : ℝ) (tr0 tr : Trigger) (st0 st : SatState c.sat.rw.n) (t : ℝ) (n : ℕ),
      tr0.halfWidth = hw → (tr0.memory = 1 ∨ tr0.memory = -1) → npNorm st0.attrs.attitude = 1 →
      Spec.LoopRun c qc δ tr0 st0 t tr st n →
      (tr.memory = 1 ∨ tr.memory = -1) ∧
      st.attrs.bodyAngVel ⬝ᵥ st.attrs.bodyAngVel / 2
          + alpha * npNorm (st.attrs.attitude - tr.memory • qc) ^ 2 ≤
        3 ^ (n + 1) * (Real.exp (-k * t) * (st0.attrs.bodyAngVel ⬝ᵥ st0.attrs.bodyAngVel / 2
          + alpha * npNorm (st0.attrs.attitude - tr0.memory • qc) ^ 2) + C * δ ^ 2) := by
  obtain ⟨eps, k, he, hk, h1, h2, h3, h4⟩ := rate_exists ha hg hhw
  refine ⟨k, 2 / 3 * ((1 / gamma + eps / alpha) / k), hk, by positivity, ?_⟩
  rintro c rfl rfl mass dims ab cd hb hm hw' qc hqc δ tr0 tr st0 st t n hh0 hm0 hu0 hrun
  set D := (1 / c.gamma + eps / c.alpha) * δ ^ 2 / k with hD
  have hD0 : 0 ≤ D := by positivity
  have hW0 : ∀ (sgn : ℝ) (x : SatState c.sat.rw.n), (sgn = 1 ∨ sgn = -1) → npNorm x.attrs.attitude = 1 →
      0 ≤ strict c.alpha eps sgn (errorQuat x.attrs.attitude qc) x.attrs.bodyAngVel := by
    intro sgn x hs hx
    have h := (strict_between ha he h1 hs (errorQuat_unit ((isUnit4_iff _).2 hx) ((isUnit4_iff _).2 hqc)) x.attrs.bodyAngVel).1
    have := (C69_definite c.alpha sgn ha hs x.attrs.attitude qc hx hqc x.attrs.bodyAngVel).1
    linarith
  have key : 0 ≤ t ∧ (tr.memory = 1 ∨ tr.memory = -1) ∧ tr.halfWidth = hw ∧ npNorm st.attrs.attitude = 1 ∧
      strict c.alpha eps tr.memory (errorQuat st.attrs.attitude qc) st.attrs.bodyAngVel ≤
        3 ^ n * (Real.exp (-k * t) * strict c.alpha eps tr0.memory (errorQuat st0.attrs.attitude qc) st0.attrs.bodyAngVel + D) := by
    induction hrun with
    | start => exact ⟨le_rfl, hm0, hh0, hu0, by simp; exact hD0⟩
    | @flow t tr n st T hT _ hcq hcw hstep ih =>
      obtain ⟨i0, i1, i2, i3, i4⟩ := ih
      have hq : ∀ τ ∈ Set.Ico 0 T, HasDerivAt (fun τ => (st τ).attrs.attitude)
          ((0.5 : ℝ) • product (st τ).attrs.attitude (pureQ (st τ).attrs.bodyAngVel)) τ := by
        intro τ hτ
        obtain ⟨d, hi, hdq, -⟩ := hstep τ hτ
        rw [← (instant_eq hb hm hw' hi).2.1]
        exact hdq
      have hwd : ∀ τ ∈ Set.Ico 0 T, ∃ x : V3, npNorm x ≤ δ ∧ HasDerivAt (fun τ => (st τ).attrs.bodyAngVel)
          (-(tr.memory * c.alpha) • vecPart (errorQuat (st τ).attrs.attitude qc) - c.gamma • (st τ).attrs.bodyAngVel + x) τ := by
        intro τ hτ
        obtain ⟨d, hi, -, hdw⟩ := hstep τ hτ
        obtain ⟨-, -, x, hx, hr⟩ := instant_eq hb hm hw' hi
        exact ⟨x, hx, hr ▸ hdw⟩
      have hxs : ∀ τ ∈ Set.Ico 0 T, -hw ≤ tr.memory * errorQuat (st τ).attrs.attitude qc 0 := by
        intro τ hτ
        obtain ⟨d, hi, -, -⟩ := hstep τ hτ
        have hst := (instant_eq hb hm hw' hi).1
        by_contra hlt
        rw [not_le] at hlt
        have hc : errorQuat (st τ).attrs.attitude qc 0 * tr.memory ≤ -tr.halfWidth := by rw [i2, mul_comm]; exact hlt.le
        exact trigger_switches i1 (i2 ▸ hh) hc hst.symm
      have hflow := strict_flow ha hg he hk h1 h2 h3 h4 hqc i1 hT i3 hcq hcw hq hwd hxs
      refine ⟨by linarith, i1, i2, (norm_flow hT hcq hq).trans i3, hflow.trans ?_⟩
      have hE : Real.exp (-k * (t + T)) = Real.exp (-k * T) * Real.exp (-k * t) := by rw [← Real.exp_add]; ring_nf
      have hE1 : Real.exp (-k * T) ≤ 1 := by rw [Real.exp_le_one_iff]; nlinarith
      have h3n : (1 : ℝ) ≤ 3 ^ n := one_le_pow₀ (by norm_num)
      have a1 := mul_le_mul_of_nonneg_left i4 (Real.exp_pos (-k * T)).le
      have a2 : (1 - Real.exp (-k * T)) * D ≤ (1 - Real.exp (-k * T)) * (3 ^ n * D) := by
        apply mul_le_mul_of_nonneg_left _ (by linarith)
        exact le_mul_of_one_le_left hD0 h3n
      rw [hE]
      calc _ ≤ Real.exp (-k * T) * (3 ^ n * (Real.exp (-k * t) * strict c.alpha eps tr0.memory (errorQuat st0.attrs.attitude qc) st0.attrs.bodyAngVel + D))
            + (1 - Real.exp (-k * T)) * (3 ^ n * D) := add_le_add a1 a2
        _ = _ := by ring
    | @switch t tr tr' n st d _ hi hne ih =>
      obtain ⟨i0, i1, i2, i3, i4⟩ := ih
      have hst := (instant_eq hb hm hw' hi).1
      obtain ⟨j1, j2, j3⟩ := trigger_switch i1 (i2 ▸ hh) (x := errorQuat st.attrs.attitude qc 0) (hst ▸ hne)
      rw [← hst] at j1 j2
      have i1' : tr'.memory = 1 ∨ tr'.memory = -1 := by rw [j1]; rcases i1 with h | h <;> rw [h] <;> simp
      refine ⟨i0, i1', j2.trans i2, i3, ?_⟩
      have hu := errorQuat_unit ((isUnit4_iff _).2 i3) ((isUnit4_iff _).2 hqc)
      have b1 := (strict_between ha he h1 i1' hu st.attrs.bodyAngVel).2
      have b2 := (strict_between ha he h1 i1 hu st.attrs.bodyAngVel).1
      have b3 : lyap c.alpha tr'.memory (errorQuat st.attrs.attitude qc 0) st.attrs.bodyAngVel ≤
          lyap c.alpha tr.memory (errorQuat st.attrs.attitude qc 0) st.attrs.bodyAngVel := by
        rw [j1]
        unfold lyap
        rw [i2] at j3
        have : c.alpha * (errorQuat st.attrs.attitude qc 0 * tr.memory) ≤ 0 :=
          mul_nonpos_of_nonneg_of_nonpos ha.le (by linarith)
        linarith
      rw [pow_succ]
      linarith
  obtain ⟨-, k1, -, k3, k4⟩ := key
  refine ⟨k1, ?_⟩
  have hl : ∀ (sgn : ℝ) (x : SatState c.sat.rw.n), (sgn = 1 ∨ sgn = -1) → npNorm x.attrs.attitude = 1 →
      x.attrs.bodyAngVel ⬝ᵥ x.attrs.bodyAngVel / 2 + c.alpha * npNorm (x.attrs.attitude - sgn • qc) ^ 2 =
      lyap c.alpha sgn (errorQuat x.attrs.attitude qc 0) x.attrs.bodyAngVel := by
    intro sgn x hs hx
    rw [lyap, quat_dist hs hx hqc]; ring
  rw [hl _ _ k1 k3, hl _ _ hm0 hu0]
  have b1 := (strict_between ha he h1 hm0 (errorQuat_unit ((isUnit4_iff _).2 hu0) ((isUnit4_iff _).2 hqc)) st0.attrs.bodyAngVel).2
  have b2 := (strict_between ha he h1 k1 (errorQuat_unit ((isUnit4_iff _).2 k3) ((isUnit4_iff _).2 hqc)) st.attrs.bodyAngVel).1
  have b3 := mul_le_mul_of_nonneg_left b1 (Real.exp_pos (-k * t)).le
  have e : 2 / 3 * ((1 / c.gamma + eps / c.alpha) / k) * δ ^ 2 = 2 / 3 * D := by rw [hD]; ring
  rw [e, pow_succ]
  calc _ ≤ _ := b2
    _ ≤ 2 * (3 ^ n * (Real.exp (-k * t) * strict c.alpha eps tr0.memory (errorQuat st0.attrs.attitude qc) st0.attrs.bodyAngVel + D)) := by
        linarith
    _ = 3 ^ n * (Real.exp (-k * t) * (2 * strict c.alpha eps tr0.memory (errorQuat st0.attrs.attitude qc) st0.attrs.bodyAngVel) + 2 * D) := by ring
    _ ≤ 3 ^ n * (Real.exp (-k * t) * (3 * lyap c.alpha tr0.memory (errorQuat st0.attrs.attitude qc 0) st0.attrs.bodyAngVel) + 2 * D) := by
        gcongr
    _ = _ := by ring

/-- A run of the library's closed loop without disturbing torques is one of the runs of C69. -/
theorem LoopRun.hybrid {c : RwController} {mass : ℝ} {dims : V3} {ab cd : ℝ} (hb : Built c.sat mass dims ab cd)
    (hm : mass ≠ 0) (hw : UnlimitedWheels c.sat) {qc : V4} {tr0 tr : Trigger} {st0 st : SatState c.sat.rw.n} {t : ℝ}
    {n : ℕ} (hh : 0 < tr0.halfWidth) (hm0 : tr0.memory = 1 ∨ tr0.memory = -1)
    (h : Spec.LoopRun c qc 0 tr0 st0 t tr st n) :
    tr.halfWidth = tr0.halfWidth ∧ (tr.memory = 1 ∨ tr.memory = -1) ∧
    HybridRun c.alpha c.gamma tr0.halfWidth qc tr0.memory st0.attrs.attitude st0.attrs.bodyAngVel tr.memory
      st.attrs.attitude st.attrs.bodyAngVel n := by
  induction h with
  | start => exact ⟨rfl, hm0, .start⟩
  | @flow t tr n st T hT _ hcq hcw hstep ih =>
    obtain ⟨i1, i2, i3⟩ := ih
    refine ⟨i1, i2, HybridRun.flow (fun τ => (st τ).attrs.attitude) (fun τ => (st τ).attrs.bodyAngVel) T hT i3
      hcq hcw ?_ ?_⟩
    · intro τ hτ
      obtain ⟨d, hi, hdq, -⟩ := hstep τ hτ
      rw [← (instant_eq hb hm hw hi).2.1]
      exact hdq
    · intro τ hτ
      obtain ⟨d, hi, -, hdw⟩ := hstep τ hτ
      obtain ⟨-, -, x, hx, hr⟩ := instant_eq hb hm hw hi
      have hx0 : x = 0 := by
        by_contra hne
        exact absurd hx (not_le.2 (npNorm_pos hne))
      rw [hx0, add_zero] at hr
      exact hr ▸ hdw
  | @switch t tr tr' n st d _ hi hne ih =>
    obtain ⟨i1, i2, i3⟩ := ih
    have hst := (instant_eq hb hm hw hi).1
    obtain ⟨j1, j2, j3⟩ := trigger_switch i2 (i1 ▸ hh) (x := errorQuat st.attrs.attitude qc 0) (hst ▸ hne)
    rw [← hst] at j1 j2
    refine ⟨j2.trans i1, by rw [j1]; rcases i2 with h | h <;> rw [h] <;> simp, ?_⟩
    rw [j1]
    exact HybridRun.switch i3 (i1 ▸ j3)

/-- Without disturbing torques the number of switches is bounded by the initial error: so the factor in
`C140_converges` is bounded, and the errors go to zero over every run that goes on. -/
theorem C140_switches (c : RwController) (ha : 0 < c.alpha) (hg : 0 ≤ c.gamma) {mass : ℝ} {dims : V3} {ab cd : ℝ}
    (hb : Built c.sat mass dims ab cd) (hm : mass ≠ 0) (hw : UnlimitedWheels c.sat) (qc : V4) (hqc : npNorm qc = 1)
    (tr0 tr : Trigger) (st0 st : SatState c.sat.rw.n) (t : ℝ) (n : ℕ) (hh : 0 < tr0.halfWidth)
    (hm0 : tr0.memory = 1 ∨ tr0.memory = -1) (hu : npNorm st0.attrs.attitude = 1)
    (h : Spec.LoopRun c qc 0 tr0 st0 t tr st n) :
    4 * c.alpha * tr0.halfWidth * n ≤ st0.attrs.bodyAngVel ⬝ᵥ st0.attrs.bodyAngVel / 2
      + c.alpha * npNorm (st0.attrs.attitude - tr0.memory • qc) ^ 2 := by
  have := (C69_run hg ha hqc hm0 hu (LoopRun.hybrid hb hm hw hh hm0 h).2.2).2.2.2
  rw [quat_dist hm0 hu hqc]
  unfold lyap at this
  linarith

/-- For every controller made by the constructor with positive damping and frequency, with avoidance left on or
switched off: a motion that goes on for ever
without a further switch of the sign ends at rest in the commanded attitude. -/
theorem C140_limit (model : CtlModel) (damping natFreq : ℝ) (hd : 0 < damping) (hn : 0 < natFreq) (c : RwController)
    (hc : RwController.init model damping natFreq = .ok c) (av : Bool) {mass : ℝ} {dims : V3} {ab cd : ℝ}
    (hb : Built c.sat mass dims ab cd) (hm : mass ≠ 0) (hw : UnlimitedWheels c.sat) (qc : V4) (hqc : npNorm qc = 1)
    (tr : Trigger) (htr : tr = c.trigger ∨ ∃ x, tr = c.trigger.step x) (st : ℝ → SatState c.sat.rw.n)
    (hu : npNorm (st 0).attrs.attitude = 1)
    (h : ∀ τ, 0 ≤ τ → ∃ d, Spec.Instant { c with objAvoidance := av } qc 0 tr tr (st τ) d ∧
        HasDerivAt (fun τ => (st τ).attrs.attitude) d.att τ ∧ HasDerivAt (fun τ => (st τ).attrs.bodyAngVel) d.rate τ) :
    Filter.Tendsto (fun t => npNorm (st t).attrs.bodyAngVel) Filter.atTop (𝓝 0) ∧
    Filter.Tendsto (fun t => npNorm ((st t).attrs.attitude - tr.memory • qc)) Filter.atTop (𝓝 0) := by
  obtain ⟨ha, hal, hga, hhw, hmem, -⟩ := C69_gains model damping natFreq c hc
  have hg : 0 < c.gamma := by rw [hga]; positivity
  have hm0 : c.trigger.memory = 1 ∨ c.trigger.memory = -1 := .inl hmem
  have htm : tr.memory = 1 ∨ tr.memory = -1 := by
    rcases htr with rfl | ⟨x, rfl⟩
    · exact hm0
    · exact trigger_step_pm hm0 x
  have hth : tr.halfWidth = 0.3 := by
    rcases htr with rfl | ⟨x, rfl⟩
    · exact hhw
    · rw [← hhw, Trigger.step]; split_ifs <;> rfl
  obtain ⟨k, C, hk, -, hall⟩ := C140_converges (hw := 0.3) ha hg (by norm_num) (by norm_num)
  set V0 := (st 0).attrs.bodyAngVel ⬝ᵥ (st 0).attrs.bodyAngVel / 2
      + c.alpha * npNorm ((st 0).attrs.attitude - tr.memory • qc) ^ 2
  have hbound : ∀ T, 0 ≤ T → (st T).attrs.bodyAngVel ⬝ᵥ (st T).attrs.bodyAngVel / 2
      + c.alpha * npNorm ((st T).attrs.attitude - tr.memory • qc) ^ 2 ≤ 3 * V0 * Real.exp (-k * T) := by
    intro T hT
    have hrun : Spec.LoopRun { c with objAvoidance := av } qc 0 tr (st 0) (0 + T) tr (st T) 0 :=
      .flow (c := { c with objAvoidance := av }) st T hT .start (fun τ hτ => (by
        obtain ⟨d, -, hd, -⟩ := h τ hτ.1
        exact hd.continuousAt.continuousWithinAt)) (fun τ hτ => (by
        obtain ⟨d, -, -, hd⟩ := h τ hτ.1
        exact hd.continuousAt.continuousWithinAt)) fun τ hτ => h τ hτ.1
    have := (hall { c with objAvoidance := av } rfl rfl mass dims ab cd hb hm hw qc hqc 0 tr tr (st 0) (st T) _ 0 hth htm hu hrun).2
    refine this.trans (le_of_eq ?_)
    simp only [V0, zero_add]
    ring
  have hexp : Filter.Tendsto (fun T => 3 * V0 * Real.exp (-k * T)) Filter.atTop (𝓝 0) := by
    have h1 : Filter.Tendsto (fun T => -(k * T)) Filter.atTop Filter.atBot :=
      Filter.tendsto_neg_atTop_atBot.comp (Filter.tendsto_id.const_mul_atTop hk)
    have h2 := (Real.tendsto_exp_atBot.comp h1).const_mul (3 * V0)
    simp only [mul_zero] at h2
    exact h2.congr fun T => by simp [neg_mul]
  have hsq : ∀ f : ℝ → ℝ, (∀ t, 0 ≤ f t) → ∀ m : ℝ, 0 < m → (∀ t, 0 ≤ t → m * f t ^ 2 ≤ 3 * V0 * Real.exp (-k * t)) →
      Filter.Tendsto f Filter.atTop (𝓝 0) := by
    intro f hf m hm hle
    have h0 : Filter.Tendsto (fun t => f t ^ 2) Filter.atTop (𝓝 0) := by
      have h2 := hexp.const_mul (1 / m)
      rw [mul_zero] at h2
      refine tendsto_of_tendsto_of_tendsto_of_le_of_le' tendsto_const_nhds h2 (.of_forall fun t => sq_nonneg _) ?_
      filter_upwards [Filter.eventually_ge_atTop 0] with t ht
      rw [one_div, ← div_eq_inv_mul, le_div_iff₀ hm, mul_comm]
      exact hle t ht
    have h3 := (Real.continuous_sqrt.tendsto 0).comp h0
    rw [Real.sqrt_zero] at h3
    exact h3.congr fun t => Real.sqrt_sq (hf t)
  have hww : ∀ w : V3, w ⬝ᵥ w = npNorm w ^ 2 := by
    intro w
    rw [npNorm, Real.sq_sqrt (Finset.sum_nonneg fun i _ => sq_nonneg _)]
    simp only [dotProduct, sq]
  refine ⟨hsq _ (fun t => Real.sqrt_nonneg _) (1 / 2) (by norm_num) fun t ht => ?_,
    hsq _ (fun t => Real.sqrt_nonneg _) c.alpha ha fun t ht => ?_⟩
  · have := hbound t ht
    rw [hww] at this
    have h2 : 0 ≤ c.alpha * npNorm ((st t).attrs.attitude - tr.memory • qc) ^ 2 := by positivity
    linarith
  · have := hbound t ht
    have h2 := dot_self_nonneg3 (st t).attrs.bodyAngVel
    linarith

/-! ## Runs exist -/

/-- The closed loop as a field. -/
noncomputable def loopField (alpha gamma sgn : ℝ) (qc : V4) (x : V4 × V3) : V4 × V3 :=
  ((0.5 : ℝ) • product x.1 (pureQ x.2), -(sgn * alpha) • vecPart (errorQuat x.1 qc) - gamma • x.2)

theorem loopField_contDiff (alpha gamma sgn : ℝ) (qc : V4) : ContDiff ℝ 1 (loopField alpha gamma sgn qc) := by
  have c1 : ∀ i : Fin 4, ContDiff ℝ 1 (fun x : V4 × V3 => x.1 i) := fun i => (contDiff_apply ℝ ℝ i).comp contDiff_fst
  have c2 : ∀ i : Fin 3, ContDiff ℝ 1 (fun x : V4 × V3 => x.2 i) := fun i => (contDiff_apply ℝ ℝ i).comp contDiff_snd
  have p : ∀ i, ContDiff ℝ 1 (fun x : V4 × V3 => product x.1 (pureQ x.2) i) := by
    intro i
    fin_cases i
    all_goals
      simp only [Fin.zero_eta, Fin.mk_one, Fin.reduceFinMk, product_0, product_1, product_2, product_3, pureQ,
        Matrix.cons_val_zero, Matrix.cons_val_one, cons4_2, cons4_3, mul_zero]
      fun_prop
  have e : ∀ i, ContDiff ℝ 1 (fun x : V4 × V3 => vecPart (errorQuat x.1 qc) i) := by
    intro i
    fin_cases i
    all_goals
      simp only [Fin.zero_eta, Fin.mk_one, Fin.reduceFinMk, vecPart_0, vecPart_1, vecPart_2, errorQuat, product_1,
        product_2, product_3]
      fun_prop
  refine ContDiff.prodMk ?_ ?_
  · exact (contDiff_pi.2 p).const_smul _
  · exact ((contDiff_pi.2 e).const_smul _).sub (contDiff_snd.const_smul _)

/-- Over a compact set of starts the solutions of a smooth field last for a common time. -/
theorem uniform_time {f : V4 × V3 → V4 × V3} (hf : ContDiff ℝ 1 f) {K : Set (V4 × V3)} (hK : IsCompact K) :
    ∃ ε > 0, ∀ x ∈ K, ∃ y : ℝ → V4 × V3, y 0 = x ∧ ∀ t ∈ Set.Ioo (-ε) ε, HasDerivAt y (f (y t)) t := by
  refine hK.induction_on (p := fun S => ∃ ε > 0, ∀ x ∈ S, ∃ y : ℝ → V4 × V3, y 0 = x ∧
    ∀ t ∈ Set.Ioo (-ε) ε, HasDerivAt y (f (y t)) t) ⟨1, one_pos, by simp⟩ ?_ ?_ ?_
  · rintro S S' hs ⟨ε, hε, h⟩
    exact ⟨ε, hε, fun x hx => h x (hs hx)⟩
  · rintro S S' ⟨ε, hε, h⟩ ⟨ε', hε', h'⟩
    refine ⟨min ε ε', lt_min hε hε', ?_⟩
    rintro x (hx | hx)
    · obtain ⟨y, h0, hy⟩ := h x hx
      exact ⟨y, h0, fun t ht => hy t ⟨by linarith [ht.1, min_le_left ε ε'], ht.2.trans_le (min_le_left _ _)⟩⟩
    · obtain ⟨y, h0, hy⟩ := h' x hx
      exact ⟨y, h0, fun t ht => hy t ⟨by linarith [ht.1, min_le_right ε ε'], ht.2.trans_le (min_le_right _ _)⟩⟩
  · intro x _
    obtain ⟨r, hr, ε, hε, h⟩ :=
      (hf.contDiffAt (x := x)).exists_forall_mem_closedBall_exists_eq_forall_mem_Ioo_hasDerivAt 0
    refine ⟨_, mem_nhdsWithin_of_mem_nhds (Metric.closedBall_mem_nhds x hr), ε, hε, fun z hz => ?_⟩
    obtain ⟨y, h0, hy⟩ := h z hz
    exact ⟨y, h0, fun t ht => hy t (by simpa using ht)⟩

/-- The state `st` turned to the attitude and rate `x`. -/
def withMotion {n : ℕ} (st : SatState n) (x : V4 × V3) : SatState n :=
  { st with attrs := { st.attrs with attitude := x.1, bodyAngVel := x.2 } }

/-- Every controller that can find the objects around it has an instant in every state. -/
theorem instant_exists (c : RwController) {mass : ℝ} {dims : V3} {ab cd : ℝ} (hb : Built c.sat mass dims ab cd)
    (hm : mass ≠ 0) (hw : UnlimitedWheels c.sat) (hav : c.objAvoidance = false)
    (s0 : Measurements c.sat.rw.n) (objs0 : List V3) (hobj : c.objects s0 = .ok objs0) (qc : V4) (tr : Trigger)
    (st : SatState c.sat.rw.n) :
    ∃ d, Spec.Instant c qc 0 tr (tr.step (errorQuat st.attrs.attitude qc 0)) st d ∧
      (d.att, d.rate) = loopField c.alpha c.gamma (tr.step (errorQuat st.attrs.attitude qc 0)).memory qc
        (st.attrs.attitude, st.attrs.bodyAngVel) := by
  set s : Measurements c.sat.rw.n :=
    { s0 with att := st.attrs.attitude, rate := st.attrs.bodyAngVel, whl := st.attrs.wheelVel }
  obtain ⟨objs, ho⟩ : ∃ objs, c.objects s = .ok objs := by
    unfold RwController.objects at hobj ⊢
    split at hobj
    · cases hobj
    · next f hf =>
      split at hobj
      · cases hobj
      · next sun hsun => exact ⟨_, by rw [show s.pos = s0.pos from rfl, hsun]⟩
  have hs : Measured s st := ⟨rfl, rfl, rfl⟩
  obtain ⟨law, c', a, d, h1, h2, h3, h4, h5, h6⟩ :=
    C69_acceleration { c with trigger := tr } hb hm hw hav st s hs objs ho 0 0 qc 0 0
  have hstep : c'.trigger = tr.step (errorQuat st.attrs.attitude qc 0) := by rw [h4]; rfl
  refine ⟨d, ⟨s, objs, law, c', a, 0, 0, hs, ho, .inl hav, h1, hstep, h2, ?_, h3⟩, ?_⟩
  · rw [Matrix.mulVec_zero]; simp [npNorm]
  · have z : ∀ q : V4, sandwich q 0 = 0 := fun q => by rw [sandwich_eq_dcm, Matrix.mulVec_zero]
    rw [h6, z, hstep, h5]
    simp only [LinearMap.map_zero, add_zero, sub_zero, Matrix.mulVec_zero, zero_sub]
    rw [← neg_smul]
    rfl

theorem step_hold {tr : Trigger} {x : ℝ} (h : -tr.halfWidth < x * tr.memory) : tr.step x = tr := by
  rw [Trigger.step, if_neg (not_le.2 h)]

/-- A run is continued along a solution of the field as long as the trigger holds its sign. -/
theorem run_flow (c : RwController) {mass : ℝ} {dims : V3} {ab cd : ℝ} (hb : Built c.sat mass dims ab cd)
    (hm : mass ≠ 0) (hw : UnlimitedWheels c.sat) (hav : c.objAvoidance = false)
    (s0 : Measurements c.sat.rw.n) (objs0 : List V3) (hobj : c.objects s0 = .ok objs0) {qc : V4} {tr0 tr : Trigger}
    {st0 st : SatState c.sat.rw.n} {t : ℝ} {n : ℕ} (hrun : Spec.LoopRun c qc 0 tr0 st0 t tr st n) {y : ℝ → V4 × V3}
    (h0 : y 0 = (st.attrs.attitude, st.attrs.bodyAngVel)) {T : ℝ} (hT : 0 ≤ T)
    (hy : ∀ τ ∈ Set.Icc 0 T, HasDerivAt y (loopField c.alpha c.gamma tr.memory qc (y τ)) τ)
    (hh : ∀ τ ∈ Set.Ico 0 T, -tr.halfWidth < errorQuat (y τ).1 qc 0 * tr.memory) :
    Spec.LoopRun c qc 0 tr0 st0 (t + T) tr (withMotion st (y T)) n := by
  have e0 : withMotion st (y 0) = st := by rw [h0]; rfl
  refine .flow (fun τ => withMotion st (y τ)) T hT (e0.symm ▸ hrun)
    (fun τ hτ => (hy τ hτ).continuousAt.fst.continuousWithinAt)
    (fun τ hτ => (hy τ hτ).continuousAt.snd.continuousWithinAt) fun τ hτ => ?_
  obtain ⟨d, hi, hd⟩ := instant_exists c hb hm hw hav s0 objs0 hobj qc tr (withMotion st (y τ))
  have hst : tr.step (errorQuat (withMotion st (y τ)).attrs.attitude qc 0) = tr := step_hold (hh τ hτ)
  rw [hst] at hi hd
  have hd' := hy τ ⟨hτ.1, hτ.2.le⟩
  have e : loopField c.alpha c.gamma tr.memory qc (y τ) = (d.att, d.rate) := hd.symm
  rw [e] at hd'
  exact ⟨d, hi, hd'.fst, hd'.snd⟩

/-- One step of the construction: a run goes on for the time `h`, or to a switch before. -/
theorem run_progress (c : RwController) {mass : ℝ} {dims : V3} {ab cd : ℝ} (hb : Built c.sat mass dims ab cd)
    (hm : mass ≠ 0) (hw : UnlimitedWheels c.sat) (hav : c.objAvoidance = false)
    (s0 : Measurements c.sat.rw.n) (objs0 : List V3) (hobj : c.objects s0 = .ok objs0) {qc : V4} {tr0 tr : Trigger}
    {st0 st : SatState c.sat.rw.n} {t : ℝ} {n : ℕ} (hrun : Spec.LoopRun c qc 0 tr0 st0 t tr st n)
    (hmem : tr.memory = 1 ∨ tr.memory = -1) (hhw : 0 < tr.halfWidth) {y : ℝ → V4 × V3}
    (h0 : y 0 = (st.attrs.attitude, st.attrs.bodyAngVel)) {h : ℝ} (hh : 0 ≤ h)
    (hy : ∀ τ ∈ Set.Icc 0 h, HasDerivAt y (loopField c.alpha c.gamma tr.memory qc (y τ)) τ) :
    (∃ st', Spec.LoopRun c qc 0 tr0 st0 (t + h) tr st' n) ∨
    ∃ τ tr' st', 0 ≤ τ ∧ τ ≤ h ∧ Spec.LoopRun c qc 0 tr0 st0 (t + τ) tr' st' (n + 1) := by
  have hcont : ContinuousOn (fun τ => errorQuat (y τ).1 qc 0 * tr.memory) (Set.Icc 0 h) := by
    have h1 : ContinuousOn (fun τ => (y τ).1) (Set.Icc 0 h) := fun τ hτ => (hy τ hτ).continuousAt.fst.continuousWithinAt
    exact (continuousOn_pi.1 ((errorQuat_continuous qc).comp_continuousOn h1) 0).mul continuousOn_const
  set S := Set.Icc 0 h ∩ (fun τ => errorQuat (y τ).1 qc 0 * tr.memory) ⁻¹' Set.Iic (-tr.halfWidth) with hS
  have hclosed : IsClosed S := hcont.preimage_isClosed_of_isClosed isClosed_Icc isClosed_Iic
  by_cases hne : S.Nonempty
  · right
    have hbdd : BddBelow S := ⟨0, fun τ hτ => hτ.1.1⟩
    have hmin := hclosed.csInf_mem hne hbdd
    set τ := sInf S
    have hhold : ∀ σ ∈ Set.Ico 0 τ, -tr.halfWidth < errorQuat (y σ).1 qc 0 * tr.memory := by
      intro σ hσ
      by_contra hle
      have : τ ≤ σ := csInf_le hbdd ⟨⟨hσ.1, hσ.2.le.trans hmin.1.2⟩, not_lt.1 hle⟩
      exact absurd hσ.2 (not_lt.2 this)
    have hr := run_flow c hb hm hw hav s0 objs0 hobj hrun h0 hmin.1.1
      (fun σ hσ => hy σ ⟨hσ.1, hσ.2.trans hmin.1.2⟩) hhold
    obtain ⟨d, hi, -⟩ := instant_exists c hb hm hw hav s0 objs0 hobj qc tr (withMotion st (y τ))
    exact ⟨τ, _, _, hmin.1.1, hmin.1.2, .switch hr hi (trigger_switches hmem hhw hmin.2)⟩
  · left
    refine ⟨_, run_flow c hb hm hw hav s0 objs0 hobj hrun h0 hh hy fun τ hτ => ?_⟩
    by_contra hle
    exact hne ⟨τ, ⟨hτ.1, hτ.2.le⟩, not_lt.1 hle⟩

/-- Runs do not die out: from every state, for every duration, there is a run (for every controller that can find the
objects around it, without disturbing torques). So the theorems above are not empty. -/
theorem C140_exists (c : RwController) (ha : 0 < c.alpha) (hg : 0 ≤ c.gamma) {mass : ℝ} {dims : V3} {ab cd : ℝ}
    (hb : Built c.sat mass dims ab cd) (hm : mass ≠ 0) (hw : UnlimitedWheels c.sat) (hav : c.objAvoidance = false)
    (s0 : Measurements c.sat.rw.n) (objs0 : List V3) (hobj : c.objects s0 = .ok objs0) (qc : V4) (hqc : npNorm qc = 1)
    (tr0 : Trigger) (hh : 0 < tr0.halfWidth) (hm0 : tr0.memory = 1 ∨ tr0.memory = -1) (st0 : SatState c.sat.rw.n)
    (hu : npNorm st0.attrs.attitude = 1) (T : ℝ) (hT : 0 ≤ T) :
    ∃ tr st n, Spec.LoopRun c qc 0 tr0 st0 T tr st n := by
  set V0 := lyap c.alpha tr0.memory (errorQuat st0.attrs.attitude qc 0) st0.attrs.bodyAngVel with hV0
  set R := Real.sqrt (2 * V0)
  set K : Set (V4 × V3) := Metric.closedBall 0 1 ×ˢ Metric.closedBall 0 R with hK
  have hKc : IsCompact K := (isCompact_closedBall _ _).prod (isCompact_closedBall _ _)
  -- the runs stay in a compact set
  have hin : ∀ t tr st n, Spec.LoopRun c qc 0 tr0 st0 t tr st n →
      tr.halfWidth = tr0.halfWidth ∧ (tr.memory = 1 ∨ tr.memory = -1) ∧ 4 * c.alpha * tr0.halfWidth * n ≤ V0 ∧
      (st.attrs.attitude, st.attrs.bodyAngVel) ∈ K := by
    intro t tr st n hrun
    obtain ⟨i1, i2, i3⟩ := LoopRun.hybrid hb hm hw hh hm0 hrun
    obtain ⟨-, j2, j3, j4⟩ := C69_run hg ha hqc hm0 hu i3
    refine ⟨i1, i2, j4, ?_, ?_⟩
    · rw [mem_closedBall_zero_iff]
      refine (pi_norm_le_iff_of_nonneg zero_le_one).2 fun i => ?_
      have hu' := (isUnit4_iff _).2 j2
      unfold IsUnit4 at hu'
      rw [Real.norm_eq_abs]
      apply abs_le_one_iff_mul_self_le_one.2
      fin_cases i <;> simp only [Fin.zero_eta, Fin.mk_one, Fin.reduceFinMk] <;>
        nlinarith [sq_nonneg (st.attrs.attitude 0), sq_nonneg (st.attrs.attitude 1), sq_nonneg (st.attrs.attitude 2),
          sq_nonneg (st.attrs.attitude 3)]
    · rw [mem_closedBall_zero_iff]
      refine (pi_norm_le_iff_of_nonneg (Real.sqrt_nonneg _)).2 fun i => ?_
      rw [Real.norm_eq_abs]
      apply Real.abs_le_sqrt
      have hd := quat_dist i2 j2 hqc
      have hpos : 0 ≤ 2 * c.alpha * (1 - tr.memory * errorQuat st.attrs.attitude qc 0) := by
        have := sq_nonneg (npNorm (st.attrs.attitude - tr.memory • qc))
        have h2 : 0 ≤ 1 - tr.memory * errorQuat st.attrs.attitude qc 0 := by linarith
        positivity
      have hn : 0 ≤ 4 * c.alpha * tr0.halfWidth * n := by positivity
      have hle : st.attrs.bodyAngVel ⬝ᵥ st.attrs.bodyAngVel ≤ 2 * V0 := by
        unfold lyap at j3 hV0
        linarith
      rw [Matrix.vec3_dotProduct] at hle
      fin_cases i <;> simp only [Fin.zero_eta, Fin.mk_one, Fin.reduceFinMk] <;>
        nlinarith [sq_nonneg (st.attrs.bodyAngVel 0), sq_nonneg (st.attrs.bodyAngVel 1), sq_nonneg (st.attrs.bodyAngVel 2)]
  obtain ⟨e1, he1, hs1⟩ := uniform_time (loopField_contDiff c.alpha c.gamma 1 qc) hKc
  obtain ⟨e2, he2, hs2⟩ := uniform_time (loopField_contDiff c.alpha c.gamma (-1) qc) hKc
  set ε := min e1 e2 / 2 with hε
  have hεp : 0 < ε := by have := lt_min he1 he2; positivity
  have hsol : ∀ sgn : ℝ, (sgn = 1 ∨ sgn = -1) → ∀ x ∈ K, ∃ y : ℝ → V4 × V3, y 0 = x ∧
      ∀ τ ∈ Set.Icc 0 ε, HasDerivAt y (loopField c.alpha c.gamma sgn qc (y τ)) τ := by
    rintro sgn (rfl | rfl) x hx
    · obtain ⟨y, h0, hy⟩ := hs1 x hx
      exact ⟨y, h0, fun τ hτ => hy τ ⟨by linarith [hτ.1], by have := min_le_left e1 e2; linarith [hτ.2]⟩⟩
    · obtain ⟨y, h0, hy⟩ := hs2 x hx
      exact ⟨y, h0, fun τ hτ => hy τ ⟨by linarith [hτ.1], by have := min_le_right e1 e2; linarith [hτ.2]⟩⟩
  obtain ⟨N, hN⟩ := exists_nat_gt (V0 / (4 * c.alpha * tr0.halfWidth))
  have hnN : ∀ t tr st n, Spec.LoopRun c qc 0 tr0 st0 t tr st n → n ≤ N := by
    intro t tr st n hrun
    have h1 := (hin t tr st n hrun).2.2.1
    have h2 : (n : ℝ) ≤ V0 / (4 * c.alpha * tr0.halfWidth) := by
      rw [le_div_iff₀ (by positivity)]; linarith
    exact_mod_cast (h2.trans_lt hN).le
  -- induction on the switches and steps left
  have key : ∀ m : ℕ, ∀ t tr st (n k : ℕ), Spec.LoopRun c qc 0 tr0 st0 t tr st n → t ≤ T → T - t ≤ k * ε → (N - n) + k ≤ m →
      ∃ tr st n, Spec.LoopRun c qc 0 tr0 st0 T tr st n := by
    intro m
    induction m with
    | zero =>
      intro t tr st n k hrun ht hk hm'
      have : k = 0 := by omega
      subst this
      have : t = T := by simp at hk; linarith
      exact ⟨tr, st, n, this ▸ hrun⟩
    | succ m ih =>
      intro t tr st n k hrun ht hk hm'
      obtain ⟨g1, g2, -, g4⟩ := hin t tr st n hrun
      obtain ⟨y, h0, hy⟩ := hsol tr.memory g2 _ g4
      have hstep := run_progress c hb hm hw hav s0 objs0 hobj hrun g2 (g1 ▸ hh) h0 (h := min ε (T - t))
        (le_min hεp.le (by linarith)) fun τ hτ => hy τ ⟨hτ.1, hτ.2.trans (min_le_left _ _)⟩
      have hmin := min_le_right ε (T - t)
      rcases hstep with ⟨st', hr⟩ | ⟨τ, tr', st', hτ0, hτ, hr⟩
      · rcases min_choice ε (T - t) with he | he
        · rw [he] at hr hmin
          rcases k with _ | k
          · have : t = T := by simp at hk; linarith
            exact ⟨tr, st, n, this ▸ hrun⟩
          · refine ih _ _ _ _ k hr (by linarith) ?_ (by omega)
            push_cast at hk; linarith
        · rw [he] at hr
          exact ⟨tr, st', n, by rwa [add_sub_cancel] at hr⟩
      · have := hnN _ _ _ _ hr
        exact ih _ _ _ _ k hr (by linarith) (by linarith) (by omega)
  obtain ⟨k, hk⟩ := exists_nat_ge (T / ε)
  refine key _ 0 tr0 st0 0 k .start hT ?_ le_rfl
  rw [div_le_iff₀ hεp] at hk
  linarith

/-- The commanded attitude attracts: for every bound on the initial error and every tolerance there is a time after
which every run of a controller made by the constructor with positive damping, from whatever state within the bound and
with whatever switches on the way, is within the tolerance of rest in the commanded attitude (or its antipode, which is the
same attitude). -/
theorem C140_attracts (model : CtlModel) (damping natFreq : ℝ) (hd : 0 < damping) (hn : 0 < natFreq) (c : RwController)
    (hc : RwController.init model damping natFreq = .ok c) (av : Bool) {mass : ℝ} {dims : V3} {ab cd : ℝ}
    (hb : Built c.sat mass dims ab cd) (hm : mass ≠ 0) (hw : UnlimitedWheels c.sat) (V e : ℝ) (he : 0 < e) :
    ∃ T, ∀ (qc : V4), npNorm qc = 1 → ∀ (tr0 tr : Trigger) (st0 st : SatState c.sat.rw.n) (t : ℝ) (n : ℕ),
      tr0.halfWidth = 0.3 → (tr0.memory = 1 ∨ tr0.memory = -1) → npNorm st0.attrs.attitude = 1 →
      st0.attrs.bodyAngVel ⬝ᵥ st0.attrs.bodyAngVel / 2
        + c.alpha * npNorm (st0.attrs.attitude - tr0.memory • qc) ^ 2 ≤ V →
      Spec.LoopRun { c with objAvoidance := av } qc 0 tr0 st0 t tr st n → T ≤ t →
      npNorm st.attrs.bodyAngVel ≤ e ∧ ∃ s : ℝ, (s = 1 ∨ s = -1) ∧ npNorm (st.attrs.attitude - s • qc) ≤ e := by
  obtain ⟨ha, hal, hga, hhw, hmem, -⟩ := C69_gains model damping natFreq c hc
  have hg : 0 < c.gamma := by rw [hga]; positivity
  obtain ⟨k, C, hk, -, hall⟩ := C140_converges (hw := 0.3) ha hg (by norm_num) (by norm_num)
  obtain ⟨N, hN⟩ := exists_nat_ge (V / (4 * c.alpha * 0.3))
  -- the bound falls below the tolerance
  have hexp : Filter.Tendsto (fun T => 3 ^ (N + 1) * V * Real.exp (-k * T)) Filter.atTop (𝓝 0) := by
    have h1 : Filter.Tendsto (fun T => -(k * T)) Filter.atTop Filter.atBot :=
      Filter.tendsto_neg_atTop_atBot.comp (Filter.tendsto_id.const_mul_atTop hk)
    have h2 := (Real.tendsto_exp_atBot.comp h1).const_mul (3 ^ (N + 1) * V)
    simp only [mul_zero] at h2
    exact h2.congr fun T => by simp [neg_mul]
  have hmp : 0 < min (e ^ 2 / 2) (c.alpha * e ^ 2) := by positivity
  obtain ⟨T, hT⟩ := Filter.eventually_atTop.1 (hexp.eventually (gt_mem_nhds hmp))
  refine ⟨T, fun qc hqc tr0 tr st0 st t n hh0 hm0 hu0 hV hrun ht => ?_⟩
  obtain ⟨hp, hle⟩ := hall { c with objAvoidance := av } rfl rfl mass dims ab cd hb hm hw qc hqc 0 tr0 tr st0 st t n hh0 hm0 hu0 hrun
  have hsw := C140_switches { c with objAvoidance := av } ha hg.le hb hm hw qc hqc tr0 tr st0 st t n (by rw [hh0]; norm_num) hm0 hu0 hrun
  have hV0 : 0 ≤ st0.attrs.bodyAngVel ⬝ᵥ st0.attrs.bodyAngVel / 2
        + c.alpha * npNorm (st0.attrs.attitude - tr0.memory • qc) ^ 2 := by
    have := dot_self_nonneg3 st0.attrs.bodyAngVel
    positivity
  have hnN : n ≤ N := by
    have h2 : (n : ℝ) ≤ V / (4 * c.alpha * 0.3) := by
      rw [le_div_iff₀ (by positivity)]; rw [hh0] at hsw; linarith
    exact_mod_cast h2.trans hN
  have hfin : st.attrs.bodyAngVel ⬝ᵥ st.attrs.bodyAngVel / 2
      + c.alpha * npNorm (st.attrs.attitude - tr.memory • qc) ^ 2 < min (e ^ 2 / 2) (c.alpha * e ^ 2) := by
    refine lt_of_le_of_lt (hle.trans ?_) (hT t ht)
    have hpow : (3 : ℝ) ^ (n + 1) ≤ 3 ^ (N + 1) := pow_le_pow_right₀ (by norm_num) (by omega)
    have hE := (Real.exp_pos (-k * t)).le
    calc _ = 3 ^ (n + 1) * (Real.exp (-k * t) * (st0.attrs.bodyAngVel ⬝ᵥ st0.attrs.bodyAngVel / 2
        + c.alpha * npNorm (st0.attrs.attitude - tr0.memory • qc) ^ 2)) := by ring
      _ ≤ 3 ^ (N + 1) * (Real.exp (-k * t) * V) := by gcongr
      _ = _ := by ring
  have hww : st.attrs.bodyAngVel ⬝ᵥ st.attrs.bodyAngVel = npNorm st.attrs.bodyAngVel ^ 2 := by
    rw [npNorm, Real.sq_sqrt (Finset.sum_nonneg fun i _ => sq_nonneg _)]
    simp only [dotProduct, sq]
  have m1 := min_le_left (e ^ 2 / 2) (c.alpha * e ^ 2)
  have m2 := min_le_right (e ^ 2 / 2) (c.alpha * e ^ 2)
  have p1 : 0 ≤ c.alpha * npNorm (st.attrs.attitude - tr.memory • qc) ^ 2 := by positivity
  have p2 := dot_self_nonneg3 st.attrs.bodyAngVel
  refine ⟨?_, tr.memory, hp, ?_⟩
  · refine le_of_sq_le_sq ?_ he.le
    rw [← hww]; linarith
  · refine le_of_sq_le_sq ?_ he.le
    refine le_of_mul_le_mul_left ?_ ha
    linarith

/-- A concrete controller and satellite, turning and away from the command: there is a run of an hour. -/
example : ∃ (model : CtlModel) (c : RwController) (st : SatState c.sat.rw.n) (tr : Trigger)
    (st' : SatState c.sat.rw.n) (n : ℕ),
    RwController.init model 1 1 = .ok c ∧ Built c.sat 2 ![0.1, 0.1, 0.2] 0.8 2.2 ∧ UnlimitedWheels c.sat ∧
    c.trigger.halfWidth = 0.3 ∧ c.trigger.memory = 1 ∧
    npNorm st.attrs.attitude = 1 ∧ st.attrs.bodyAngVel = ![0.1, 0.2, 0.3] ∧
    Spec.LoopRun { c with objAvoidance := false } (product st.attrs.attitude ![0.6, 0, 0.8, 0]) 0 c.trigger st 3600
      tr st' n := by
  obtain ⟨model, c, st, s, objs, hc, hb, hw, hav, hs, hobj, hn, hrate, -⟩ := exLoop ![0.1, 0.2, 0.3] 0 []
  obtain ⟨ha, -, hga, hhw, hmem, -⟩ := C69_gains model 1 1 c hc
  have hu : npNorm st.attrs.attitude = 1 := by rw [← hs.1]; exact hn
  obtain ⟨tr, st', n, hr⟩ := C140_exists { c with objAvoidance := false } ha (by simp only [hga]; norm_num) hb (by norm_num) hw
    rfl s objs hobj (product st.attrs.attitude ![0.6, 0, 0.8, 0])
    ((isUnit4_iff _).1 (isUnit4_product ((isUnit4_iff _).2 hu) (by norm_num [IsUnit4, cons4_2, cons4_3]))) c.trigger
    (by rw [hhw]; norm_num) (.inl hmem) st hu 3600 (by norm_num)
  exact ⟨model, c, st, tr, st', n, hc, hb, hw, hhw, hmem, hu, by rw [← hs.2.1]; exact hrate, hr⟩

/-- A concrete run that moves for a while and then switches the sign: backwards from a state at the edge of the
hysteresis, turning away from the command. -/
example : ∃ (model : CtlModel) (c : RwController) (qc : V4) (st st' : SatState c.sat.rw.n) (tr' : Trigger) (T : ℝ),
    RwController.init model 1 1 = .ok c ∧ Built c.sat 2 ![0.1, 0.1, 0.2] 0.8 2.2 ∧ UnlimitedWheels c.sat ∧
    npNorm st'.attrs.attitude = 1 ∧ npNorm qc = 1 ∧ 0 < T ∧ tr'.memory = -1 ∧
    Spec.LoopRun { c with objAvoidance := false } qc 0 c.trigger st T tr' st' 1 := by
  obtain ⟨model, c, st, s, objs, hc, hb, hw, hav, hs, hobj, hn, hrate, -⟩ := exLoop ![1, 0, 0] 0 []
  obtain ⟨ha, -, hga, hhw, hmem, -⟩ := C69_gains model 1 1 c hc
  have hu : npNorm st.attrs.attitude = 1 := by rw [← hs.1]; exact hn
  set E : V4 := ![-0.3, 0.9, 0.3, 0.1] with hE
  have hEu : IsUnit4 E := by norm_num [IsUnit4, hE, cons4_2, cons4_3]
  set qc := product st.attrs.attitude (conjugate E) with hqc
  have hcj : conjugate (conjugate E) = E := by
    apply vec4_ext <;> simp [conjugate_0, conjugate_1, conjugate_2, conjugate_3]
  have herr : errorQuat st.attrs.attitude qc = E := by
    rw [errorQuat, hqc, conjugate_product, product_assoc, conj_product_self ((isUnit4_iff _).2 hu), product_one, hcj]
  obtain ⟨y, hy0, ε, hε, hy⟩ :=
    ((loopField_contDiff c.alpha c.gamma c.trigger.memory qc).contDiffAt
      (x := (st.attrs.attitude, st.attrs.bodyAngVel))).exists_forall_mem_closedBall_exists_eq_forall_mem_Ioo_hasDerivAt₀ 0
  have hg : HasDerivAt (fun τ => errorQuat (y τ).1 qc 0) (-0.45) 0 := by
    have h1 := (hy 0 ⟨by linarith, by linarith⟩).fst
    have h2 := hasDerivAt_pi.1 (hasDerivAt_product (hasDerivAt_const 0 (conjugate qc)) h1) 0
    refine h2.congr_deriv ?_
    have z : product 0 (y 0).1 = 0 := by
      apply vec4_ext <;> simp [product_0, product_1, product_2, product_3]
    have e : product (conjugate qc) (loopField c.alpha c.gamma c.trigger.memory qc (y 0)).1 =
        (0.5 : ℝ) • product E (pureQ ![1, 0, 0]) := by
      rw [hy0]
      simp only [loopField]
      rw [(C04_product_bilinear _ _ 0 _).2.2.2, ← product_assoc, ← herr, ← hrate, hs.2.1]
      rfl
    simp only [z, Pi.add_apply, Pi.zero_apply, zero_add]
    erw [e]
    norm_num [product_0, pureQ, hE, cons4_2, cons4_3]
  have hev := (hasDerivAt_iff_tendsto_slope.1 hg).eventually (gt_mem_nhds (show (-0.45 : ℝ) < 0 by norm_num))
  rw [eventually_nhdsWithin_iff] at hev
  obtain ⟨r, hr, hball⟩ := Metric.eventually_nhds_iff.1 hev
  set T := min (ε / 2) (r / 2) with hT
  have hTp : 0 < T := lt_min (by linarith) (by linarith)
  have hTe : T < ε := (min_le_left _ _).trans_lt (by linarith)
  have hTr : T < r := (min_le_right _ _).trans_lt (by linarith)
  have hout : ∀ τ ∈ Set.Ico 0 T, -0.3 < errorQuat (y (τ - T)).1 qc 0 := by
    intro τ hτ
    have h := hball (y := τ - T) (by rw [Real.dist_eq, sub_zero, abs_of_neg (by linarith [hτ.2])]; linarith [hτ.1])
      (by simp only [Set.mem_compl_iff, Set.mem_singleton_iff]; linarith [hτ.2])
    have e0 : errorQuat (y 0).1 qc 0 = -0.3 := by rw [hy0]; simp only [herr, hE, Matrix.cons_val_zero]
    rw [slope_def_field, e0, sub_zero] at h
    by_contra hle
    have : 0 ≤ (errorQuat (y (τ - T)).1 qc 0 - -0.3) / (τ - T) :=
      div_nonneg_of_nonpos (by linarith) (by linarith [hτ.2])
    linarith
  have hrun := run_flow { c with objAvoidance := false } hb (by norm_num) hw rfl s objs hobj (qc := qc)
    (tr0 := c.trigger) (tr := c.trigger) (st0 := withMotion st (y (-T))) .start (y := fun τ => y (τ - T))
    (by simp only [zero_sub]; rfl) hTp.le
    (fun τ hτ => (hy (τ - T) ⟨by linarith [hτ.1], by linarith [hτ.2]⟩).comp_sub_const τ T)
    (fun τ hτ => by rw [hhw, hmem, mul_one]; exact hout τ hτ)
  have e1 : withMotion (withMotion st (y (-T))) (y (T - T)) = st := by rw [sub_self, hy0]; rfl
  simp only [e1, zero_add] at hrun
  obtain ⟨d, hi, -⟩ := instant_exists { c with objAvoidance := false } hb (by norm_num) hw rfl s objs hobj qc c.trigger st
  have hx : errorQuat st.attrs.attitude qc 0 * c.trigger.memory ≤ -c.trigger.halfWidth := by
    rw [herr, hmem, hhw]; norm_num [hE]
  have hsw := trigger_switches (.inl hmem) (by rw [hhw]; norm_num) hx
  refine ⟨model, c, qc, _, st, _, T, hc, hb, hw, hu, (isUnit4_iff _).1 (isUnit4_product ((isUnit4_iff _).2 hu) ?_), hTp, ?_,
    .switch hrun hi hsw⟩
  · unfold IsUnit4 at hEu ⊢
    simp only [conjugate_0, conjugate_1, conjugate_2, conjugate_3, neg_sq]
    exact hEu
  · have := (trigger_switch (.inl hmem) (by rw [hhw]; norm_num) hsw).1
    rw [this, hmem]

end Adcs
