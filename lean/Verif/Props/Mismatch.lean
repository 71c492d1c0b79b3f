import Verif.Proofs.Mismatch
import Verif.Props.LimitedTrack

set_option autoImplicit false

/-! # C210: the tracking law does not rely on the exact inertia -/

namespace Adcs

open Str Ctl Sens JDay Quat Vec Dyn
open scoped Matrix

/-- The satellite that flies: as the one the controller `c` was made for, but with the inertia `J`. -/
noncomputable def Spec.flownSat (c : RwController) (J : M3) : Satellite :=
  { c.sat with totalMoment := J, invTotMoment := J⁻¹ }

/-- One instant of the closed loop of the controller `c` and a satellite with the inertia `J` (which `c` does not know), as
in `Spec.Instant`: the controller is given the true state, no object to be avoided is near, and `d` is the derivative
which the library's dynamics give for the flying satellite. -/
def Spec.FlownInstant (c : RwController) (J : M3) (qc : V4) (δ : ℝ) (tr tr' : Trigger) (st : SatState c.sat.rw.n)
    (d : Raw c.sat.rw.n) : Prop :=
  ∃ (s : Measurements c.sat.rw.n) (objs : List V3) (law : V3) (c' : RwController) (a : Fin c.sat.rw.n → ℝ) (F T : V3),
    Measured s st ∧ ({ c with trigger := tr } : RwController).objects s = .ok objs ∧
    (c.objAvoidance = false ∨ Clear c.instruments objs) ∧
    ({ c with trigger := tr } : RwController).tracking s 0 0 qc = (.ok law, c') ∧ c'.trigger = tr' ∧
    c.actuatorCommands law = .ok a ∧ npNorm (J⁻¹ *ᵥ T) ≤ δ ∧ derivative (Spec.flownSat c J) st ⟨F, T⟩ a = .ok d

/-- Runs of this loop: time, memory, state, number of switches. -/
inductive Spec.FlownRun (c : RwController) (J : M3) (qc : V4) (δ : ℝ) (tr0 : Trigger) (st0 : SatState c.sat.rw.n) :
    ℝ → Trigger → SatState c.sat.rw.n → ℕ → Prop
  | start : FlownRun c J qc δ tr0 st0 0 tr0 st0 0
  | flow {t : ℝ} {tr : Trigger} {n : ℕ} (st : ℝ → SatState c.sat.rw.n) (T : ℝ) (hT : 0 ≤ T) :
      FlownRun c J qc δ tr0 st0 t tr (st 0) n →
      ContinuousOn (fun τ => (st τ).attrs.attitude) (Set.Icc 0 T) →
      ContinuousOn (fun τ => (st τ).attrs.bodyAngVel) (Set.Icc 0 T) →
      (∀ τ ∈ Set.Ico 0 T, ∃ d, Spec.FlownInstant c J qc δ tr tr (st τ) d ∧
        HasDerivAt (fun τ => (st τ).attrs.attitude) d.att τ ∧ HasDerivAt (fun τ => (st τ).attrs.bodyAngVel) d.rate τ) →
      FlownRun c J qc δ tr0 st0 (t + T) tr (st T) n
  | switch {t : ℝ} {tr tr' : Trigger} {n : ℕ} {st : SatState c.sat.rw.n} {d : Raw c.sat.rw.n} :
      FlownRun c J qc δ tr0 st0 t tr st n → Spec.FlownInstant c J qc δ tr tr' st d → tr' ≠ tr →
      FlownRun c J qc δ tr0 st0 t tr' st (n + 1)

/-- What happens at an instant: the momentum of the wheels cancels, what is left over of the gyroscopic torque and of the
feedback is proportional to the error of the inertia. -/
theorem flown_instant {c : RwController} {mass : ℝ} {dims : V3} {ab cd : ℝ} (hb : Built c.sat mass dims ab cd)
    (hm : mass ≠ 0) (hw : UnlimitedWheels c.sat) {J : M3} {qc : V4} {δ : ℝ} {tr tr' : Trigger}
    {st : SatState c.sat.rw.n} {d : Raw c.sat.rw.n} (h : Spec.FlownInstant c J qc δ tr tr' st d) :
    tr' = tr.step (errorQuat st.attrs.attitude qc 0) ∧
    d.att = (0.5 : ℝ) • product st.attrs.attitude (pureQ st.attrs.bodyAngVel) ∧
    ∃ x : V3, npNorm x ≤ δ ∧ d.rate = J⁻¹ *ᵥ (npCross st.attrs.bodyAngVel ((c.sat.totalMoment - J) *ᵥ st.attrs.bodyAngVel)
      + c.sat.totalMoment *ᵥ (-(tr'.memory * c.alpha) • vecPart (errorQuat st.attrs.attitude qc)
      - c.gamma • st.attrs.bodyAngVel)) + x := by
  obtain ⟨s, objs, law, c', a, F, T, hs, hobj, hcl, ht, htr, ha, hT, hd⟩ := h
  rw [tracking_clear hobj hcl,
    tracking_plain (c := { c with trigger := tr, objAvoidance := false }) rfl hobj] at ht
  obtain ⟨e1, e2⟩ := Prod.ext_iff.1 ht
  simp only at e1 e2
  have e1 := Except.ok.inj e1
  obtain ⟨a', ha', hta⟩ := hw.accelerations (-law)
  have : a' = a := Except.ok.inj (ha'.symm.trans ha)
  subst this
  have hstep : tr' = tr.step (errorQuat st.attrs.attitude qc 0) := by rw [← htr, ← e2, ← hs.1]; rfl
  have hmem : (tr.sign (errorQuat s.att qc 0)).1 = tr'.memory := by rw [hstep, ← hs.1]; rfl
  have hm' : (Spec.flownSat c J).mass ≠ 0 := by
    show c.sat.mass ≠ 0
    rw [hb.mass_eq.1]; exact hm
  simp only [derivative, npVDiv, if_neg hm'] at hd
  have hd := (Except.ok.inj hd).symm
  refine ⟨hstep, by rw [hd]; rfl, J⁻¹ *ᵥ T, hT, ?_⟩
  have z : ∀ q : V4, sandwich q 0 = 0 := fun q => by rw [sandwich_eq_dcm, Matrix.mulVec_zero]
  have z2 : ∀ v : V3, npCross v 0 = 0 := fun v => by rw [npCross_eq_crossProduct, LinearMap.map_zero]
  rw [hmem, hs.1, hs.2.1, hs.2.2, z, z2, add_zero, sub_zero, sub_zero] at e1
  rw [hd]
  show J⁻¹ *ᵥ (T - c.sat.rw.torque a' - npCross st.attrs.bodyAngVel (c.sat.rw.momentum st.attrs.wheelVel
    + J *ᵥ st.attrs.bodyAngVel)) = _
  rw [hta, ← e1, sub_neg_eq_add, ← Matrix.mulVec_add]
  congr 1
  simp only [npCross_eq_crossProduct, Matrix.sub_mulVec, map_add, map_sub, neg_mul]
  abel

/-- The energy-like function of C140 in terms of the state. -/
theorem energy_lyap {alpha sgn : ℝ} (hs : sgn = 1 ∨ sgn = -1) {n : ℕ} {st : SatState n} {qc : V4}
    (hq : npNorm st.attrs.attitude = 1) (hqc : npNorm qc = 1) :
    st.attrs.bodyAngVel ⬝ᵥ st.attrs.bodyAngVel / 2 + alpha * npNorm (st.attrs.attitude - sgn • qc) ^ 2 =
      lyap alpha sgn (errorQuat st.attrs.attitude qc 0) st.attrs.bodyAngVel := by
  rw [lyap, quat_dist hs hq hqc]; ring

/-- A switch does not raise the strict function while it is below `m`; it lowers it by `2 alpha h`. -/
theorem mis_switch {alpha eps h m sgn : ℝ} (ha : 0 < alpha) (he : 0 < eps) (h1 : eps ^ 2 ≤ alpha / 2) (h0 : 0 < h)
    (hm : eps ^ 2 * m ≤ alpha ^ 2 * h ^ 2 / 4) (hs : sgn = 1 ∨ sgn = -1) {e : V4} (hu : IsUnit4 e) {w : V3}
    (hV : strict alpha eps sgn e w ≤ m) (hsw : e 0 * sgn ≤ -h) :
    strict alpha eps (-sgn) e w + 2 * alpha * h ≤ strict alpha eps sgn e w := by
  have hs2 : sgn ^ 2 = 1 := by rcases hs with rfl | rfl <;> norm_num
  have hv := vecPart_unit hu
  have hx : sgn * e 0 ≤ 1 := by
    have h4 := dot_self_nonneg3 (vecPart e)
    have : (sgn * e 0) ^ 2 ≤ 1 := by rw [mul_pow, hs2]; linarith
    exact (abs_le.1 ((sq_le_one_iff_abs_le_one _).1 this)).2
  have hb := (strict_between ha he h1 hs hu w).1
  unfold lyap at hb
  have haw : w ⬝ᵥ w ≤ 4 * m := by
    have : 0 ≤ 2 * alpha * (1 - sgn * e 0) := mul_nonneg (by linarith) (by linarith)
    linarith
  have hp : (vecPart e ⬝ᵥ w) ^ 2 ≤ w ⬝ᵥ w := by
    refine (dot_sq_le _ _).trans (mul_le_of_le_one_left (dot_self_nonneg3 _) ?_)
    rw [hv]; linarith [sq_nonneg (e 0)]
  have hpe : |eps * (sgn * (vecPart e ⬝ᵥ w))| ≤ alpha * h := by
    refine abs_le_of_sq_le_sq ?_ (by positivity)
    rw [mul_pow, mul_pow, hs2, one_mul, mul_pow]
    have := mul_le_mul_of_nonneg_left (hp.trans haw) (sq_nonneg eps)
    linarith
  have hpe := (abs_le.1 hpe).1
  have hah : alpha * (e 0 * sgn) ≤ alpha * -h := mul_le_mul_of_nonneg_left hsw ha.le
  unfold strict lyap
  linarith

theorem exp_le_one_of {k t : ℝ} (hk : 0 < k) (ht : 0 ≤ t) : Real.exp (-k * t) ≤ 1 := by
  rw [Real.exp_le_one_iff]
  have := mul_nonneg hk.le ht
  linarith

/-- For every controller, every bound on the rate at the beginning and every bound on the disturbances there is a
tolerance such that the tracking law brings every satellite whose inertia is within the tolerance of the one assumed to
the commanded attitude: rate and distance from the command fall off exponentially down to a floor that is proportional to
the disturbances (so to zero without), and without disturbances the sign switches finitely often. -/
theorem C210_converges (c : RwController) (ha : 0 < c.alpha) (hg : 0 < c.gamma) {mass : ℝ} {dims : V3} {ab cd : ℝ}
    (hb : Built c.sat mass dims ab cd) (hm : mass ≠ 0) (hw : UnlimitedWheels c.sat) {h : ℝ} (h0 : 0 < h) (h1 : h < 1)
    (M Δ : ℝ) : ∃ ε κ C : ℝ, 0 < ε ∧ 0 < κ ∧ 0 ≤ C ∧
      ∀ J : M3, (∀ i j, |J i j - c.sat.totalMoment i j| ≤ ε) →
      ∀ (qc : V4), npNorm qc = 1 → ∀ (δ : ℝ), 0 ≤ δ → δ ≤ Δ →
      ∀ (tr0 tr : Trigger) (st0 st : SatState c.sat.rw.n) (t : ℝ) (n : ℕ),
      tr0.halfWidth = h → (tr0.memory = 1 ∨ tr0.memory = -1) → npNorm st0.attrs.attitude = 1 →
      npNorm st0.attrs.bodyAngVel ≤ M → Spec.FlownRun c J qc δ tr0 st0 t tr st n →
      0 ≤ t ∧ (tr.memory = 1 ∨ tr.memory = -1) ∧ tr.halfWidth = h ∧ npNorm st.attrs.attitude = 1 ∧
      st.attrs.bodyAngVel ⬝ᵥ st.attrs.bodyAngVel / 2
          + c.alpha * npNorm (st.attrs.attitude - tr.memory • qc) ^ 2 ≤
        3 * Real.exp (-κ * t) * (st0.attrs.bodyAngVel ⬝ᵥ st0.attrs.bodyAngVel / 2
          + c.alpha * npNorm (st0.attrs.attitude - tr0.memory • qc) ^ 2) + C * δ ^ 2 ∧
      (δ = 0 → 2 * c.alpha * h * n ≤ 3 / 2 * (st0.attrs.bodyAngVel ⬝ᵥ st0.attrs.bodyAngVel / 2
          + c.alpha * npNorm (st0.attrs.attitude - tr0.memory • qc) ^ 2)) := by
  obtain ⟨eps, k, he, hk, r1, r2, r3, r4, r5⟩ := mis_consts ha hg h0 h1 M Δ
  obtain ⟨m, hmdef⟩ : ∃ m, m = 3 / 2 * (M ^ 2 / 2 + 4 * c.alpha) + 1 + 4 * (1 / c.gamma + eps / c.alpha) * Δ ^ 2 / k :=
    ⟨_, rfl⟩
  rw [← hmdef] at r5
  obtain ⟨A, hA⟩ : ∃ A, A = 2 * (1 / c.gamma + eps / c.alpha) * (32 * m + 8 * c.alpha + 16 * c.gamma ^ 2) := ⟨_, rfl⟩
  have hm0 : 0 < m := by rw [hmdef]; positivity
  have hA0 : 0 < A := by rw [hA]; positivity
  obtain ⟨ρ, hρ, hρ2⟩ : ∃ ρ > 0, ρ ^ 2 * A ≤ k / 2 := by
    refine ⟨Real.sqrt (k / 2 / A), Real.sqrt_pos.2 (by positivity), ?_⟩
    rw [Real.sq_sqrt (by positivity), div_mul_cancel₀ _ hA0.ne']
  obtain ⟨lam, hl, hlow⟩ := inertia_lower hb
  obtain ⟨ε, hε, hall⟩ := mis_matrix hl hlow hρ
  refine ⟨ε, k / 2, 8 * (1 / c.gamma + eps / c.alpha) / k, hε, by positivity, by positivity, ?_⟩
  intro J hJ qc hqc δ hδ hδΔ tr0 tr st0 st t n hh0 hmem0 hu0 hM hrun
  obtain ⟨hinv, hD, hX⟩ := hall J hJ
  obtain ⟨G, hG⟩ : ∃ G, G = 4 * (1 / c.gamma + eps / c.alpha) * δ ^ 2 / k := ⟨_, rfl⟩
  have hG0 : 0 ≤ G := by rw [hG]; positivity
  have hGm : 3 / 2 * (M ^ 2 / 2 + 4 * c.alpha) + 1 + G ≤ m := by
    rw [hG, hmdef]; gcongr
  -- the beginning
  have hb0 := (strict_between ha he r1 hmem0 (errorQuat_unit ((isUnit4_iff _).2 hu0) ((isUnit4_iff _).2 hqc))
    st0.attrs.bodyAngVel)
  have hl0 : lyap c.alpha tr0.memory (errorQuat st0.attrs.attitude qc 0) st0.attrs.bodyAngVel ≤
      M ^ 2 / 2 + 4 * c.alpha := by
    have e1 : st0.attrs.bodyAngVel ⬝ᵥ st0.attrs.bodyAngVel ≤ M ^ 2 := by
      rw [dot_self3]; exact pow_le_pow_left₀ (npNorm_nonneg _) hM 2
    have hu := errorQuat_unit ((isUnit4_iff _).2 hu0) ((isUnit4_iff _).2 hqc)
    have hs2 : tr0.memory ^ 2 = 1 := by rcases hmem0 with h | h <;> rw [h] <;> norm_num
    have e2 : -1 ≤ tr0.memory * errorQuat st0.attrs.attitude qc 0 := by
      have h4 := dot_self_nonneg3 (vecPart (errorQuat st0.attrs.attitude qc))
      rw [vecPart_unit hu] at h4
      have : (tr0.memory * errorQuat st0.attrs.attitude qc 0) ^ 2 ≤ 1 := by rw [mul_pow, hs2]; linarith
      exact (abs_le.1 ((sq_le_one_iff_abs_le_one _).1 this)).1
    have e3 : c.alpha * (1 - tr0.memory * errorQuat st0.attrs.attitude qc 0) ≤ c.alpha * 2 :=
      mul_le_mul_of_nonneg_left (by linarith) ha.le
    unfold lyap
    linarith
  have hlpos : 0 ≤ lyap c.alpha tr0.memory (errorQuat st0.attrs.attitude qc 0) st0.attrs.bodyAngVel :=
    (C69_definite c.alpha tr0.memory ha hmem0 st0.attrs.attitude qc hu0 hqc st0.attrs.bodyAngVel).1
  obtain ⟨V0, hV0⟩ : ∃ V0, V0 = strict c.alpha eps tr0.memory (errorQuat st0.attrs.attitude qc) st0.attrs.bodyAngVel :=
    ⟨_, rfl⟩
  rw [← hV0] at hb0
  have hV0pos : 0 ≤ V0 := by linarith [hb0.1]
  have hV0m : V0 + G < m := by linarith [hb0.2]
  have key : 0 ≤ t ∧ (tr.memory = 1 ∨ tr.memory = -1) ∧ tr.halfWidth = h ∧ npNorm st.attrs.attitude = 1 ∧
      strict c.alpha eps tr.memory (errorQuat st.attrs.attitude qc) st.attrs.bodyAngVel ≤
        V0 * Real.exp (-(k / 2) * t) + G ∧
      (δ = 0 → strict c.alpha eps tr.memory (errorQuat st.attrs.attitude qc) st.attrs.bodyAngVel
        + 2 * c.alpha * h * n ≤ V0) := by
    induction hrun with
    | start => exact ⟨le_rfl, hmem0, hh0, hu0, by simp [← hV0, hG0], fun _ => by simp [← hV0]⟩
    | @flow t tr n st T hT _ hcq hcw hstep ih =>
      obtain ⟨i0, i1, i2, i3, i4, i5⟩ := ih
      have hq : ∀ τ ∈ Set.Ico 0 T, HasDerivAt (fun τ => (st τ).attrs.attitude)
          ((0.5 : ℝ) • product (st τ).attrs.attitude (pureQ (st τ).attrs.bodyAngVel)) τ := by
        intro τ hτ
        obtain ⟨d, hi, hdq, -⟩ := hstep τ hτ
        rw [← (flown_instant hb hm hw hi).2.1]
        exact hdq
      have hwd : ∀ τ ∈ Set.Ico 0 T, ∃ r x : V3, npNorm x ≤ δ ∧
          (strict c.alpha eps tr.memory (errorQuat (st τ).attrs.attitude qc) (st τ).attrs.bodyAngVel ≤ m →
            npNorm r ^ 2 ≤ ρ ^ 2 * (32 * m + 8 * c.alpha + 16 * c.gamma ^ 2) *
              strict c.alpha eps tr.memory (errorQuat (st τ).attrs.attitude qc) (st τ).attrs.bodyAngVel) ∧
          HasDerivAt (fun τ => (st τ).attrs.bodyAngVel)
            (-(tr.memory * c.alpha) • vecPart (errorQuat (st τ).attrs.attitude qc) - c.gamma • (st τ).attrs.bodyAngVel
              + (r + x)) τ := by
        intro τ hτ
        obtain ⟨d, hi, -, hdw⟩ := hstep τ hτ
        obtain ⟨-, -, x, hx, hr⟩ := flown_instant hb hm hw hi
        have hu : npNorm (st τ).attrs.attitude = 1 :=
          (norm_flow hτ.1 (hcq.mono (Set.Icc_subset_Icc_right hτ.2.le)) fun σ hσ => hq σ ⟨hσ.1, hσ.2.trans hτ.2⟩).trans i3
        refine ⟨_, x, hx, fun hV => mis_size ha he r1 i1
          (errorQuat_unit ((isUnit4_iff _).2 hu) ((isUnit4_iff _).2 hqc)) hV
          (hX (st τ).attrs.bodyAngVel)
          (hD (-(tr.memory * c.alpha) • vecPart (errorQuat (st τ).attrs.attitude qc) - c.gamma • (st τ).attrs.bodyAngVel)), ?_⟩
        refine hdw.congr_deriv (hr.trans ?_)
        rw [Matrix.mulVec_add, Matrix.sub_mulVec (A := c.sat.totalMoment) (B := J)
          (-(tr.memory * c.alpha) • vecPart (errorQuat (st τ).attrs.attitude qc) - c.gamma • (st τ).attrs.bodyAngVel),
          Matrix.mulVec_sub J⁻¹ _ (J *ᵥ _), hinv]
        abel
      have hxs : ∀ τ ∈ Set.Ico 0 T, -h ≤ tr.memory * errorQuat (st τ).attrs.attitude qc 0 := by
        intro τ hτ
        obtain ⟨d, hi, -, -⟩ := hstep τ hτ
        have hst := (flown_instant hb hm hw hi).1
        by_contra hlt
        rw [not_le] at hlt
        have hc : errorQuat (st τ).attrs.attitude qc 0 * tr.memory ≤ -tr.halfWidth := by rw [i2, mul_comm]; exact hlt.le
        exact trigger_switches i1 (i2 ▸ h0) hc hst.symm
      have hθ : 2 * (1 / c.gamma + eps / c.alpha) * (ρ ^ 2 * (32 * m + 8 * c.alpha + 16 * c.gamma ^ 2)) ≤ k / 2 := by
        refine le_trans (le_of_eq ?_) hρ2
        rw [hA]; ring
      have hexp := exp_le_one_of (half_pos hk) i0
      have hμ : V0 * Real.exp (-(k / 2) * t) ≤ V0 := mul_le_of_le_one_right hV0pos hexp
      have hflow := mis_flow (δ := δ) (m := m) ha hg he hk r1 r2 r3 r4 hθ hqc i1 hT i3 hcq hcw hq hwd hxs
        (μ := V0 * Real.exp (-(k / 2) * t)) (mul_nonneg hV0pos (Real.exp_pos _).le)
        (by rw [← hG]; linarith) (by rw [← hG]; exact i4)
      rw [← hG] at hflow
      refine ⟨by linarith, i1, i2, (norm_flow hT hcq hq).trans i3, hflow.trans (le_of_eq ?_), fun hδ0 => ?_⟩
      · rw [mul_assoc, ← Real.exp_add]
        congr 3
        ring
      · have i5 := i5 hδ0
        have hG' : G = 0 := by rw [hG, hδ0]; simp
        obtain ⟨V1, hV1⟩ : ∃ V1, V1 = strict c.alpha eps tr.memory (errorQuat (st 0).attrs.attitude qc)
          (st 0).attrs.bodyAngVel := ⟨_, rfl⟩
        have hV1p : 0 ≤ V1 := by
          have g1 := (strict_between ha he r1 i1 (errorQuat_unit ((isUnit4_iff _).2 i3) ((isUnit4_iff _).2 hqc))
            (st 0).attrs.bodyAngVel).1
          have g2 := (C69_definite c.alpha tr.memory ha i1 (st 0).attrs.attitude qc i3 hqc (st 0).attrs.bodyAngVel).1
          rw [← hV1] at g1
          linarith
        have hn : 0 ≤ 2 * c.alpha * h * (n : ℝ) := by positivity
        rw [← hV1] at i5
        have hflow := mis_flow (δ := δ) (m := m) ha hg he hk r1 r2 r3 r4 hθ hqc i1 hT i3 hcq hcw hq hwd hxs
          (μ := V1) hV1p (by rw [← hG]; linarith) (by rw [← hG, ← hV1, hG', add_zero])
        rw [← hG, hG', add_zero] at hflow
        have := mul_le_of_le_one_right hV1p (exp_le_one_of (half_pos hk) hT)
        linarith
    | @switch t tr tr' n st d _ hi hne ih =>
      obtain ⟨i0, i1, i2, i3, i4, i5⟩ := ih
      have hst := (flown_instant hb hm hw hi).1
      obtain ⟨j1, j2, j3⟩ := trigger_switch i1 (i2 ▸ h0) (x := errorQuat st.attrs.attitude qc 0) (hst ▸ hne)
      rw [← hst] at j1 j2
      have i1' : tr'.memory = 1 ∨ tr'.memory = -1 := by rw [j1]; rcases i1 with h | h <;> rw [h] <;> simp
      have hμ : V0 * Real.exp (-(k / 2) * t) ≤ V0 := mul_le_of_le_one_right hV0pos (exp_le_one_of (half_pos hk) i0)
      have hsw := mis_switch ha he r1 h0 r5 i1 (errorQuat_unit ((isUnit4_iff _).2 i3) ((isUnit4_iff _).2 hqc))
        (w := st.attrs.bodyAngVel) (by linarith) (i2 ▸ j3)
      rw [← j1] at hsw
      have hah : 0 < 2 * c.alpha * h := by positivity
      refine ⟨i0, i1', j2.trans i2, i3, by linarith, fun hδ0 => ?_⟩
      have := i5 hδ0
      push_cast
      linarith
  obtain ⟨k0, k1, k2, k3, k4, k5⟩ := key
  refine ⟨k0, k1, k2, k3, ?_⟩
  rw [energy_lyap k1 k3 hqc, energy_lyap hmem0 hu0 hqc]
  have b2 := (strict_between ha he r1 k1 (errorQuat_unit ((isUnit4_iff _).2 k3) ((isUnit4_iff _).2 hqc)) st.attrs.bodyAngVel).1
  have b3 := (C69_definite c.alpha tr.memory ha k1 st.attrs.attitude qc k3 hqc st.attrs.bodyAngVel).1
  refine ⟨?_, fun hδ0 => by have := k5 hδ0; linarith [hb0.2]⟩
  have b4 := mul_le_mul_of_nonneg_right hb0.2 (Real.exp_pos (-(k / 2) * t)).le
  have eG : 8 * (1 / c.gamma + eps / c.alpha) / k * δ ^ 2 = 2 * G := by rw [hG]; ring
  rw [eG]
  linarith

/-! ## Whatever the inertia -/

/-- The kinetic energy of turning at an instant, without disturbances. -/
theorem flown_energy {c : RwController} {mass : ℝ} {dims : V3} {ab cd : ℝ} (hb : Built c.sat mass dims ab cd)
    (hm : mass ≠ 0) (hw : UnlimitedWheels c.sat) (ha : 0 < c.alpha) (hg : 0 < c.gamma) (hI : c.sat.totalMoment.PosDef)
    {l L Lj : ℝ} (hl : 0 < l) (hL0 : 0 ≤ L) (hLj0 : 0 < Lj) (hlow : ∀ x : V3, l * (x ⬝ᵥ x) ≤ x ⬝ᵥ c.sat.totalMoment *ᵥ x)
    (hL : ∀ x : V3, x ⬝ᵥ c.sat.totalMoment *ᵥ x ≤ L * (x ⬝ᵥ x)) {J : M3} (hJ : J.PosDef)
    (hLj : ∀ x : V3, x ⬝ᵥ J *ᵥ x ≤ Lj * (x ⬝ᵥ x)) {qc : V4} (hqc : npNorm qc = 1) {tr : Trigger}
    (hmem : tr.memory = 1 ∨ tr.memory = -1) {st : ℝ → SatState c.sat.rw.n} {τ : ℝ}
    (hu : npNorm (st τ).attrs.attitude = 1) {d : Raw c.sat.rw.n} (hi : Spec.FlownInstant c J qc 0 tr tr (st τ) d)
    (hd : HasDerivAt (fun τ => (st τ).attrs.bodyAngVel) d.rate τ) :
    ∃ E', HasDerivAt (fun τ => (st τ).attrs.bodyAngVel ⬝ᵥ J *ᵥ (st τ).attrs.bodyAngVel / 2
        - c.alpha ^ 2 * L * Lj / (2 * c.gamma ^ 2 * l)) E' τ ∧
      E' ≤ -(c.gamma * l / Lj) * ((st τ).attrs.bodyAngVel ⬝ᵥ J *ᵥ (st τ).attrs.bodyAngVel / 2
        - c.alpha ^ 2 * L * Lj / (2 * c.gamma ^ 2 * l)) := by
  obtain ⟨-, -, x, hx, hr⟩ := flown_instant hb hm hw hi
  have hx0 : x = 0 := by
    by_contra hne
    exact absurd hx (not_le.2 (npNorm_pos hne))
  rw [hx0, add_zero] at hr
  set I := c.sat.totalMoment with hId
  set w := (st τ).attrs.bodyAngVel with hwd
  set e := vecPart (errorQuat (st τ).attrs.attitude qc) with he
  have hsym : ∀ x y : V3, x ⬝ᵥ J *ᵥ y = y ⬝ᵥ J *ᵥ x := fun x y => by
    rw [Matrix.dotProduct_mulVec, ← Matrix.mulVec_transpose, psd_symm hJ.posSemidef, dotProduct_comm]
  have hder : HasDerivAt (fun τ => (st τ).attrs.bodyAngVel ⬝ᵥ J *ᵥ (st τ).attrs.bodyAngVel / 2
        - c.alpha ^ 2 * L * Lj / (2 * c.gamma ^ 2 * l)) (w ⬝ᵥ J *ᵥ d.rate) τ := by
    refine (((hasDerivAt_dot3 hd (hasDerivAt_mulVec3 (J := J) hd)).div_const 2).sub_const _).congr_deriv ?_
    rw [hsym d.rate]; ring
  have hval : w ⬝ᵥ J *ᵥ d.rate = -(tr.memory * c.alpha) * (w ⬝ᵥ I *ᵥ e) - c.gamma * (w ⬝ᵥ I *ᵥ w) := by
    rw [hr, Matrix.mulVec_mulVec, Matrix.mul_nonsing_inv J ((Matrix.isUnit_iff_isUnit_det J).1 hJ.isUnit),
      Matrix.one_mulVec, dotProduct_add, Matrix.mulVec_sub, Matrix.mulVec_smul, Matrix.mulVec_smul, dotProduct_sub,
      dotProduct_smul, dotProduct_smul]
    have hz : ∀ v : V3, w ⬝ᵥ npCross w v = 0 := fun v => by
      simp only [Matrix.vec3_dotProduct, npCross_0, npCross_1, npCross_2]; ring
    rw [hz]
    simp only [smul_eq_mul]
    ring
  refine ⟨_, hder, ?_⟩
  have hue : IsUnit4 (errorQuat (st τ).attrs.attitude qc) := errorQuat_unit ((isUnit4_iff _).2 hu) ((isUnit4_iff _).2 hqc)
  have hee : e ⬝ᵥ e ≤ 1 := by
    have := vecPart_unit hue
    rw [he, this]
    linarith [sq_nonneg (errorQuat (st τ).attrs.attitude qc 0)]
  obtain ⟨p, hp⟩ : ∃ p, p = w ⬝ᵥ I *ᵥ w := ⟨_, rfl⟩
  have hp0 : 0 ≤ p := by rw [hp]; exact psd_nonneg hI.posSemidef w
  have hcs : (w ⬝ᵥ I *ᵥ e) ^ 2 ≤ L * p := by
    have h1 := psd_cauchy hI.posSemidef w e
    rw [← hp] at h1
    have h2 : e ⬝ᵥ I *ᵥ e ≤ L := (hL e).trans (mul_le_of_le_one_right hL0 hee)
    have := mul_le_mul_of_nonneg_left h2 hp0
    linarith
  have hy := young (c := c.gamma / c.alpha) hL0 hp0 (by positivity) hcs
  have hab : -(tr.memory * c.alpha) * (w ⬝ᵥ I *ᵥ e) ≤ c.alpha * |w ⬝ᵥ I *ᵥ e| := by
    have h1 := abs_le.1 (le_refl |w ⬝ᵥ I *ᵥ e|)
    rcases hmem with h | h <;> rw [h]
    · have := mul_le_mul_of_nonneg_left h1.1 ha.le; linarith
    · have := mul_le_mul_of_nonneg_left h1.2 ha.le; linarith
  have hy2 : c.alpha * |w ⬝ᵥ I *ᵥ e| ≤ c.gamma * p / 2 + c.alpha ^ 2 * L / (2 * c.gamma) := by
    refine (mul_le_mul_of_nonneg_left hy ha.le).trans (le_of_eq ?_)
    field_simp
  rw [hval, ← hp]
  have hE : c.gamma * l / Lj * (w ⬝ᵥ J *ᵥ w / 2) ≤ c.gamma * p / 2 := by
    have h1 := hLj w
    have h2 := hlow w
    rw [← hp] at h2
    have h3 : l * (w ⬝ᵥ J *ᵥ w) ≤ Lj * p := by
      calc l * (w ⬝ᵥ J *ᵥ w) ≤ l * (Lj * (w ⬝ᵥ w)) := mul_le_mul_of_nonneg_left h1 hl.le
        _ = Lj * (l * (w ⬝ᵥ w)) := by ring
        _ ≤ Lj * p := mul_le_mul_of_nonneg_left h2 hLj0.le
    have e1 : c.gamma * l / Lj * (w ⬝ᵥ J *ᵥ w / 2) = c.gamma / 2 * (l * (w ⬝ᵥ J *ᵥ w) / Lj) := by ring
    rw [e1, mul_div_right_comm c.gamma p 2]
    refine mul_le_mul_of_nonneg_left ?_ (by positivity)
    rw [div_le_iff₀ hLj0]; linarith
  have hfl : c.gamma * l / Lj * (c.alpha ^ 2 * L * Lj / (2 * c.gamma ^ 2 * l)) = c.alpha ^ 2 * L / (2 * c.gamma) := by
    field_simp
  have hfin : ∀ x y : ℝ, -(c.gamma * l / Lj) * (x - y) = -(c.gamma * l / Lj * x) + c.gamma * l / Lj * y := fun x y => by ring
  rw [hfin, hfl]
  linarith

/-- The memory, and the length of the quaternion, over a run. -/
theorem flown_keeps {c : RwController} {mass : ℝ} {dims : V3} {ab cd : ℝ} (hb : Built c.sat mass dims ab cd)
    (hm : mass ≠ 0) (hw : UnlimitedWheels c.sat) {J : M3} {qc : V4} {δ : ℝ} {tr0 tr : Trigger}
    {st0 st : SatState c.sat.rw.n} {t : ℝ} {n : ℕ} (hh : 0 < tr0.halfWidth) (hm0 : tr0.memory = 1 ∨ tr0.memory = -1)
    (hu : npNorm st0.attrs.attitude = 1) (hrun : Spec.FlownRun c J qc δ tr0 st0 t tr st n) :
    0 ≤ t ∧ (tr.memory = 1 ∨ tr.memory = -1) ∧ tr.halfWidth = tr0.halfWidth ∧ npNorm st.attrs.attitude = 1 := by
  induction hrun with
  | start => exact ⟨le_rfl, hm0, rfl, hu⟩
  | @flow t tr n st T hT _ hcq hcw hstep ih =>
    obtain ⟨i0, i1, i2, i3⟩ := ih
    refine ⟨by linarith, i1, i2, (norm_flow (w := fun τ => (st τ).attrs.bodyAngVel) hT hcq fun τ hτ => ?_).trans i3⟩
    obtain ⟨d, hi, hdq, -⟩ := hstep τ hτ
    rw [← (flown_instant hb hm hw hi).2.1]
    exact hdq
  | @switch t tr tr' n st d _ hi hne ih =>
    obtain ⟨i0, i1, i2, i3⟩ := ih
    have hst := (flown_instant hb hm hw hi).1
    obtain ⟨j1, j2, -⟩ := trigger_switch i1 (i2 ▸ hh) (x := errorQuat st.attrs.attitude qc 0) (hst ▸ hne)
    rw [← hst] at j1 j2
    exact ⟨i0, by rw [j1]; rcases i1 with h | h <;> rw [h] <;> simp, j2.trans i2, i3⟩

/-- However wrong the inertia is that the controller assumes (`l` and `L` are bounds of it, `Lj` is a bound of the inertia
that flies), the satellite is not spun up: its kinetic energy falls off exponentially to a bounded floor. -/
theorem C210_bounded (c : RwController) (ha : 0 < c.alpha) (hg : 0 < c.gamma) {mass : ℝ} {dims : V3} {ab cd : ℝ}
    (hb : Built c.sat mass dims ab cd) (hm : mass ≠ 0) (hw : UnlimitedWheels c.sat) (hI : c.sat.totalMoment.PosDef)
    {l L Lj : ℝ} (hl : 0 < l) (hL0 : 0 ≤ L) (hLj0 : 0 < Lj) (hlow : ∀ x : V3, l * (x ⬝ᵥ x) ≤ x ⬝ᵥ c.sat.totalMoment *ᵥ x)
    (hL : ∀ x : V3, x ⬝ᵥ c.sat.totalMoment *ᵥ x ≤ L * (x ⬝ᵥ x)) {J : M3} (hJ : J.PosDef)
    (hLj : ∀ x : V3, x ⬝ᵥ J *ᵥ x ≤ Lj * (x ⬝ᵥ x)) (qc : V4) (hqc : npNorm qc = 1) (tr0 tr : Trigger)
    (st0 st : SatState c.sat.rw.n) (t : ℝ) (n : ℕ) (hh : 0 < tr0.halfWidth) (hm0 : tr0.memory = 1 ∨ tr0.memory = -1)
    (hu : npNorm st0.attrs.attitude = 1) (hrun : Spec.FlownRun c J qc 0 tr0 st0 t tr st n) :
    st.attrs.bodyAngVel ⬝ᵥ J *ᵥ st.attrs.bodyAngVel / 2 ≤
      Real.exp (-(c.gamma * l / Lj) * t) * (st0.attrs.bodyAngVel ⬝ᵥ J *ᵥ st0.attrs.bodyAngVel / 2)
        + c.alpha ^ 2 * L * Lj / (2 * c.gamma ^ 2 * l) := by
  have hE0 : 0 ≤ st0.attrs.bodyAngVel ⬝ᵥ J *ᵥ st0.attrs.bodyAngVel / 2 := by
    have := psd_nonneg hJ.posSemidef st0.attrs.bodyAngVel
    linarith
  have hB : 0 ≤ c.alpha ^ 2 * L * Lj / (2 * c.gamma ^ 2 * l) := by positivity
  induction hrun with
  | start => simp; linarith
  | @flow t tr n st T hT hprev hcq hcw hstep ih =>
    have hkeep := flown_keeps hb hm hw hh hm0 hu hprev
    have hq : ∀ τ ∈ Set.Ico 0 T, HasDerivAt (fun τ => (st τ).attrs.attitude)
        ((0.5 : ℝ) • product (st τ).attrs.attitude (pureQ (st τ).attrs.bodyAngVel)) τ := by
      intro τ hτ
      obtain ⟨d, hi, hdq, -⟩ := hstep τ hτ
      rw [← (flown_instant hb hm hw hi).2.1]
      exact hdq
    have hcont : ContinuousOn (fun τ => (st τ).attrs.bodyAngVel ⬝ᵥ J *ᵥ (st τ).attrs.bodyAngVel / 2
        - c.alpha ^ 2 * L * Lj / (2 * c.gamma ^ 2 * l)) (Set.Icc 0 T) := by
      have k := continuousOn_pi.1 hcw
      have k0 := k 0; have k1 := k 1; have k2 := k 2
      simp only [dotProduct, Matrix.mulVec, Fin.sum_univ_three]
      fun_prop
    have := decay_barrier (f := fun τ => (st τ).attrs.bodyAngVel ⬝ᵥ J *ᵥ (st τ).attrs.bodyAngVel / 2
        - c.alpha ^ 2 * L * Lj / (2 * c.gamma ^ 2 * l)) (k0 := c.gamma * l / Lj) hT hcont (fun τ hτ => by
        obtain ⟨d, hi, -, d2⟩ := hstep τ hτ
        have hu' : npNorm (st τ).attrs.attitude = 1 :=
          (norm_flow hτ.1 (hcq.mono (Set.Icc_subset_Icc_right hτ.2.le)) fun σ hσ => hq σ ⟨hσ.1, hσ.2.trans hτ.2⟩).trans
            hkeep.2.2.2
        obtain ⟨E', e1, e2⟩ := flown_energy hb hm hw ha hg hI hl hL0 hLj0 hlow hL hJ hLj hqc hkeep.2.1 hu' hi d2
        exact ⟨E', c.gamma * l / Lj, le_rfl, e1, e2⟩)
      (m := Real.exp (-(c.gamma * l / Lj) * t) * (st0.attrs.bodyAngVel ⬝ᵥ J *ᵥ st0.attrs.bodyAngVel / 2))
      (mul_nonneg (Real.exp_pos _).le hE0) (by linarith)
    have e : Real.exp (-(c.gamma * l / Lj) * (t + T)) =
        Real.exp (-(c.gamma * l / Lj) * t) * Real.exp (-(c.gamma * l / Lj) * T) := by
      rw [← Real.exp_add]; ring_nf
    rw [e]
    linarith
  | switch _ _ _ ih => exact ih

/-- A run can be cut at every time. -/
theorem FlownRun.cut {c : RwController} {J : M3} {qc : V4} {δ : ℝ} {tr0 tr : Trigger} {st0 st : SatState c.sat.rw.n}
    {t : ℝ} {n : ℕ} (hrun : Spec.FlownRun c J qc δ tr0 st0 t tr st n) {s : ℝ} (hs : 0 ≤ s) (hst : s ≤ t) :
    ∃ tr1 st1 n1 n2, Spec.FlownRun c J qc δ tr0 st0 s tr1 st1 n1 ∧ Spec.FlownRun c J qc δ tr1 st1 (t - s) tr st n2 := by
  induction hrun with
  | start =>
    have : s = 0 := le_antisymm hst hs
    subst this
    exact ⟨tr0, st0, 0, 0, .start, by rw [sub_self]; exact .start⟩
  | @flow t tr n st T hT hprev hcq hcw hstep ih =>
    rcases le_total s t with hle | hle
    · obtain ⟨tr1, st1, n1, n2, r1, r2⟩ := ih hle
      refine ⟨tr1, st1, n1, n2, r1, ?_⟩
      have := Spec.FlownRun.flow st T hT r2 hcq hcw hstep
      rwa [show t + T - s = t - s + T by ring]
    · have h1 := Spec.FlownRun.flow st (s - t) (by linarith) hprev
        (hcq.mono (Set.Icc_subset_Icc_right (by linarith))) (hcw.mono (Set.Icc_subset_Icc_right (by linarith)))
        fun τ hτ => hstep τ ⟨hτ.1, by linarith [hτ.2]⟩
      rw [add_sub_cancel] at h1
      refine ⟨tr, st (s - t), n, 0, h1, ?_⟩
      have hmaps : ∀ τ ∈ Set.Icc 0 (t + T - s), τ + (s - t) ∈ Set.Icc 0 T := fun τ hτ =>
        ⟨by linarith [hτ.1], by linarith [hτ.2]⟩
      have hcont : ContinuousOn (fun τ : ℝ => τ + (s - t)) (Set.Icc 0 (t + T - s)) := by fun_prop
      have h2 := Spec.FlownRun.flow (c := c) (J := J) (qc := qc) (δ := δ) (tr0 := tr) (st0 := st (s - t))
        (fun τ => st (τ + (s - t))) (t + T - s) (by linarith) (by simp only [zero_add]; exact .start)
        (hcq.comp hcont hmaps) (hcw.comp hcont hmaps) fun τ hτ => by
          obtain ⟨d, hi, d1, d2⟩ := hstep (τ + (s - t)) ⟨by linarith [hτ.1], by linarith [hτ.2]⟩
          exact ⟨d, hi, d1.comp_add_const τ (s - t), d2.comp_add_const τ (s - t)⟩
      simp only [zero_add] at h2
      rwa [show t + T - s + (s - t) = T by ring] at h2
  | @switch t tr tr' n st d hprev hi hne ih =>
    obtain ⟨tr1, st1, n1, n2, r1, r2⟩ := ih hst
    exact ⟨tr1, st1, n1, n2 + 1, r1, .switch r2 hi hne⟩

/-- The tolerance need not depend on the rate at the beginning: there is one for the controller, such that every satellite
(with a symmetric inertia) within it is brought to the commanded attitude from every tumble, exponentially after a time
that depends on the tumble. -/
theorem C210_uniform (c : RwController) (ha : 0 < c.alpha) (hg : 0 < c.gamma) {mass : ℝ} {dims : V3} {ab cd : ℝ}
    (hb : Built c.sat mass dims ab cd) (hm : mass ≠ 0) (hw : UnlimitedWheels c.sat) (hI : c.sat.totalMoment.PosDef)
    {h : ℝ} (h0 : 0 < h) (h1 : h < 1) : ∃ ε κ C : ℝ, 0 < ε ∧ 0 < κ ∧ 0 ≤ C ∧ ∀ M : ℝ, ∃ T0 : ℝ, 0 ≤ T0 ∧
      ∀ J : M3, Jᵀ = J → (∀ i j, |J i j - c.sat.totalMoment i j| ≤ ε) → ∀ (qc : V4), npNorm qc = 1 →
      ∀ (tr0 tr : Trigger) (st0 st : SatState c.sat.rw.n) (t : ℝ) (n : ℕ),
      tr0.halfWidth = h → (tr0.memory = 1 ∨ tr0.memory = -1) → npNorm st0.attrs.attitude = 1 →
      npNorm st0.attrs.bodyAngVel ≤ M → Spec.FlownRun c J qc 0 tr0 st0 t tr st n → T0 ≤ t →
      st.attrs.bodyAngVel ⬝ᵥ st.attrs.bodyAngVel / 2
          + c.alpha * npNorm (st.attrs.attitude - tr.memory • qc) ^ 2 ≤ C * Real.exp (-κ * (t - T0)) := by
  -- bounds of the inertia assumed
  obtain ⟨l, hl, hlow⟩ : ∃ l > 0, ∀ x : V3, l * (x ⬝ᵥ x) ≤ x ⬝ᵥ c.sat.totalMoment *ᵥ x := by
    choose k hk using fun i => pd_coord hI i
    obtain ⟨S, hS⟩ : ∃ S, S = |k 0| + |k 1| + |k 2| + 1 := ⟨_, rfl⟩
    have hS0 : 0 < S := by rw [hS]; positivity
    refine ⟨1 / S, by positivity, fun x => ?_⟩
    have hx := psd_nonneg hI.posSemidef x
    have g : ∀ i, x i ^ 2 ≤ |k i| * (x ⬝ᵥ c.sat.totalMoment *ᵥ x) := fun i =>
      (hk i x).trans (mul_le_mul_of_nonneg_right (le_abs_self _) hx)
    rw [div_mul_eq_mul_div, one_mul, div_le_iff₀ hS0, Matrix.vec3_dotProduct x x, hS]
    linarith [g 0, g 1, g 2]
  obtain ⟨j, hj0, hj⟩ := mulVec_euclid c.sat.totalMoment
  have hquad : ∀ (A : M3) (a : ℝ), (∀ x, npNorm (A *ᵥ x) ≤ a * npNorm x) → ∀ x : V3, |x ⬝ᵥ A *ᵥ x| ≤ a * (x ⬝ᵥ x) := by
    intro A a hA x
    refine (abs_dot_le _ _).trans ?_
    rw [dot_self3]
    have := mul_le_mul_of_nonneg_left (hA x) (npNorm_nonneg x)
    linarith
  have hL : ∀ x : V3, x ⬝ᵥ c.sat.totalMoment *ᵥ x ≤ j * (x ⬝ᵥ x) := fun x => (le_abs_self _).trans (hquad _ _ hj x)
  obtain ⟨B, hB⟩ : ∃ B, B = c.alpha ^ 2 * j * (j + 3) / (2 * c.gamma ^ 2 * l) := ⟨_, rfl⟩
  have hB0 : 0 ≤ B := by rw [hB]; positivity
  obtain ⟨M1, hM1⟩ : ∃ M1, M1 = Real.sqrt (4 / l * (1 + B)) := ⟨_, rfl⟩
  obtain ⟨ε, κ, C, hε, hκ, -, hall⟩ := C210_converges c ha hg hb hm hw h0 h1 M1 0
  refine ⟨min ε (min 1 (l / 6)), κ, 3 * (M1 ^ 2 / 2 + 4 * c.alpha), lt_min hε (lt_min one_pos (by positivity)), hκ,
    by positivity, fun M => ?_⟩
  obtain ⟨T0, hT0, hT⟩ : ∃ T0 : ℝ, 0 ≤ T0 ∧ Real.exp (-(c.gamma * l / (j + 3)) * T0) * ((j + 3) * M ^ 2 / 2) ≤ 1 := by
    have hr : 0 < c.gamma * l / (j + 3) := by positivity
    have hP : 0 ≤ (j + 3) * M ^ 2 / 2 := by positivity
    refine ⟨(j + 3) * M ^ 2 / 2 / (c.gamma * l / (j + 3)), by positivity, ?_⟩
    rw [neg_mul, mul_div_cancel₀ _ hr.ne', Real.exp_neg, ← div_eq_inv_mul, div_le_one (Real.exp_pos _)]
    linarith [Real.add_one_le_exp ((j + 3) * M ^ 2 / 2)]
  refine ⟨T0, hT0, fun J hsym hJ qc hqc tr0 tr st0 st t n hh hm0 hu hM hrun ht => ?_⟩
  have b1 : ∀ i j', |J i j' - c.sat.totalMoment i j'| ≤ ε := fun i j' => (hJ i j').trans (min_le_left _ _)
  obtain ⟨e, he⟩ : ∃ e, e = min 1 (l / 6) := ⟨_, rfl⟩
  have b2 : ∀ i j', |(J - c.sat.totalMoment) i j'| ≤ e := fun i j' => he ▸ (hJ i j').trans (min_le_right _ _)
  have l1 : e ≤ 1 := he ▸ min_le_left _ _
  have l2 : e ≤ l / 6 := he ▸ min_le_right _ _
  have hdiff := hquad _ _ (entries_bound b2)
  have hsplit : ∀ x : V3, x ⬝ᵥ J *ᵥ x = x ⬝ᵥ c.sat.totalMoment *ᵥ x + x ⬝ᵥ (J - c.sat.totalMoment) *ᵥ x := fun x => by
    rw [Matrix.sub_mulVec, dotProduct_sub]; ring
  have hLj : ∀ x : V3, x ⬝ᵥ J *ᵥ x ≤ (j + 3) * (x ⬝ᵥ x) := by
    intro x
    have h2 := (abs_le.1 (hdiff x)).2
    have h3 : 3 * e * (x ⬝ᵥ x) ≤ 3 * (x ⬝ᵥ x) := mul_le_mul_of_nonneg_right (by linarith) (dot_self_nonneg3 _)
    rw [hsplit]
    linarith [hL x]
  have hlj : ∀ x : V3, l / 2 * (x ⬝ᵥ x) ≤ x ⬝ᵥ J *ᵥ x := by
    intro x
    have h2 := (abs_le.1 (hdiff x)).1
    have h3 : 3 * e * (x ⬝ᵥ x) ≤ l / 2 * (x ⬝ᵥ x) := mul_le_mul_of_nonneg_right (by linarith) (dot_self_nonneg3 _)
    rw [hsplit]
    linarith [hlow x]
  have hJpd : J.PosDef := by
    refine Matrix.PosDef.of_dotProduct_mulVec_pos (by rw [Matrix.IsHermitian, Matrix.conjTranspose_eq_transpose_of_trivial, hsym]) fun {x} hx => ?_
    have h2 : 0 < x ⬝ᵥ x := by
      rw [dot_self3]
      have := npNorm_pos hx
      positivity
    rw [star_trivial]
    exact (mul_pos (half_pos hl) h2).trans_le (hlj x)
  obtain ⟨tr1, st1, n1, n2, r1, r2⟩ := FlownRun.cut hrun hT0 ht
  have hkeep := flown_keeps hb hm hw (hh ▸ h0) hm0 hu r1
  have hE := C210_bounded c ha hg hb hm hw hI hl hj0 (by linarith) hlow hL hJpd hLj qc hqc tr0 tr1 st0 st1 T0 n1 (hh ▸ h0)
    hm0 hu r1
  have hM2 : npNorm st1.attrs.bodyAngVel ≤ M1 := by
    rw [hM1]
    refine Real.le_sqrt_of_sq_le ?_
    have g1 := hlj st1.attrs.bodyAngVel
    have g2 : st0.attrs.bodyAngVel ⬝ᵥ J *ᵥ st0.attrs.bodyAngVel / 2 ≤ (j + 3) * M ^ 2 / 2 := by
      have := hLj st0.attrs.bodyAngVel
      rw [dot_self3] at this
      have g3 : npNorm st0.attrs.bodyAngVel ^ 2 ≤ M ^ 2 := pow_le_pow_left₀ (npNorm_nonneg _) hM 2
      have g4 := mul_le_mul_of_nonneg_left g3 (by linarith : 0 ≤ j + 3)
      linarith
    have g3 := mul_le_mul_of_nonneg_left g2 (Real.exp_pos (-(c.gamma * l / (j + 3)) * T0)).le
    rw [← hB] at hE
    rw [← dot_self3, div_mul_eq_mul_div, le_div_iff₀ hl]
    linarith
  obtain ⟨-, -, -, -, hfin, -⟩ := hall J b1 qc hqc 0 le_rfl le_rfl tr1 tr st1 st (t - T0) n2 (hkeep.2.2.1.trans hh) hkeep.2.1
    hkeep.2.2.2 hM2 r2
  refine hfin.trans ?_
  have hst1 : st1.attrs.bodyAngVel ⬝ᵥ st1.attrs.bodyAngVel / 2
      + c.alpha * npNorm (st1.attrs.attitude - tr1.memory • qc) ^ 2 ≤ M1 ^ 2 / 2 + 4 * c.alpha := by
    have g1 : st1.attrs.bodyAngVel ⬝ᵥ st1.attrs.bodyAngVel ≤ M1 ^ 2 := by
      rw [dot_self3]; exact pow_le_pow_left₀ (npNorm_nonneg _) hM2 2
    have g2 : npNorm (st1.attrs.attitude - tr1.memory • qc) ^ 2 ≤ 4 := by
      rw [quat_dist hkeep.2.1 hkeep.2.2.2 hqc]
      have hue := errorQuat_unit ((isUnit4_iff _).2 hkeep.2.2.2) ((isUnit4_iff _).2 hqc)
      have h4 := dot_self_nonneg3 (vecPart (errorQuat st1.attrs.attitude qc))
      rw [vecPart_unit hue] at h4
      have hs2 : tr1.memory ^ 2 = 1 := by rcases hkeep.2.1 with h | h <;> rw [h] <;> norm_num
      have : (tr1.memory * errorQuat st1.attrs.attitude qc 0) ^ 2 ≤ 1 := by rw [mul_pow, hs2]; linarith
      linarith [(abs_le.1 ((sq_le_one_iff_abs_le_one _).1 this)).1]
    have := mul_le_mul_of_nonneg_left g2 ha.le
    linarith
  have := mul_le_mul_of_nonneg_left hst1 (Real.exp_pos (-κ * (t - T0))).le
  linarith

/-! ## Runs exist -/

/-- Motions with a switched sign last for every duration, if they stay in a compact set and switch boundedly often. -/
theorem switched_exists {N0 : ℕ} {Run : ℝ → Trigger → SatState N0 → ℕ → Prop} {field : ℝ → V4 × V3 → V4 × V3} {qc : V4}
    (hf : ∀ sgn, ContDiff ℝ 1 (field sgn))
    (hflow : ∀ (t : ℝ) (tr : Trigger) (st : SatState N0) (n : ℕ) (y : ℝ → V4 × V3) (T : ℝ), Run t tr st n →
      y 0 = (st.attrs.attitude, st.attrs.bodyAngVel) → 0 ≤ T →
      (∀ τ ∈ Set.Icc 0 T, HasDerivAt y (field tr.memory (y τ)) τ) →
      (∀ τ ∈ Set.Ico 0 T, -tr.halfWidth < errorQuat (y τ).1 qc 0 * tr.memory) → Run (t + T) tr (withMotion st (y T)) n)
    (hswitch : ∀ (t : ℝ) (tr : Trigger) (st : SatState N0) (n : ℕ), Run t tr st n →
      tr.step (errorQuat st.attrs.attitude qc 0) ≠ tr → Run t (tr.step (errorQuat st.attrs.attitude qc 0)) st (n + 1))
    {K : Set (V4 × V3)} (hK : IsCompact K) {N : ℕ}
    (hin : ∀ (t : ℝ) (tr : Trigger) (st : SatState N0) (n : ℕ), Run t tr st n → 0 < tr.halfWidth ∧
      (tr.memory = 1 ∨ tr.memory = -1) ∧ n ≤ N ∧ (st.attrs.attitude, st.attrs.bodyAngVel) ∈ K)
    {tr0 : Trigger} {st0 : SatState N0} (hstart : Run 0 tr0 st0 0) {T : ℝ} (hT : 0 ≤ T) :
    ∃ tr st n, Run T tr st n := by
  obtain ⟨e1, he1, hs1⟩ := uniform_time (hf 1) hK
  obtain ⟨e2, he2, hs2⟩ := uniform_time (hf (-1)) hK
  set ε := min e1 e2 / 2 with hε
  have hεp : 0 < ε := by have := lt_min he1 he2; positivity
  have hsol : ∀ sgn : ℝ, (sgn = 1 ∨ sgn = -1) → ∀ x ∈ K, ∃ y : ℝ → V4 × V3, y 0 = x ∧
      ∀ τ ∈ Set.Icc 0 ε, HasDerivAt y (field sgn (y τ)) τ := by
    rintro sgn (rfl | rfl) x hx
    · obtain ⟨y, h0, hy⟩ := hs1 x hx
      exact ⟨y, h0, fun τ hτ => hy τ ⟨by linarith [hτ.1], by have := min_le_left e1 e2; linarith [hτ.2]⟩⟩
    · obtain ⟨y, h0, hy⟩ := hs2 x hx
      exact ⟨y, h0, fun τ hτ => hy τ ⟨by linarith [hτ.1], by have := min_le_right e1 e2; linarith [hτ.2]⟩⟩
  have progress : ∀ (t : ℝ) (tr : Trigger) (st : SatState N0) (n : ℕ), Run t tr st n → ∀ h, 0 ≤ h → h ≤ ε →
      (∃ st', Run (t + h) tr st' n) ∨ ∃ τ tr' st', 0 ≤ τ ∧ τ ≤ h ∧ Run (t + τ) tr' st' (n + 1) := by
    intro t tr st n hrun h hh hhε
    obtain ⟨g1, g2, -, g4⟩ := hin t tr st n hrun
    obtain ⟨y, h0, hy⟩ := hsol tr.memory g2 _ g4
    have hy : ∀ τ ∈ Set.Icc 0 h, HasDerivAt y (field tr.memory (y τ)) τ := fun τ hτ => hy τ ⟨hτ.1, hτ.2.trans hhε⟩
    have hcont : ContinuousOn (fun τ => errorQuat (y τ).1 qc 0 * tr.memory) (Set.Icc 0 h) := by
      have h1 : ContinuousOn (fun τ => (y τ).1) (Set.Icc 0 h) := fun τ hτ => (hy τ hτ).continuousAt.fst.continuousWithinAt
      exact (continuousOn_pi.1 ((errorQuat_continuous qc).comp_continuousOn h1) 0).mul continuousOn_const
    set S := Set.Icc 0 h ∩ (fun τ => errorQuat (y τ).1 qc 0 * tr.memory) ⁻¹' Set.Iic (-tr.halfWidth) with hS
    have hclosed : IsClosed S := hcont.preimage_isClosed_of_isClosed isClosed_Icc isClosed_Iic
    by_cases hne : S.Nonempty
    · right
      have hbdd : BddBelow S := ⟨0, fun τ hτ => hτ.1.1⟩
      have hmin := hclosed.csInf_mem hne hbdd
      set τ := sInf S
      have hhold : ∀ σ ∈ Set.Ico 0 τ, -tr.halfWidth < errorQuat (y σ).1 qc 0 * tr.memory := by
        intro σ hσ
        by_contra hle
        have : τ ≤ σ := csInf_le hbdd ⟨⟨hσ.1, hσ.2.le.trans hmin.1.2⟩, not_lt.1 hle⟩
        exact absurd hσ.2 (not_lt.2 this)
      have hr := hflow t tr st n y τ hrun h0 hmin.1.1 (fun σ hσ => hy σ ⟨hσ.1, hσ.2.trans hmin.1.2⟩) hhold
      exact ⟨τ, _, _, hmin.1.1, hmin.1.2, hswitch _ _ _ _ hr (trigger_switches g2 g1 hmin.2)⟩
    · left
      refine ⟨_, hflow t tr st n y h hrun h0 hh hy fun τ hτ => ?_⟩
      by_contra hle
      exact hne ⟨τ, ⟨hτ.1, hτ.2.le⟩, not_lt.1 hle⟩
  have key : ∀ m : ℕ, ∀ t tr st (n k : ℕ), Run t tr st n → t ≤ T → T - t ≤ k * ε → (N - n) + k ≤ m →
      ∃ tr st n, Run T tr st n := by
    intro m
    induction m with
    | zero =>
      intro t tr st n k hrun ht hk hm'
      have : k = 0 := by omega
      subst this
      have : t = T := by simp at hk; linarith
      exact ⟨tr, st, n, this ▸ hrun⟩
    | succ m ih =>
      intro t tr st n k hrun ht hk hm'
      have hmin := min_le_right ε (T - t)
      rcases progress t tr st n hrun (min ε (T - t)) (le_min hεp.le (by linarith)) (min_le_left _ _) with
        ⟨st', hr⟩ | ⟨τ, tr', st', hτ0, hτ, hr⟩
      · rcases min_choice ε (T - t) with he | he
        · rw [he] at hr hmin
          rcases k with _ | k
          · have : t = T := by simp at hk; linarith
            exact ⟨tr, st, n, this ▸ hrun⟩
          · refine ih _ _ _ _ k hr (by linarith) ?_ (by omega)
            push_cast at hk; linarith
        · rw [he] at hr
          exact ⟨tr, st', n, by rwa [add_sub_cancel] at hr⟩
      · have := (hin _ _ _ _ hr).2.2.1
        exact ih _ _ _ _ k hr (by linarith) (by linarith) (by omega)
  obtain ⟨k, hk⟩ := exists_nat_ge (T / ε)
  refine key _ 0 tr0 st0 0 k hstart hT ?_ le_rfl
  rw [div_le_iff₀ hεp] at hk
  linarith

/-- The closed loop as a field. -/
noncomputable def flownField (I J : M3) (alpha gamma : ℝ) (qc : V4) (sgn : ℝ) (x : V4 × V3) : V4 × V3 :=
  ((0.5 : ℝ) • product x.1 (pureQ x.2),
    J⁻¹ *ᵥ (npCross x.2 ((I - J) *ᵥ x.2) + I *ᵥ (-(sgn * alpha) • vecPart (errorQuat x.1 qc) - gamma • x.2)))

theorem mulVec_contDiff (A : M3) {f : V4 × V3 → V3} (hf : ContDiff ℝ 1 f) : ContDiff ℝ 1 fun x => A *ᵥ f x := by
  have c : ∀ j, ContDiff ℝ 1 (fun x => f x j) := contDiff_pi.1 hf
  refine contDiff_pi.2 fun i => ?_
  have e : (fun x => (A *ᵥ f x) i) = fun x => A i 0 * f x 0 + A i 1 * f x 1 + A i 2 * f x 2 := by
    funext x; rw [Matrix.mulVec, Matrix.vec3_dotProduct]
  rw [e]
  exact ((contDiff_const.mul (c 0)).add (contDiff_const.mul (c 1))).add (contDiff_const.mul (c 2))

theorem npCross_contDiff {f g : V4 × V3 → V3} (hf : ContDiff ℝ 1 f) (hg : ContDiff ℝ 1 g) :
    ContDiff ℝ 1 fun x => npCross (f x) (g x) := by
  have c : ∀ j, ContDiff ℝ 1 (fun x => f x j) := contDiff_pi.1 hf
  have d : ∀ j, ContDiff ℝ 1 (fun x => g x j) := contDiff_pi.1 hg
  refine contDiff_pi.2 fun i => ?_
  fin_cases i
  · simp only [Fin.zero_eta, npCross_0]
    exact ((c 1).mul (d 2)).sub ((c 2).mul (d 1))
  · simp only [Fin.mk_one, npCross_1]
    exact ((c 2).mul (d 0)).sub ((c 0).mul (d 2))
  · simp only [Fin.reduceFinMk, npCross_2]
    exact ((c 0).mul (d 1)).sub ((c 1).mul (d 0))

theorem flownField_contDiff (I J : M3) (alpha gamma : ℝ) (qc : V4) (sgn : ℝ) :
    ContDiff ℝ 1 (flownField I J alpha gamma qc sgn) := by
  have h := loopField_contDiff alpha gamma sgn qc
  exact ContDiff.prodMk h.fst (mulVec_contDiff _ ((npCross_contDiff contDiff_snd (mulVec_contDiff _ contDiff_snd)).add
    (mulVec_contDiff _ h.snd)))

/-- Every controller that can find the objects around it has an instant in every state. -/
theorem flown_instant_exists (c : RwController) {mass : ℝ} {dims : V3} {ab cd : ℝ} (hb : Built c.sat mass dims ab cd)
    (hm : mass ≠ 0) (hw : UnlimitedWheels c.sat) (hav : c.objAvoidance = false) (J : M3)
    (s0 : Measurements c.sat.rw.n) (objs0 : List V3) (hobj : c.objects s0 = .ok objs0) (qc : V4) (tr : Trigger)
    (st : SatState c.sat.rw.n) :
    ∃ d, Spec.FlownInstant c J qc 0 tr (tr.step (errorQuat st.attrs.attitude qc 0)) st d ∧
      (d.att, d.rate) = flownField c.sat.totalMoment J c.alpha c.gamma qc
        (tr.step (errorQuat st.attrs.attitude qc 0)).memory (st.attrs.attitude, st.attrs.bodyAngVel) := by
  set s : Measurements c.sat.rw.n :=
    { s0 with att := st.attrs.attitude, rate := st.attrs.bodyAngVel, whl := st.attrs.wheelVel }
  obtain ⟨objs, ho⟩ : ∃ objs, c.objects s = .ok objs := by
    unfold RwController.objects at hobj ⊢
    split at hobj
    · cases hobj
    · next f hf =>
      split at hobj
      · cases hobj
      · next sun hsun => exact ⟨_, by rw [show s.pos = s0.pos from rfl, hsun]⟩
  have hs : Measured s st := ⟨rfl, rfl, rfl⟩
  have ht := tracking_plain (c := { c with trigger := tr }) hav ho 0 0 qc
  obtain ⟨a, ha, -⟩ := hw.accelerations
    (-(npCross s.rate (c.sat.totalMoment *ᵥ s.rate + c.sat.rw.momentum s.whl) +
        c.sat.totalMoment *ᵥ ((-(tr.sign (errorQuat s.att qc 0)).1 * c.alpha) • vecPart (errorQuat s.att qc)
          - c.gamma • (s.rate - sandwich (errorQuat s.att qc) 0)
          - (npCross s.rate (sandwich (errorQuat s.att qc) 0) + sandwich (errorQuat s.att qc) 0))))
  have hm' : (Spec.flownSat c J).mass ≠ 0 := by
    show c.sat.mass ≠ 0
    rw [hb.mass_eq.1]; exact hm
  obtain ⟨d, hd⟩ : ∃ d, derivative (Spec.flownSat c J) st ⟨0, 0⟩ a = .ok d :=
    ⟨_, by simp only [derivative, npVDiv, if_neg hm']; rfl⟩
  have hn : npNorm (J⁻¹ *ᵥ (0 : V3)) ≤ 0 := by rw [Matrix.mulVec_zero]; simp [npNorm]
  have hi : Spec.FlownInstant c J qc 0 tr (tr.step (errorQuat st.attrs.attitude qc 0)) st d :=
    ⟨s, objs, _, _, a, 0, 0, hs, ho, .inl hav, ht, rfl, ha, hn, hd⟩
  refine ⟨d, hi, ?_⟩
  obtain ⟨-, h2, x, hx, h3⟩ := flown_instant hb hm hw hi
  have hx0 : x = 0 := by
    by_contra hne
    exact absurd hx (not_le.2 (npNorm_pos hne))
  rw [h2, h3, hx0, add_zero]
  rfl

/-- Within the tolerance of `C210_converges` the runs do not die out: from every state, for every duration, there is one. -/
theorem C210_exists (c : RwController) (ha : 0 < c.alpha) (hg : 0 < c.gamma) {mass : ℝ} {dims : V3} {ab cd : ℝ}
    (hb : Built c.sat mass dims ab cd) (hm : mass ≠ 0) (hw : UnlimitedWheels c.sat) (hav : c.objAvoidance = false)
    (s0 : Measurements c.sat.rw.n) (objs0 : List V3) (hobj : c.objects s0 = .ok objs0) {h : ℝ} (h0 : 0 < h) (h1 : h < 1)
    (M : ℝ) : ∃ ε > 0, ∀ J : M3, (∀ i j, |J i j - c.sat.totalMoment i j| ≤ ε) →
      ∀ (qc : V4), npNorm qc = 1 → ∀ (tr0 : Trigger) (st0 : SatState c.sat.rw.n), tr0.halfWidth = h →
      (tr0.memory = 1 ∨ tr0.memory = -1) → npNorm st0.attrs.attitude = 1 → npNorm st0.attrs.bodyAngVel ≤ M →
      ∀ T, 0 ≤ T → ∃ tr st n, Spec.FlownRun c J qc 0 tr0 st0 T tr st n := by
  obtain ⟨ε, κ, C, hε, hκ, -, hall⟩ := C210_converges c ha hg hb hm hw h0 h1 M 0
  refine ⟨ε, hε, fun J hJ qc hqc tr0 st0 hh hm0 hu hM T hT => ?_⟩
  obtain ⟨E, hE⟩ : ∃ E, E = st0.attrs.bodyAngVel ⬝ᵥ st0.attrs.bodyAngVel / 2
    + c.alpha * npNorm (st0.attrs.attitude - tr0.memory • qc) ^ 2 := ⟨_, rfl⟩
  have hE0 : 0 ≤ E := by
    rw [hE]
    have := dot_self_nonneg3 st0.attrs.bodyAngVel
    positivity
  set R := Real.sqrt (6 * E)
  obtain ⟨N, hN⟩ := exists_nat_gt (3 / 2 * E / (2 * c.alpha * h))
  refine switched_exists (Run := Spec.FlownRun c J qc 0 tr0 st0) (qc := qc) (N := N)
    (K := Metric.closedBall 0 1 ×ˢ Metric.closedBall 0 R)
    (fun sgn => flownField_contDiff c.sat.totalMoment J c.alpha c.gamma qc sgn) ?_ ?_
    ((isCompact_closedBall _ _).prod (isCompact_closedBall _ _)) ?_ .start hT
  · intro t tr st n y T hrun h0 hT hy hh
    have e0 : withMotion st (y 0) = st := by rw [h0]; rfl
    refine .flow (fun τ => withMotion st (y τ)) T hT (e0.symm ▸ hrun)
      (fun τ hτ => (hy τ hτ).continuousAt.fst.continuousWithinAt)
      (fun τ hτ => (hy τ hτ).continuousAt.snd.continuousWithinAt) fun τ hτ => ?_
    obtain ⟨d, hi, hd⟩ := flown_instant_exists c hb hm hw hav J s0 objs0 hobj qc tr (withMotion st (y τ))
    have hst : tr.step (errorQuat (withMotion st (y τ)).attrs.attitude qc 0) = tr := step_hold (hh τ hτ)
    rw [hst] at hi hd
    have hd' := hy τ ⟨hτ.1, hτ.2.le⟩
    have e : flownField c.sat.totalMoment J c.alpha c.gamma qc tr.memory (y τ) = (d.att, d.rate) := hd.symm
    rw [e] at hd'
    exact ⟨d, hi, hd'.fst, hd'.snd⟩
  · intro t tr st n hrun hne
    obtain ⟨d, hi, -⟩ := flown_instant_exists c hb hm hw hav J s0 objs0 hobj qc tr st
    exact .switch hrun hi hne
  · intro t tr st n hrun
    obtain ⟨j0, j1, j2, j3, j4, j5⟩ := hall J hJ qc hqc 0 le_rfl le_rfl tr0 tr st0 st t n hh hm0 hu hM hrun
    rw [← hE] at j4 j5
    refine ⟨j2 ▸ h0, j1, ?_, ?_, ?_⟩
    · have h2 : (n : ℝ) ≤ 3 / 2 * E / (2 * c.alpha * h) := by
        rw [le_div_iff₀ (by positivity)]; linarith [j5 rfl]
      exact_mod_cast (h2.trans_lt hN).le
    · rw [mem_closedBall_zero_iff]
      refine (pi_norm_le_iff_of_nonneg zero_le_one).2 fun i => ?_
      rw [Real.norm_eq_abs, ← j3]
      exact abs_le_npNorm _ i
    · rw [mem_closedBall_zero_iff]
      refine (pi_norm_le_iff_of_nonneg (Real.sqrt_nonneg _)).2 fun i => ?_
      rw [Real.norm_eq_abs]
      refine (abs_le_npNorm _ i).trans (Real.le_sqrt_of_sq_le ?_)
      have hx := mul_le_of_le_one_right hE0 (exp_le_one_of hκ j0)
      have h2 : 0 ≤ c.alpha * npNorm (st.attrs.attitude - tr.memory • qc) ^ 2 := by positivity
      rw [← dot_self3]
      simp only at j4 ⊢
      linarith

/-- The hypotheses are met by a controller of the constructor, whose half width is 0.3, and by inertias other than the
one it assumes: from a tumble of 0.37 rad/s there are runs for every duration. -/
example : ∃ (c : RwController) (ε : ℝ), 0 < ε ∧ c.trigger.halfWidth = 0.3 ∧ ∀ J : M3,
    (∀ i j, |J i j - c.sat.totalMoment i j| ≤ ε) → ∃ (st0 : SatState c.sat.rw.n), st0.attrs.bodyAngVel = ![0.1, 0.2, 0.3] ∧
    ∀ T, 0 ≤ T → ∃ tr st n, Spec.FlownRun c J ![0, 1, 0, 0] 0 c.trigger st0 T tr st n := by
  obtain ⟨model, c, st, s, objs, hc, hb, hw, hav, hs, hobj, hn, hrate, -⟩ := exLoop ![0.1, 0.2, 0.3] 0 []
  obtain ⟨ha, hal, hga, hhw, hmem, -⟩ := C69_gains model 1 1 c hc
  obtain ⟨ε, hε, h⟩ := C210_exists { c with objAvoidance := false } ha (by rw [hga]; norm_num) hb (by norm_num) hw rfl s
    objs hobj (h := 0.3) (by norm_num) (by norm_num) 1
  refine ⟨{ c with objAvoidance := false }, ε, hε, hhw, fun J hJ => ⟨st, by rw [← hs.2.1, hrate], ?_⟩⟩
  refine h J hJ ![0, 1, 0, 0] (npNorm_vec4 (by norm_num)) c.trigger st hhw (.inl hmem) (by rw [← hs.1, hn]) ?_
  rw [← hs.2.1, hrate]
  refine abs_le_of_sq_le_sq' ?_ zero_le_one |>.2
  rw [npNorm3_sq]
  norm_num

/-- The hypotheses of `C210_bounded` and `C210_uniform` are met: a satellite and its controller, with an inertia that is
positive definite, and an inertia that differs from it on and off the diagonal. -/
example : ∃ (model : CtlModel) (c : RwController), RwController.init model 1 1 = .ok c ∧
    Built c.sat 2 ![0.1, 0.1, 0.2] 0.8 2.2 ∧ UnlimitedWheels c.sat ∧ c.sat.totalMoment.PosDef ∧ 0 < c.alpha ∧
    0 < c.gamma ∧ ∀ ε > 0, ∃ J : M3, Jᵀ = J ∧ (∀ i j, |J i j - c.sat.totalMoment i j| ≤ ε) ∧
      ∀ i j, J i j ≠ c.sat.totalMoment i j := by
  obtain ⟨sat, hb, hpd, -, hI, hins, hrw⟩ := exSat3 false []
  have hc0 : RwController.init ⟨sat, some exClock, some fun _ _ => .ok ![1, 0, 0]⟩ 1 1 =
      .ok ⟨sat, exClock, some fun _ _ => .ok ![1, 0, 0], true, Trigger.init 1 0.3, 2 * 1 ^ 2, 2 * 1 * 1,
        sat.instruments.map fun i => setGains i Real.pi (2 * 1 ^ 2 * 1)⟩ := by
    unfold RwController.init
    simp only
    rw [if_neg (by norm_num)]
  refine ⟨_, _, hc0, hb, ⟨3, exAxes, _, _, _, fun _ => by norm_num, hrw⟩, hpd, by norm_num, by norm_num, fun ε hε => ?_⟩
  refine ⟨sat.totalMoment + Matrix.of fun _ _ => ε, ?_, fun i j => ?_, fun i j => ?_⟩
  · rw [hI, Matrix.transpose_add, Matrix.diagonal_transpose]; rfl
  · simp only [Matrix.add_apply, Matrix.of_apply, add_sub_cancel_left, abs_of_pos hε, le_refl]
  · simp only [Matrix.add_apply, Matrix.of_apply]
    linarith

end Adcs
