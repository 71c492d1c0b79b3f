import Verif.Props.SampledTrack
import Verif.Props.Envelope
import Verif.Proofs.RiccatiLimit

set_option autoImplicit false

/-! # C205: tracking with wheels whose torque is limited -/

namespace Adcs

open Str Sens JDay Quat Vec Dyn Ctl Spec Set Filter Topology
open scoped Matrix

/-- Wheels with the torque limit `T`, with non-zero inertias, made by the constructor. -/
def LimitedWheels (sat : Satellite) (T : ℝ) : Prop :=
  ∃ (n : ℕ) (ax : Fin n → V3) (par orth : Fin n → ℝ), (∀ i, par i ≠ 0) ∧
    RWSystem.init (mkWheels ax par orth) T true = .ok sat.rw

/-- Runs of the closed loop from the memory `tr0` of the trigger and the state `st0`, with the speeds of the wheels
followed: time, memory, state, number of switches. The satellite is left to itself (no disturbing torque). A piece of
motion is continuous, and up to its end (exclusive) the controller holds its sign; there it may switch. -/
inductive Spec.WheelRun (c : RwController) (qc : V4) (tr0 : Trigger) (st0 : SatState c.sat.rw.n) :
    ℝ → Trigger → SatState c.sat.rw.n → ℕ → Prop
  | start : WheelRun c qc tr0 st0 0 tr0 st0 0
  | flow {t : ℝ} {tr : Trigger} {n : ℕ} (st : ℝ → SatState c.sat.rw.n) (T : ℝ) (hT : 0 ≤ T) :
      WheelRun c qc tr0 st0 t tr (st 0) n →
      ContinuousOn (fun τ => (st τ).attrs.attitude) (Icc 0 T) →
      ContinuousOn (fun τ => (st τ).attrs.bodyAngVel) (Icc 0 T) →
      ContinuousOn (fun τ => (st τ).attrs.wheelVel) (Icc 0 T) →
      (∀ τ ∈ Ico 0 T, ∃ d, Spec.Instant c qc 0 tr tr (st τ) d ∧
        HasDerivAt (fun τ => (st τ).attrs.attitude) d.att τ ∧ HasDerivAt (fun τ => (st τ).attrs.bodyAngVel) d.rate τ ∧
        HasDerivAt (fun τ => (st τ).attrs.wheelVel) d.whl τ) →
      WheelRun c qc tr0 st0 (t + T) tr (st T) n
  | switch {t : ℝ} {tr tr' : Trigger} {n : ℕ} {st : SatState c.sat.rw.n} {d : Raw c.sat.rw.n} :
      WheelRun c qc tr0 st0 t tr st n → Spec.Instant c qc 0 tr tr' st d → tr' ≠ tr →
      WheelRun c qc tr0 st0 t tr' st (n + 1)

/-- The kinetic energy of the turning body. -/
noncomputable def Spec.turnEnergy (sat : Satellite) (st : SatState sat.rw.n) : ℝ :=
  st.attrs.bodyAngVel ⬝ᵥ sat.totalMoment *ᵥ st.attrs.bodyAngVel / 2

/-- The torque that the tracking law asks for, for a constant command. -/
noncomputable def lawAt (c : RwController) (qc : V4) (sgn : ℝ) (st : SatState c.sat.rw.n) : V3 :=
  npCross st.attrs.bodyAngVel (Spec.totalMomentum c.sat st) +
    c.sat.totalMoment *ᵥ ((-sgn * c.alpha) • vecPart (errorQuat st.attrs.attitude qc) - c.gamma • st.attrs.bodyAngVel)

theorem delivered_shares {n : ℕ} {ax : Fin n → V3} {par orth : Fin n → ℝ} (hp : ∀ i, par i ≠ 0) {maxT : ℝ} (hT : 0 ≤ maxT)
    {s : RWSystem} (hs : RWSystem.init (mkWheels ax par orth) maxT true = .ok s) (cmd : V3) :
    ∃ (a : Fin s.n → ℝ) (k : ℝ), s.accelerations cmd = .ok a ∧ 0 ≤ k ∧ k ≤ 1 ∧ s.torque a = k • cmd ∧
      (∀ i, |k * (s.distribution *ᵥ cmd) i| ≤ maxT) ∧
      ∀ k' : ℝ, 0 ≤ k' → k' ≤ 1 → (∀ i, |k' * (s.distribution *ᵥ cmd) i| ≤ maxT) → k' ≤ k := by
  have h := delivered hp hT hs cmd
  have e := rwInit_eq hs
  subst e
  exact h

/-- What happens at an instant, with limited wheels: the part `k` of the torque is delivered, which is all of it, or as
much as the limit allows. -/
theorem limited_instant {c : RwController} {mass : ℝ} {dims : V3} {ab cd : ℝ} (hb : Built c.sat mass dims ab cd)
    (hm : mass ≠ 0) {T : ℝ} (hT : 0 ≤ T) (hw : LimitedWheels c.sat T) {qc : V4} {tr tr' : Trigger}
    {st : SatState c.sat.rw.n} {d : Raw c.sat.rw.n} (h : Spec.Instant c qc 0 tr tr' st d) :
    tr' = tr.step (errorQuat st.attrs.attitude qc 0) ∧
    d.att = (0.5 : ℝ) • product st.attrs.attitude (pureQ st.attrs.bodyAngVel) ∧
    ∃ k : ℝ, 0 ≤ k ∧ k ≤ 1 ∧ c.sat.rw.torque d.whl = -(k • lawAt c qc tr'.memory st) ∧
      d.rate = c.sat.invTotMoment *ᵥ (k • lawAt c qc tr'.memory st
        - npCross st.attrs.bodyAngVel (Spec.totalMomentum c.sat st)) ∧
      (∀ i, |k * (c.sat.rw.distribution *ᵥ lawAt c qc tr'.memory st) i| ≤ T) ∧
      ∀ k' : ℝ, 0 ≤ k' → k' ≤ 1 → (∀ i, |k' * (c.sat.rw.distribution *ᵥ lawAt c qc tr'.memory st) i| ≤ T) → k' ≤ k := by
  obtain ⟨s, objs, law, c', a, F, To, hs, hobj, hcl, ht, htr, ha, hTo, hd⟩ := h
  rw [tracking_clear hobj hcl, tracking_plain (c := { c with trigger := tr, objAvoidance := false }) rfl hobj] at ht
  obtain ⟨e1, e2⟩ := Prod.ext_iff.1 ht
  simp only [Except.ok.injEq] at e1 e2
  have hstep : tr' = tr.step (errorQuat st.attrs.attitude qc 0) := by
    rw [← htr, ← e2, ← hs.1]; rfl
  have hsg : (tr.sign (errorQuat s.att qc 0)).1 = tr'.memory := by rw [hstep, ← hs.1]; rfl
  have z : ∀ q : V4, sandwich q 0 = 0 := fun q => by rw [sandwich_eq_dcm, Matrix.mulVec_zero]
  have hzc : ∀ v : V3, npCross v 0 = 0 := fun v => by rw [npCross_eq_crossProduct, LinearMap.map_zero]
  rw [hsg, z, hzc, add_zero, sub_zero, sub_zero, hs.1, hs.2.1, hs.2.2] at e1
  have el : law = lawAt c qc tr'.memory st := e1.symm
  have hT0 : To = 0 := by
    have h0 : c.sat.invTotMoment *ᵥ To = 0 := by
      by_contra hne
      exact absurd hTo (not_le.2 (npNorm_pos hne))
    have := congrArg (c.sat.totalMoment *ᵥ ·) h0
    simpa [Matrix.mulVec_mulVec, hb.inverse] using this
  obtain ⟨n, ax, par, orth, hp, hrw⟩ := hw
  obtain ⟨a', k, h1, h2, h3, h4, h5, h6⟩ := delivered_shares hp hT hrw (-law)
  have ea : a' = a := Except.ok.inj (h1.symm.trans ha)
  subst ea
  have hta : c.sat.rw.torque a' = -(k • law) := by rw [h4, smul_neg]
  obtain ⟨d', hd', -, hwh, hatt, hrate⟩ := derivative_rate hb hm st (k • law) F To a' hta
  have ed : d' = d := Except.ok.inj (hd'.symm.trans hd)
  subst ed
  refine ⟨hstep, hatt, k, h2, h3, by rw [hwh, hta, el], ?_, fun i => ?_, fun k' g0 g1 g2 => h6 k' g0 g1 ?_⟩
  · rw [hrate, hT0, zero_add, el]; rfl
  · have := h5 i
    rwa [Matrix.mulVec_neg, Pi.neg_apply, mul_neg, abs_neg, el] at this
  · rw [← el] at g2
    intro i
    rw [Matrix.mulVec_neg, Pi.neg_apply, mul_neg, abs_neg]
    exact g2 i

/-! ## The barrier -/

/-- A quantity that falls at least at the rate `k0` as long as it is positive. -/
theorem decay_barrier {f : ℝ → ℝ} {T k0 : ℝ} (hT : 0 ≤ T) (hc : ContinuousOn f (Icc 0 T))
    (h : ∀ t ∈ Ico 0 T, ∃ f' k, k0 ≤ k ∧ HasDerivAt f f' t ∧ f' ≤ -k * f t) {m : ℝ} (hm : 0 ≤ m) (h0 : f 0 ≤ m) :
    f T ≤ m * Real.exp (-k0 * T) := by
  have hE : ∀ t : ℝ, HasDerivAt (fun t => Real.exp (k0 * t)) (Real.exp (k0 * t) * k0) t := fun t => by
    simpa using ((hasDerivAt_id t).const_mul k0).exp
  choose! f' k hk hf hle using h
  have key : ∀ ε > 0, f T * Real.exp (k0 * T) ≤ m + ε * (1 + T) := by
    intro ε hε
    have hb : ∀ x ∈ Ico 0 T, f x * Real.exp (k0 * x) = m + ε * (1 + x) →
        f' x * Real.exp (k0 * x) + f x * (Real.exp (k0 * x) * k0) < ε := by
      intro x hx he
      have hpos : 0 < f x := by
        have h1 : 0 < f x * Real.exp (k0 * x) := by
          rw [he]
          have := mul_pos hε (by linarith [hx.1] : 0 < 1 + x)
          linarith
        exact pos_of_mul_pos_left h1 (Real.exp_pos _).le
      have h2 : f' x + f x * k0 ≤ 0 := by
        have := hle x hx
        have := mul_le_mul_of_nonneg_right (hk x hx) hpos.le
        linarith
      have h3 : Real.exp (k0 * x) * (f' x + f x * k0) ≤ 0 := mul_nonpos_of_nonneg_of_nonpos (Real.exp_pos _).le h2
      linarith
    have := image_le_of_deriv_right_lt_deriv_boundary (f := fun x => f x * Real.exp (k0 * x)) (a := 0) (b := T)
      (f' := fun x => f' x * Real.exp (k0 * x) + f x * (Real.exp (k0 * x) * k0))
      (hc.mul (by fun_prop : Continuous fun x : ℝ => Real.exp (k0 * x)).continuousOn)
      (fun x hx => ((hf x hx).mul (hE x)).hasDerivWithinAt) (B := fun x => m + ε * (1 + x)) (B' := fun _ => ε)
      (by simp only [mul_zero, Real.exp_zero, mul_one, add_zero]; linarith)
      (fun x => by simpa using (((hasDerivAt_id x).const_add 1).const_mul ε).const_add m) hb
    exact this ⟨hT, le_rfl⟩
  have h1 : f T * Real.exp (k0 * T) ≤ m := by
    refine le_of_forall_pos_le_add fun ε hε => ?_
    have := key (ε / (1 + T)) (by positivity)
    rwa [div_mul_cancel₀ _ (by positivity)] at this
  have h2 : Real.exp (k0 * T) * Real.exp (-k0 * T) = 1 := by rw [← Real.exp_add]; simp
  calc f T = f T * Real.exp (k0 * T) * Real.exp (-k0 * T) := by rw [mul_assoc, h2, mul_one]
    _ ≤ _ := mul_le_mul_of_nonneg_right h1 (Real.exp_pos _).le

section
variable {c : RwController} {mass : ℝ} {dims : V3} {ab cd : ℝ} {T : ℝ} {qc : V4}

/-- The angular momentum, wherever the motion is. -/
theorem momentum_piece (hb : Built c.sat mass dims ab cd) (hm : mass ≠ 0) (hT : 0 ≤ T) (hw : LimitedWheels c.sat T)
    {tr : Trigger} {st : ℝ → SatState c.sat.rw.n} {D : ℝ} (hD : 0 ≤ D)
    (c2 : ContinuousOn (fun τ => (st τ).attrs.bodyAngVel) (Icc 0 D))
    (c3 : ContinuousOn (fun τ => (st τ).attrs.wheelVel) (Icc 0 D))
    (h : ∀ τ ∈ Ico 0 D, ∃ d, Spec.Instant c qc 0 tr tr (st τ) d ∧
        HasDerivAt (fun τ => (st τ).attrs.attitude) d.att τ ∧ HasDerivAt (fun τ => (st τ).attrs.bodyAngVel) d.rate τ ∧
        HasDerivAt (fun τ => (st τ).attrs.wheelVel) d.whl τ) :
    npNorm (Spec.totalMomentum c.sat (st D)) = npNorm (Spec.totalMomentum c.sat (st 0)) := by
  set H := fun τ => Spec.totalMomentum c.sat (st τ) with hH
  have hd : ∀ τ ∈ Ico 0 D, HasDerivAt (fun x => H x ⬝ᵥ H x) 0 τ := by
    intro τ hτ
    obtain ⟨d, hi, -, d2, d3⟩ := h τ hτ
    obtain ⟨-, -, k, -, -, ht, hr, -⟩ := limited_instant hb hm hT hw hi
    have hdH : HasDerivAt H (-npCross (st τ).attrs.bodyAngVel (H τ)) τ := by
      refine ((hasDerivAt_mulVec3 (J := c.sat.totalMoment) d2).fun_add (hasDerivAt_momentum c.sat d3)).congr_deriv ?_
      rw [ht, hr, Matrix.mulVec_mulVec, hb.inverse, Matrix.one_mulVec]
      simp only [hH]
      abel
    refine (hasDerivAt_dot3 hdH hdH).congr_deriv ?_
    simp only [Matrix.vec3_dotProduct, Pi.neg_apply, npCross_0, npCross_1, npCross_2]; ring
  have hc : ContinuousOn (fun x => H x ⬝ᵥ H x) (Icc 0 D) := by
    have k2 := continuousOn_pi.1 c2
    have k3 := continuousOn_pi.1 c3
    have hHi : ∀ i, ContinuousOn (fun x => H x i) (Icc 0 D) := by
      intro i
      simp only [hH, Spec.totalMomentum, Pi.add_apply, Matrix.mulVec, dotProduct, RWSystem.momentum, Finset.sum_apply,
        Wheel.momentum, Pi.smul_apply, smul_eq_mul]
      refine ContinuousOn.add (continuousOn_finset_sum _ fun j _ => continuousOn_const.mul (k2 j))
        (continuousOn_finset_sum _ fun j _ => ?_)
      have := k3 j
      fun_prop
    simp only [Matrix.vec3_dotProduct]
    exact (((hHi 0).mul (hHi 0)).add ((hHi 1).mul (hHi 1))).add ((hHi 2).mul (hHi 2))
  have e := constant_of_has_deriv_right_zero hc (fun t ht => (hd t ht).hasDerivWithinAt) D ⟨hD, le_rfl⟩
  simp only [dot_self3] at e
  exact (pow_left_inj₀ (npNorm_nonneg _) (npNorm_nonneg _) two_ne_zero).1 e

/-- What every run keeps. -/
theorem run_keeps (hb : Built c.sat mass dims ab cd) (hm : mass ≠ 0) (hT : 0 ≤ T) (hw : LimitedWheels c.sat T)
    {tr0 tr : Trigger} {st0 st : SatState c.sat.rw.n} {t : ℝ} {n : ℕ} (hh : 0 < tr0.halfWidth)
    (hm0 : tr0.memory = 1 ∨ tr0.memory = -1)
    (hu : npNorm st0.attrs.attitude = 1) (hrun : Spec.WheelRun c qc tr0 st0 t tr st n) :
    0 ≤ t ∧ (tr.memory = 1 ∨ tr.memory = -1) ∧ tr.halfWidth = tr0.halfWidth ∧ npNorm st.attrs.attitude = 1 ∧
      npNorm (Spec.totalMomentum c.sat st) = npNorm (Spec.totalMomentum c.sat st0) := by
  induction hrun with
  | start => exact ⟨le_rfl, hm0, rfl, hu, rfl⟩
  | @flow t tr n st D hD _ c1 c2 c3 h ih =>
    obtain ⟨i0, i1, i2, i3, i4⟩ := ih
    have hq : ∀ τ ∈ Ico 0 D, HasDerivAt (fun τ => (st τ).attrs.attitude)
        ((0.5 : ℝ) • product (st τ).attrs.attitude (pureQ (st τ).attrs.bodyAngVel)) τ := by
      intro τ hτ
      obtain ⟨d, hi, hdq, -⟩ := h τ hτ
      rw [← (limited_instant hb hm hT hw hi).2.1]
      exact hdq
    exact ⟨by linarith, i1, i2, (norm_flow hD c1 hq).trans i3, (momentum_piece hb hm hT hw hD c2 c3 h).trans i4⟩
  | @switch t tr tr' n st d _ hi hne ih =>
    obtain ⟨i0, i1, i2, i3, i4⟩ := ih
    have hst := (limited_instant hb hm hT hw hi).1
    obtain ⟨j1, j2, -⟩ := trigger_switch i1 (i2 ▸ hh) (x := errorQuat st.attrs.attitude qc 0) (hst ▸ hne)
    rw [← hst] at j1 j2
    exact ⟨i0, by rw [j1]; rcases i1 with h | h <;> rw [h] <;> simp, j2.trans i2, i3, i4⟩

/-- The kinetic energy along a motion. -/
theorem energy_instant (hb : Built c.sat mass dims ab cd) (hm : mass ≠ 0) (hT : 0 ≤ T) (hw : LimitedWheels c.sat T)
    (ha : 0 < c.alpha) (hg : 0 < c.gamma) (hJ : c.sat.totalMoment.PosDef) {lam : ℝ} (hl0 : 0 ≤ lam)
    (hlam : ∀ x : V3, x ⬝ᵥ c.sat.totalMoment *ᵥ x ≤ lam * (x ⬝ᵥ x)) (hqc : npNorm qc = 1)
    {tr : Trigger} (hmem : tr.memory = 1 ∨ tr.memory = -1) {st : ℝ → SatState c.sat.rw.n} {τ : ℝ}
    (hu : npNorm (st τ).attrs.attitude = 1) {d : Raw c.sat.rw.n} (hi : Spec.Instant c qc 0 tr tr (st τ) d)
    (hd : HasDerivAt (fun τ => (st τ).attrs.bodyAngVel) d.rate τ) :
    ∃ E' k, 0 ≤ k ∧ HasDerivAt (fun τ => Spec.turnEnergy c.sat (st τ) - lam * (c.alpha / c.gamma) ^ 2 / 2) E' τ ∧
      E' ≤ -(k * c.gamma) * (Spec.turnEnergy c.sat (st τ) - lam * (c.alpha / c.gamma) ^ 2 / 2) ∧
      ∀ k' : ℝ, 0 ≤ k' → k' ≤ 1 →
        (∀ i, |k' * (c.sat.rw.distribution *ᵥ lawAt c qc tr.memory (st τ)) i| ≤ T) → k' ≤ k := by
  obtain ⟨-, -, k, k0, -, ht, hr, -, hmax⟩ := limited_instant hb hm hT hw hi
  set J := c.sat.totalMoment with hJd
  set w := (st τ).attrs.bodyAngVel with hwd
  set e := vecPart (errorQuat (st τ).attrs.attitude qc) with he
  set E := Spec.turnEnergy c.sat (st τ) with hE
  have hE2 : w ⬝ᵥ J *ᵥ w = 2 * E := by rw [hE, Spec.turnEnergy]; ring
  have hsym : ∀ x y : V3, x ⬝ᵥ J *ᵥ y = y ⬝ᵥ J *ᵥ x := fun x y => by
    rw [Matrix.dotProduct_mulVec, ← Matrix.mulVec_transpose, psd_symm hJ.posSemidef, dotProduct_comm]
  have hder : HasDerivAt (fun τ => Spec.turnEnergy c.sat (st τ) - lam * (c.alpha / c.gamma) ^ 2 / 2)
      (w ⬝ᵥ J *ᵥ d.rate) τ := by
    refine (((hasDerivAt_dot3 hd (hasDerivAt_mulVec3 (J := J) hd)).div_const 2).sub_const _).congr_deriv ?_
    rw [hsym d.rate]; ring
  have hval : w ⬝ᵥ J *ᵥ d.rate = k * (-(tr.memory * c.alpha) * (w ⬝ᵥ J *ᵥ e) - c.gamma * (2 * E)) := by
    rw [hr, Matrix.mulVec_mulVec, hb.inverse, Matrix.one_mulVec, dotProduct_sub, dotProduct_smul, lawAt, dotProduct_add,
      Matrix.mulVec_sub, Matrix.mulVec_smul, Matrix.mulVec_smul, dotProduct_sub, dotProduct_smul, dotProduct_smul, ← hwd, ← he,
      hE2]
    have hz : ∀ v : V3, w ⬝ᵥ npCross w v = 0 := fun v => by
      simp only [Matrix.vec3_dotProduct, npCross_0, npCross_1, npCross_2]; ring
    rw [hz]
    simp only [smul_eq_mul]
    ring
  refine ⟨_, k, k0, hder, ?_, hmax⟩
  have hue : IsUnit4 (errorQuat (st τ).attrs.attitude qc) := errorQuat_unit ((isUnit4_iff _).2 hu) ((isUnit4_iff _).2 hqc)
  have hee : e ⬝ᵥ e ≤ 1 := by
    have := vecPart_unit hue
    rw [he, this]
    linarith [sq_nonneg (errorQuat (st τ).attrs.attitude qc 0)]
  have hcs : (w ⬝ᵥ J *ᵥ e) ^ 2 ≤ lam * (2 * E) := by
    have h1 := psd_cauchy hJ.posSemidef w e
    rw [hE2] at h1
    have h2 : e ⬝ᵥ J *ᵥ e ≤ lam := (hlam e).trans (by nlinarith)
    have h3 : 0 ≤ 2 * E := by rw [← hE2]; exact psd_nonneg hJ.posSemidef w
    calc _ ≤ 2 * E * (e ⬝ᵥ J *ᵥ e) := h1
      _ ≤ 2 * E * lam := mul_le_mul_of_nonneg_left h2 h3
      _ = _ := by ring
  have hy := young (c := c.gamma / c.alpha) hl0 (by rw [← hE2]; exact psd_nonneg hJ.posSemidef w) (by positivity) hcs
  have hab : -(tr.memory * c.alpha) * (w ⬝ᵥ J *ᵥ e) ≤ c.alpha * |w ⬝ᵥ J *ᵥ e| := by
    have h1 := abs_le.1 (le_refl |w ⬝ᵥ J *ᵥ e|)
    rcases hmem with h | h <;> rw [h]
    · have := mul_le_mul_of_nonneg_left h1.1 ha.le; linarith
    · have := mul_le_mul_of_nonneg_left h1.2 ha.le; linarith
  have hy2 : c.alpha * |w ⬝ᵥ J *ᵥ e| ≤ c.gamma * E + c.gamma * (lam * (c.alpha / c.gamma) ^ 2 / 2) := by
    have := mul_le_mul_of_nonneg_left hy ha.le
    refine this.trans (le_of_eq ?_)
    field_simp
  rw [hval]
  have : -(tr.memory * c.alpha) * (w ⬝ᵥ J *ᵥ e) - c.gamma * (2 * E) ≤
      -c.gamma * (E - lam * (c.alpha / c.gamma) ^ 2 / 2) := by linarith
  calc _ ≤ k * (-c.gamma * (E - lam * (c.alpha / c.gamma) ^ 2 / 2)) := mul_le_mul_of_nonneg_left this k0
    _ = _ := by ring

theorem turnEnergy_continuousOn {st : ℝ → SatState c.sat.rw.n} {S : Set ℝ}
    (h : ContinuousOn (fun τ => (st τ).attrs.bodyAngVel) S) : ContinuousOn (fun τ => Spec.turnEnergy c.sat (st τ)) S := by
  have k := continuousOn_pi.1 h
  have k0 := k 0; have k1 := k 1; have k2 := k 2
  simp only [Spec.turnEnergy, dotProduct, Matrix.mulVec, Fin.sum_univ_three]
  fun_prop

/-- The energy over a run along which at least the part `k0` of the torque is delivered. -/
theorem energy_run (hb : Built c.sat mass dims ab cd) (hm : mass ≠ 0) (hT : 0 ≤ T) (hw : LimitedWheels c.sat T)
    (ha : 0 < c.alpha) (hg : 0 < c.gamma) (hJ : c.sat.totalMoment.PosDef) {lam : ℝ} (hl0 : 0 ≤ lam)
    (hlam : ∀ x : V3, x ⬝ᵥ c.sat.totalMoment *ᵥ x ≤ lam * (x ⬝ᵥ x)) (hqc : npNorm qc = 1)
    {tr0 : Trigger} {st0 : SatState c.sat.rw.n} (hh : 0 < tr0.halfWidth)
    (hm0 : tr0.memory = 1 ∨ tr0.memory = -1) (hu : npNorm st0.attrs.attitude = 1) {m k0 : ℝ} (hm' : 0 ≤ m)
    (h0 : Spec.turnEnergy c.sat st0 - lam * (c.alpha / c.gamma) ^ 2 / 2 ≤ m) (hk0 : 0 ≤ k0) (hk1 : k0 ≤ 1)
    (hpart : ∀ t tr st n, Spec.WheelRun c qc tr0 st0 t tr st n →
      ∀ i, |k0 * (c.sat.rw.distribution *ᵥ lawAt c qc tr.memory st) i| ≤ T)
    {t : ℝ} {tr : Trigger} {st : SatState c.sat.rw.n} {n : ℕ} (hrun : Spec.WheelRun c qc tr0 st0 t tr st n) :
    Spec.turnEnergy c.sat st - lam * (c.alpha / c.gamma) ^ 2 / 2 ≤ m * Real.exp (-(k0 * c.gamma) * t) := by
  induction hrun with
  | start => simpa using h0
  | @flow t tr n st D hD hprev c1 c2 c3 h ih =>
    have hkeep : ∀ τ ∈ Ico 0 D, Spec.WheelRun c qc tr0 st0 (t + τ) tr (st τ) n := fun τ hτ =>
      .flow st τ hτ.1 hprev (c1.mono (Icc_subset_Icc_right hτ.2.le)) (c2.mono (Icc_subset_Icc_right hτ.2.le))
        (c3.mono (Icc_subset_Icc_right hτ.2.le)) fun σ hσ => h σ ⟨hσ.1, hσ.2.trans hτ.2⟩
    have := decay_barrier (f := fun τ => Spec.turnEnergy c.sat (st τ) - lam * (c.alpha / c.gamma) ^ 2 / 2)
      (k0 := k0 * c.gamma) hD ((turnEnergy_continuousOn c2).sub continuousOn_const) (fun τ hτ => by
        obtain ⟨d, hi, -, d2, -⟩ := h τ hτ
        obtain ⟨-, g1, -, g3, -⟩ := run_keeps hb hm hT hw hh hm0 hu (hkeep τ hτ)
        obtain ⟨E', k, -, e1, e2, e3⟩ := energy_instant hb hm hT hw ha hg hJ hl0 hlam hqc g1 g3 hi d2
        exact ⟨E', k * c.gamma, mul_le_mul_of_nonneg_right (e3 k0 hk0 hk1 (hpart _ _ _ _ (hkeep τ hτ))) hg.le, e1, e2⟩)
      (mul_nonneg hm' (Real.exp_pos _).le) ih
    refine this.trans (le_of_eq ?_)
    rw [mul_assoc, ← Real.exp_add]
    congr 2
    ring
  | switch _ _ _ ih => exact ih

/-- However small the limit (even zero), the kinetic energy stays below the larger of the energy at the beginning and
`lam (alpha / gamma)^2 / 2`, where `lam` is a bound of the inertia. -/
theorem C205_bounded (c : RwController) (ha : 0 < c.alpha) (hg : 0 < c.gamma) {mass : ℝ} {dims : V3} {ab cd : ℝ}
    (hb : Built c.sat mass dims ab cd) (hm : mass ≠ 0) {T : ℝ} (hT : 0 ≤ T) (hw : LimitedWheels c.sat T)
    (hJ : c.sat.totalMoment.PosDef) {lam : ℝ} (hl0 : 0 ≤ lam)
    (hlam : ∀ x : V3, x ⬝ᵥ c.sat.totalMoment *ᵥ x ≤ lam * (x ⬝ᵥ x)) (qc : V4) (hqc : npNorm qc = 1)
    (tr0 tr : Trigger) (st0 st : SatState c.sat.rw.n) (t : ℝ) (n : ℕ) (hh : 0 < tr0.halfWidth)
    (hm0 : tr0.memory = 1 ∨ tr0.memory = -1) (hu : npNorm st0.attrs.attitude = 1)
    (hrun : Spec.WheelRun c qc tr0 st0 t tr st n) :
    Spec.turnEnergy c.sat st ≤ max (Spec.turnEnergy c.sat st0) (lam * (c.alpha / c.gamma) ^ 2 / 2) := by
  have := energy_run hb hm hT hw ha hg hJ hl0 hlam hqc hh hm0 hu (k0 := 0)
    (m := max (Spec.turnEnergy c.sat st0) (lam * (c.alpha / c.gamma) ^ 2 / 2) - lam * (c.alpha / c.gamma) ^ 2 / 2)
    (by linarith [le_max_right (Spec.turnEnergy c.sat st0) (lam * (c.alpha / c.gamma) ^ 2 / 2)])
    (by linarith [le_max_left (Spec.turnEnergy c.sat st0) (lam * (c.alpha / c.gamma) ^ 2 / 2)]) le_rfl zero_le_one
    (fun _ _ _ _ _ i => by rw [zero_mul, abs_zero]; exact hT) hrun
  simp only [zero_mul, neg_zero, Real.exp_zero, mul_one] at this
  linarith

/-! ## What is asked of the wheels -/

theorem shares_bound {n : ℕ} (D : Matrix (Fin n) (Fin 3) ℝ) :
    ∃ κ : ℝ, 0 ≤ κ ∧ ∀ (x : V3) (i : Fin n), |(D *ᵥ x) i| ≤ κ * npNorm x := by
  refine ⟨∑ i, ∑ j, |D i j|, by positivity, fun x i => ?_⟩
  calc |(D *ᵥ x) i| = |∑ j, D i j * x j| := rfl
    _ ≤ ∑ j, |D i j * x j| := Finset.abs_sum_le_sum_abs _ _
    _ ≤ ∑ j, |D i j| * npNorm x := Finset.sum_le_sum fun j _ => by
        rw [abs_mul]; exact mul_le_mul_of_nonneg_left (abs_le_npNorm x j) (abs_nonneg _)
    _ = (∑ j, |D i j|) * npNorm x := by rw [Finset.sum_mul]
    _ ≤ _ := mul_le_mul_of_nonneg_right
        (Finset.single_le_sum (f := fun i => ∑ j, |D i j|) (fun i _ => by positivity) (Finset.mem_univ i)) (npNorm_nonneg _)

theorem lawAt_le (ha : 0 < c.alpha) (hg : 0 < c.gamma) {j : ℝ} (hj : 0 ≤ j)
    (hjb : ∀ x, npNorm (c.sat.totalMoment *ᵥ x) ≤ j * npNorm x) {sgn : ℝ} (hs : sgn = 1 ∨ sgn = -1)
    (st : SatState c.sat.rw.n) {w e B : ℝ} (h1 : npNorm st.attrs.bodyAngVel ≤ w)
    (h2 : npNorm (vecPart (errorQuat st.attrs.attitude qc)) ≤ e) (h3 : npNorm (Spec.totalMomentum c.sat st) ≤ B) :
    npNorm (lawAt c qc sgn st) ≤ w * B + j * (c.alpha * e + c.gamma * w) := by
  have hw0 := (npNorm_nonneg _).trans h1
  refine (npNorm_add3 _ _).trans (add_le_add ((cross_norm_le _ _).trans (mul_le_mul h1 h3 (npNorm_nonneg _) hw0)) ?_)
  refine (hjb _).trans (mul_le_mul_of_nonneg_left ((npNorm_sub3 _ _).trans ?_) hj)
  rw [npNorm_smul, npNorm_smul, abs_of_pos hg]
  have hab : |-sgn * c.alpha| = c.alpha := by
    rcases hs with h | h <;> rw [h] <;> simp [abs_of_pos ha]
  rw [hab]
  exact add_le_add (mul_le_mul_of_nonneg_left h2 ha.le) (mul_le_mul_of_nonneg_left h1 hg.le)

theorem rate_le_energy (hb : Built c.sat mass dims ab cd) (hJ : c.sat.totalMoment.PosDef) :
    ∃ mu > 0, ∀ x : V3, mu * npNorm x ^ 2 ≤ x ⬝ᵥ c.sat.totalMoment *ᵥ x := by
  obtain ⟨mu, hmu, h⟩ := inertia_lower hb
  obtain ⟨j, hj0, hj⟩ := mulVec_euclid c.sat.totalMoment
  -- |Jx|^4 = (x . J (J x))^2 <= (x . J x)(Jx . J Jx)
  refine ⟨mu ^ 2 / (j + 1), by positivity, fun x => ?_⟩
  set y := c.sat.totalMoment *ᵥ x with hy
  have hsym : x ⬝ᵥ c.sat.totalMoment *ᵥ y = y ⬝ᵥ y := by
    rw [Matrix.dotProduct_mulVec, ← Matrix.mulVec_transpose, psd_symm hJ.posSemidef]
  have h1 := psd_cauchy hJ.posSemidef x y
  rw [hsym, dot_self3] at h1
  have h2 : y ⬝ᵥ c.sat.totalMoment *ᵥ y ≤ (j + 1) * npNorm y ^ 2 := by
    have := dot_bound y (c.sat.totalMoment *ᵥ y)
    have h3 := mul_le_mul_of_nonneg_left (hj y) (npNorm_nonneg y)
    have h4 := (abs_le.1 this).2
    nlinarith [sq_nonneg (npNorm y)]
  have h0 : 0 ≤ x ⬝ᵥ y := psd_nonneg hJ.posSemidef x
  have h5 : npNorm y ^ 2 ≤ (j + 1) * (x ⬝ᵥ y) := by
    rcases (npNorm_nonneg y).eq_or_lt with h | h
    · rw [← h, zero_pow two_ne_zero]; exact mul_nonneg (by linarith) h0
    · have h6 : (npNorm y ^ 2) ^ 2 ≤ (x ⬝ᵥ y) * ((j + 1) * npNorm y ^ 2) := h1.trans (mul_le_mul_of_nonneg_left h2 h0)
      have h7 : 0 < npNorm y ^ 2 := by positivity
      refine le_of_mul_le_mul_right ?_ h7
      linarith
  have h6 : (mu * npNorm x) ^ 2 ≤ npNorm y ^ 2 := pow_le_pow_left₀ (by have := npNorm_nonneg x; positivity) (h x) 2
  rw [div_mul_eq_mul_div, div_le_iff₀ (by positivity)]
  calc mu ^ 2 * npNorm x ^ 2 = (mu * npNorm x) ^ 2 := by ring
    _ ≤ _ := h6
    _ ≤ _ := h5
    _ = _ := by ring

/-- With wheels that can deliver any torque at all, however little, the kinetic energy falls exponentially to below
`lam (alpha / gamma)^2 / 2` or stays there: for every bound `M` of the energy and `B` of the angular momentum at the
beginning there is a rate. -/
theorem C205_slows (c : RwController) (ha : 0 < c.alpha) (hg : 0 < c.gamma) {mass : ℝ} {dims : V3} {ab cd : ℝ}
    (hb : Built c.sat mass dims ab cd) (hm : mass ≠ 0) {T : ℝ} (hT : 0 < T) (hw : LimitedWheels c.sat T)
    (hJ : c.sat.totalMoment.PosDef) {lam : ℝ} (hl0 : 0 ≤ lam)
    (hlam : ∀ x : V3, x ⬝ᵥ c.sat.totalMoment *ᵥ x ≤ lam * (x ⬝ᵥ x)) (M B : ℝ) :
    ∃ κ > 0, ∀ (qc : V4), npNorm qc = 1 → ∀ (tr0 tr : Trigger) (st0 st : SatState c.sat.rw.n) (t : ℝ) (n : ℕ),
      0 < tr0.halfWidth → (tr0.memory = 1 ∨ tr0.memory = -1) → npNorm st0.attrs.attitude = 1 →
      Spec.turnEnergy c.sat st0 ≤ M → npNorm (Spec.totalMomentum c.sat st0) ≤ B →
      Spec.WheelRun c qc tr0 st0 t tr st n →
      Spec.turnEnergy c.sat st ≤ lam * (c.alpha / c.gamma) ^ 2 / 2 + M * Real.exp (-κ * t) := by
  obtain ⟨j, hj0, hj⟩ := mulVec_euclid c.sat.totalMoment
  obtain ⟨mu, hmu, hmub⟩ := rate_le_energy hb hJ
  obtain ⟨ks, hks0, hks⟩ := shares_bound c.sat.rw.distribution
  set Em := max M (lam * (c.alpha / c.gamma) ^ 2 / 2) with hEm
  have hEm0 : 0 ≤ Em := le_max_of_le_right (by positivity)
  set W := √(2 * Em / mu) with hW
  set S := ks * (W * |B| + j * (c.alpha * 1 + c.gamma * W)) with hS
  have hS0 : 0 ≤ S := by positivity
  refine ⟨T / (S + T) * c.gamma, by positivity, fun qc hqc tr0 tr st0 st t n hh hm0 hu hM hB hrun => ?_⟩
  have hE0 : 0 ≤ Spec.turnEnergy c.sat st0 := by
    rw [Spec.turnEnergy]; exact div_nonneg (psd_nonneg hJ.posSemidef _) (by norm_num)
  have hinf : 0 ≤ lam * (c.alpha / c.gamma) ^ 2 / 2 := by positivity
  have := energy_run hb hm hT.le hw ha hg hJ hl0 hlam hqc hh hm0 hu (m := M) (k0 := T / (S + T)) (hE0.trans hM)
    (by linarith) (by positivity) ((div_le_one (by positivity)).2 (by linarith)) (fun t tr st n hr i => by
      obtain ⟨-, g1, -, g3, g4⟩ := run_keeps hb hm hT.le hw hh hm0 hu hr
      have hE := C205_bounded c ha hg hb hm hT.le hw hJ hl0 hlam qc hqc tr0 tr st0 st t n hh hm0 hu hr
      have hE' : Spec.turnEnergy c.sat st ≤ Em := hE.trans (max_le_max_right _ hM)
      have hrate : npNorm st.attrs.bodyAngVel ≤ W := by
        rw [hW]
        refine Real.le_sqrt_of_sq_le ?_
        rw [le_div_iff₀ hmu]
        have := hmub st.attrs.bodyAngVel
        rw [Spec.turnEnergy] at hE'
        linarith
      have hue : IsUnit4 (errorQuat st.attrs.attitude qc) := errorQuat_unit ((isUnit4_iff _).2 g3) ((isUnit4_iff _).2 hqc)
      have hee : npNorm (vecPart (errorQuat st.attrs.attitude qc)) ≤ 1 := by
        refine (sq_le_one_iff₀ (npNorm_nonneg _)).1 ?_
        rw [← dot_self3, vecPart_unit hue]
        linarith [sq_nonneg (errorQuat st.attrs.attitude qc 0)]
      have hl := lawAt_le (qc := qc) ha hg hj0 hj g1 st hrate hee ((g4.le.trans hB).trans (le_abs_self B))
      have h1 := (hks (lawAt c qc tr.memory st) i).trans (mul_le_mul_of_nonneg_left hl hks0)
      rw [abs_mul, abs_of_pos (by positivity : 0 < T / (S + T)), div_mul_eq_mul_div, div_le_iff₀ (by positivity)]
      refine mul_le_mul_of_nonneg_left (h1.trans ?_) hT.le
      rw [← hS]; linarith) hrun
  linarith

/-! ## Near the command -/

/-- The same controller with wheels without a limit. -/
def unlimitedTwin (c : RwController) : RwController :=
  { c with sat := { c.sat with rw := { c.sat.rw with torqueLimited := false } } }

theorem twin_built (hb : Built c.sat mass dims ab cd) : Built (unlimitedTwin c).sat mass dims ab cd := by
  obtain ⟨P, p, r, rw', nMt, mt, ins, h⟩ := hb
  obtain ⟨h1, h2, e⟩ := satInit_eq h
  refine ⟨P, p, r, { rw' with torqueLimited := false }, nMt, mt, ins, ?_⟩
  obtain ⟨sat, hs⟩ := satInit_ok mass dims ab cd P p r { rw' with torqueLimited := false } mt ins h1 h2
  rw [hs, (satInit_eq hs).2.2]
  simp only [unlimitedTwin]
  rw [e]
  rfl

theorem twin_wheels (hw : LimitedWheels c.sat T) : UnlimitedWheels (unlimitedTwin c).sat := by
  obtain ⟨n, ax, par, orth, hp, hrw⟩ := hw
  refine ⟨n, ax, par, orth, T, hp, ?_⟩
  have e := rwInit_eq hrw
  unfold RWSystem.init at hrw ⊢
  simp only [npInv] at hrw ⊢
  split_ifs at hrw ⊢ with hd
  simp only [unlimitedTwin]
  rw [e]

/-- Within the limit, the twin does the same. -/
theorem twin_accelerations (hT : 0 ≤ T) (hw : LimitedWheels c.sat T) (cmd : V3)
    (h : ∀ i, |(c.sat.rw.distribution *ᵥ cmd) i| ≤ T) :
    (unlimitedTwin c).sat.rw.accelerations cmd = c.sat.rw.accelerations cmd := by
  obtain ⟨n, ax, par, orth, hp, hrw⟩ := hw
  have hsp := rwInit_spans hrw
  have e := rwInit_eq hrw
  have hlim : c.sat.rw.torqueLimited = true := by rw [e]
  have hmax : c.sat.rw.maxT = T := by rw [e]
  have hsat : Vec.saturation (c.sat.rw.distribution *ᵥ cmd) T = .ok (c.sat.rw.distribution *ᵥ cmd) := by
    have : ∀ (m : ℕ) (x : Fin m → ℝ), m ≠ 0 → (∀ i, |x i| ≤ T) → Vec.saturation x T = .ok x := by
      intro m x hm hx
      obtain ⟨m, rfl⟩ := Nat.exists_eq_succ_of_ne_zero hm
      obtain ⟨y, hy, -, h2, -⟩ := C01_saturation x T hT
      rw [hy, h2 hx]
    refine this _ _ ?_ h
    intro h0
    have hn : n = 0 := by rw [e] at h0; exact h0
    subst hn
    apply hsp
    have : axisMat ax * (axisMat ax)ᵀ = 0 := by ext i j; simp [Matrix.mul_apply]
    rw [this]; simp
  have h1 : (unlimitedTwin c).sat.rw.wheelTorques cmd = .ok (c.sat.rw.distribution *ᵥ cmd) := rfl
  have h2 : c.sat.rw.wheelTorques cmd = .ok (c.sat.rw.distribution *ᵥ cmd) := by
    unfold RWSystem.wheelTorques
    rw [hlim, hmax]
    exact hsat
  unfold RWSystem.accelerations
  rw [h1, h2]
  rfl

theorem twin_instant (hb : Built c.sat mass dims ab cd) (hm : mass ≠ 0) (hT : 0 ≤ T) (hw : LimitedWheels c.sat T)
    {tr tr' : Trigger} {st : SatState c.sat.rw.n} {d : Raw c.sat.rw.n} (h : Spec.Instant c qc 0 tr tr' st d)
    (hl : ∀ i, |(c.sat.rw.distribution *ᵥ lawAt c qc tr'.memory st) i| ≤ T) :
    Spec.Instant (unlimitedTwin c) qc 0 tr tr' st d := by
  have hst := (limited_instant hb hm hT hw h).1
  obtain ⟨s, objs, law, c', a, F, To, hs, hobj, hcl, ht, htr, ha, hTo, hd⟩ := h
  have hobj2 : ({ unlimitedTwin c with trigger := tr } : RwController).objects s = .ok objs := hobj
  have ht' := ht
  rw [tracking_clear hobj hcl, tracking_plain (c := { c with trigger := tr, objAvoidance := false }) rfl hobj] at ht'
  obtain ⟨e1, e2⟩ := Prod.ext_iff.1 ht'
  simp only [Except.ok.injEq] at e1 e2
  have hsg : (tr.sign (errorQuat s.att qc 0)).1 = tr'.memory := by rw [hst, ← hs.1]; rfl
  have z : ∀ q : V4, sandwich q 0 = 0 := fun q => by rw [sandwich_eq_dcm, Matrix.mulVec_zero]
  have hzc : ∀ v : V3, npCross v 0 = 0 := fun v => by rw [npCross_eq_crossProduct, LinearMap.map_zero]
  have el : law = lawAt c qc tr'.memory st := by
    rw [← e1, hsg, z, hzc, add_zero, sub_zero, sub_zero, hs.1, hs.2.1, hs.2.2]
    rfl
  refine ⟨s, objs, law, { unlimitedTwin c with trigger := (tr.sign (errorQuat s.att qc 0)).2 }, a, F, To, hs, hobj2, hcl,
    ?_, ?_, ?_, hTo, hd⟩
  · rw [tracking_clear hobj2 hcl,
      tracking_plain (c := { unlimitedTwin c with trigger := tr, objAvoidance := false }) rfl hobj2]
    refine Prod.ext ?_ rfl
    simp only [Except.ok.injEq]
    exact e1
  · rw [← htr, ← e2]
  · have := twin_accelerations hT hw (-law) (fun i => by
      rw [Matrix.mulVec_neg, Pi.neg_apply, abs_neg, el]; exact hl i)
    exact this.trans ha

theorem within (ha : 0 < c.alpha) (hg : 0 < c.gamma) {j : ℝ} (hj : 0 ≤ j)
    (hjb : ∀ x, npNorm (c.sat.totalMoment *ᵥ x) ≤ j * npNorm x) {ks : ℝ} (hks0 : 0 ≤ ks)
    (hks : ∀ (x : V3) i, |(c.sat.rw.distribution *ᵥ x) i| ≤ ks * npNorm x) {B V : ℝ}
    (hV : ks * (√(2 * V) * B + j * (√(c.alpha * V) + c.gamma * √(2 * V))) ≤ T) (hqc : npNorm qc = 1)
    {st : SatState c.sat.rw.n} (hu : npNorm st.attrs.attitude = 1) {sgn sgn' : ℝ} (hs : sgn = 1 ∨ sgn = -1)
    (hs' : sgn' = 1 ∨ sgn' = -1) (hB : npNorm (Spec.totalMomentum c.sat st) ≤ B)
    (hst : lyap c.alpha sgn (errorQuat st.attrs.attitude qc 0) st.attrs.bodyAngVel ≤ V) (i) :
    |(c.sat.rw.distribution *ᵥ lawAt c qc sgn' st) i| ≤ T := by
  have hue : IsUnit4 (errorQuat st.attrs.attitude qc) := errorQuat_unit ((isUnit4_iff _).2 hu) ((isUnit4_iff _).2 hqc)
  have hv := vecPart_unit hue
  rw [dot_self3] at hv
  set x := errorQuat st.attrs.attitude qc 0 with hx
  have hx1 : x ^ 2 ≤ 1 := by nlinarith [sq_nonneg (npNorm (vecPart (errorQuat st.attrs.attitude qc)))]
  have hx2 := abs_le.1 (abs_le_one_iff_mul_self_le_one.2 (by linarith [sq x] : x * x ≤ 1))
  have hx3 : 1 - x ^ 2 ≤ 2 * (1 - sgn * x) ∧ 0 ≤ 1 - sgn * x := by
    rcases hs with h | h <;> rw [h] <;> constructor <;> nlinarith
  unfold lyap at hst
  rw [dot_self3] at hst
  have hw1 : npNorm st.attrs.bodyAngVel ≤ √(2 * V) := by
    refine Real.le_sqrt_of_sq_le ?_
    have := mul_nonneg ha.le hx3.2
    linarith
  have he1 : npNorm (vecPart (errorQuat st.attrs.attitude qc)) ≤ √(V / c.alpha) := by
    refine Real.le_sqrt_of_sq_le ?_
    rw [le_div_iff₀ ha, hv]
    have := mul_le_mul_of_nonneg_right hx3.1 ha.le
    have := sq_nonneg (npNorm st.attrs.bodyAngVel)
    linarith
  have he2 : c.alpha * √(V / c.alpha) = √(c.alpha * V) := by
    have : c.alpha * V = c.alpha ^ 2 * (V / c.alpha) := by field_simp
    rw [this, Real.sqrt_mul (sq_nonneg _), Real.sqrt_sq ha.le]
  have hl := lawAt_le (qc := qc) ha hg hj hjb hs' st hw1 he1 hB
  rw [he2] at hl
  exact ((hks _ i).trans (mul_le_mul_of_nonneg_left hl hks0)).trans hV

theorem stays_below {f : ℝ → ℝ} {D V : ℝ} (hD : 0 ≤ D) (hcont : ContinuousOn f (Icc 0 D))
    (hdiff : ∀ τ ∈ Ico 0 D, DifferentiableAt ℝ f τ) (hf0 : f 0 < V) (h : ∀ x ∈ Ico 0 D, f x ≤ V → deriv f x ≤ 0) :
    ∀ τ ∈ Icc 0 D, f τ ≤ V := by
  have hD1 : 0 < 1 + D := by linarith
  set ε := (V - f 0) / (1 + D) with hε
  have hε0 : 0 < ε := div_pos (by linarith) hD1
  have hε1 : ε * (1 + D) = V - f 0 := div_mul_cancel₀ _ hD1.ne'
  have hle : ∀ x ≤ D, f 0 + ε * x ≤ V := fun x hx => by
    have := mul_le_mul_of_nonneg_left hx hε0.le
    linarith
  intro τ hτ
  have := image_le_of_deriv_right_lt_deriv_boundary (f := f) (f' := fun x => deriv f x) (a := 0) (b := D) hcont
    (fun x hx => (hdiff x hx).hasDerivAt.hasDerivWithinAt) (B := fun x => f 0 + ε * x) (B' := fun _ => ε)
    (by simp) (fun x => by simpa using ((hasDerivAt_id x).const_mul ε).const_add (f 0))
    (fun x hx he => (h x hx (he.le.trans (hle x hx.2.le))).trans_lt hε0) hτ
  exact this.trans (hle τ hτ.2)

theorem free_falls {c : RwController} (hg : 0 < c.gamma) (hb : Built c.sat mass dims ab cd) (hm : mass ≠ 0)
    (hw : UnlimitedWheels c.sat) {tr : Trigger} {st : ℝ → SatState c.sat.rw.n} {x : ℝ} {d : Raw c.sat.rw.n}
    (hi : Spec.Instant c qc 0 tr tr (st x) d)
    (d1 : HasDerivAt (fun τ => (st τ).attrs.attitude) d.att x) (d2 : HasDerivAt (fun τ => (st τ).attrs.bodyAngVel) d.rate x) :
    deriv (fun τ => lyap c.alpha tr.memory (errorQuat (st τ).attrs.attitude qc 0) (st τ).attrs.bodyAngVel) x ≤ 0 := by
  obtain ⟨-, hatt, y, hy, hr⟩ := instant_eq hb hm hw hi
  have hy0 : y = 0 := by
    by_contra hne
    exact absurd hy (not_le.2 (npNorm_pos hne))
  rw [hatt] at d1
  rw [hr, hy0, add_zero] at d2
  have key := lyap_deriv (q := fun τ => (st τ).attrs.attitude) (w := fun τ => (st τ).attrs.bodyAngVel) (t := x) (qc := qc)
    (alpha := c.alpha) (gamma := c.gamma) (sgn := tr.memory) d1 d2
  have h0 : 0 ≤ (st x).attrs.bodyAngVel ⬝ᵥ (st x).attrs.bodyAngVel := by rw [dot_self3]; exact sq_nonneg _
  rw [key.deriv]
  exact (neg_mul c.gamma _).le.trans (neg_nonpos.2 (mul_nonneg hg.le h0))

theorem twin_falls (hg : 0 < c.gamma) (hb : Built c.sat mass dims ab cd) (hm : mass ≠ 0) (hw : LimitedWheels c.sat T)
    {tr : Trigger} {st : ℝ → SatState c.sat.rw.n} {x : ℝ} {d : Raw c.sat.rw.n}
    (hi : Spec.Instant (unlimitedTwin c) qc 0 tr tr (st x) d)
    (d1 : HasDerivAt (fun τ => (st τ).attrs.attitude) d.att x) (d2 : HasDerivAt (fun τ => (st τ).attrs.bodyAngVel) d.rate x) :
    deriv (fun τ => lyap c.alpha tr.memory (errorQuat (st τ).attrs.attitude qc 0) (st τ).attrs.bodyAngVel) x ≤ 0 :=
  free_falls (c := unlimitedTwin c) hg (twin_built hb) hm (twin_wheels hw) hi d1 d2

theorem lyap_state_continuousOn {st : ℝ → SatState c.sat.rw.n} {S : Set ℝ} {sgn : ℝ}
    (c1 : ContinuousOn (fun τ => (st τ).attrs.attitude) S) (c2 : ContinuousOn (fun τ => (st τ).attrs.bodyAngVel) S) :
    ContinuousOn (fun τ => lyap c.alpha sgn (errorQuat (st τ).attrs.attitude qc 0) (st τ).attrs.bodyAngVel) S := by
  have k1 := continuousOn_pi.1 c1
  have k2 := continuousOn_pi.1 c2
  have a0 := k1 0; have a1 := k1 1; have a2 := k1 2; have a3 := k1 3
  have b0 := k2 0; have b1 := k2 1; have b2 := k2 2
  simp only [lyap, Matrix.vec3_dotProduct, errorQuat, product_0, conjugate_0, conjugate_1, conjugate_2, conjugate_3]
  fun_prop

theorem lyap_differentiable {st : ℝ → SatState c.sat.rw.n} {x : ℝ} {sgn : ℝ} {q' : V4} {w' : V3}
    (d1 : HasDerivAt (fun τ => (st τ).attrs.attitude) q' x) (d2 : HasDerivAt (fun τ => (st τ).attrs.bodyAngVel) w' x) :
    DifferentiableAt ℝ (fun τ => lyap c.alpha sgn (errorQuat (st τ).attrs.attitude qc 0) (st τ).attrs.bodyAngVel) x := by
  have k1 := hasDerivAt_pi.1 d1
  have k2 := hasDerivAt_pi.1 d2
  have a0 := (k1 0).differentiableAt; have a1 := (k1 1).differentiableAt; have a2 := (k1 2).differentiableAt
  have a3 := (k1 3).differentiableAt
  have b0 := (k2 0).differentiableAt; have b1 := (k2 1).differentiableAt; have b2 := (k2 2).differentiableAt
  simp only [lyap, Matrix.vec3_dotProduct, errorQuat, product_0, conjugate_0, conjugate_1, conjugate_2, conjugate_3]
  fun_prop

/-- A run that begins within the region where the limit does not bind is a run of the controller with unlimited wheels. -/
theorem small_run (ha : 0 < c.alpha) (hg : 0 < c.gamma) (hb : Built c.sat mass dims ab cd) (hm : mass ≠ 0) (hT : 0 ≤ T)
    (hw : LimitedWheels c.sat T) {j : ℝ} (hj : 0 ≤ j)
    (hjb : ∀ x, npNorm (c.sat.totalMoment *ᵥ x) ≤ j * npNorm x) {ks : ℝ} (hks0 : 0 ≤ ks)
    (hks : ∀ (x : V3) i, |(c.sat.rw.distribution *ᵥ x) i| ≤ ks * npNorm x) {B V : ℝ}
    (hV : ks * (√(2 * V) * B + j * (√(c.alpha * V) + c.gamma * √(2 * V))) ≤ T) (hqc : npNorm qc = 1)
    {tr0 tr : Trigger} {st0 st : SatState c.sat.rw.n} {t : ℝ} {n : ℕ} (hh : 0 < tr0.halfWidth)
    (hm0 : tr0.memory = 1 ∨ tr0.memory = -1) (hu : npNorm st0.attrs.attitude = 1)
    (hB : npNorm (Spec.totalMomentum c.sat st0) ≤ B)
    (h0 : lyap c.alpha tr0.memory (errorQuat st0.attrs.attitude qc 0) st0.attrs.bodyAngVel < V)
    (hrun : Spec.WheelRun c qc tr0 st0 t tr st n) : Spec.LoopRun (unlimitedTwin c) qc 0 tr0 st0 t tr st n := by
  have hkeep := fun {t tr st n} (h : Spec.WheelRun c qc tr0 st0 t tr st n) => run_keeps hb hm hT hw hh hm0 hu h
  have hlow := fun {t tr} {st : SatState c.sat.rw.n} {n} (h : Spec.LoopRun (unlimitedTwin c) qc 0 tr0 st0 t tr st n) =>
    C69_run hg.le ha hqc hm0 hu (LoopRun.hybrid (twin_built hb) hm (twin_wheels hw) hh hm0 h).2.2
  have hlow' : ∀ {t tr} {st : SatState c.sat.rw.n} {n}, Spec.LoopRun (unlimitedTwin c) qc 0 tr0 st0 t tr st n →
      lyap c.alpha tr.memory (errorQuat st.attrs.attitude qc 0) st.attrs.bodyAngVel < V := by
    intro t tr st n h
    have h1 := (hlow h).2.2.1
    have h2 : 0 ≤ 4 * c.alpha * tr0.halfWidth * n := by positivity
    refine lt_of_le_of_lt ?_ h0
    refine le_trans ?_ h1
    exact le_add_of_nonneg_right h2
  induction hrun with
  | start => exact Spec.LoopRun.start (c := unlimitedTwin c)
  | @flow t tr n st D hD hprev c1 c2 c3 h ih =>
    have hpieces : ∀ τ ∈ Icc 0 D, (∀ σ ∈ Ico 0 τ, ∃ d, Spec.Instant c qc 0 tr tr (st σ) d ∧
        HasDerivAt (fun τ => (st τ).attrs.attitude) d.att σ ∧ HasDerivAt (fun τ => (st τ).attrs.bodyAngVel) d.rate σ ∧
        HasDerivAt (fun τ => (st τ).attrs.wheelVel) d.whl σ) := fun τ hτ σ hσ => h σ ⟨hσ.1, hσ.2.trans_le hτ.2⟩
    have hk : ∀ τ ∈ Icc 0 D, Spec.WheelRun c qc tr0 st0 (t + τ) tr (st τ) n := fun τ hτ =>
      .flow st τ hτ.1 hprev (c1.mono (Icc_subset_Icc_right hτ.2)) (c2.mono (Icc_subset_Icc_right hτ.2))
        (c3.mono (Icc_subset_Icc_right hτ.2)) (hpieces τ hτ)
    set f := fun τ => lyap c.alpha tr.memory (errorQuat (st τ).attrs.attitude qc 0) (st τ).attrs.bodyAngVel with hf
    have hf0 : f 0 < V := hlow' ih
    have hsg := (hkeep hprev).2.1
    -- at the instants within the region
    have hin : ∀ τ ∈ Ico 0 D, f τ ≤ V → ∃ d, Spec.Instant (unlimitedTwin c) qc 0 tr tr (st τ) d ∧
        HasDerivAt (fun τ => (st τ).attrs.attitude) d.att τ ∧ HasDerivAt (fun τ => (st τ).attrs.bodyAngVel) d.rate τ := by
      intro τ hτ hfv
      obtain ⟨d, hi, d1, d2, -⟩ := h τ hτ
      obtain ⟨-, g1, -, g3, g4⟩ := hkeep (hk τ ⟨hτ.1, hτ.2.le⟩)
      exact ⟨d, twin_instant hb hm hT hw hi
        (within ha hg hj hjb hks0 hks hV hqc g3 hsg hsg (g4.le.trans hB) hfv), d1, d2⟩
    have hcont : ContinuousOn f (Icc 0 D) := lyap_state_continuousOn c1 c2
    have hdiff : ∀ τ ∈ Ico 0 D, DifferentiableAt ℝ f τ := by
      intro τ hτ
      obtain ⟨d, -, d1, d2, -⟩ := h τ hτ
      exact lyap_differentiable d1 d2
    have hbar : ∀ τ ∈ Icc 0 D, f τ ≤ V := stays_below hD hcont hdiff hf0 fun x hx hfv => by
      obtain ⟨d, hi, d1, d2⟩ := hin x hx hfv
      exact twin_falls hg hb hm hw hi d1 d2
    exact Spec.LoopRun.flow (c := unlimitedTwin c) st D hD ih c1 c2 fun τ hτ => hin τ hτ (hbar τ ⟨hτ.1, hτ.2.le⟩)
  | @switch t tr tr' n st d hprev hi hne ih =>
    obtain ⟨-, g1, g2, g3, g4⟩ := hkeep hprev
    have g1' := (hkeep (.switch hprev hi hne)).2.1
    exact Spec.LoopRun.switch (c := unlimitedTwin c) ih (twin_instant hb hm hT hw hi
      (within ha hg hj hjb hks0 hks hV hqc g3 g1 g1' (g4.le.trans hB) (hlow' ih).le)) hne

end

/-- Near the command the limit does not matter. Let `ks` bound the torque of each wheel per torque of the body, `j` bound
the inertia and `B` the angular momentum of body and wheels. Where the tracking error is below a `V` for which
`ks (√(2V) B + j (√(alpha V) + gamma √(2V)))` is within the limit `T`, it falls exponentially, as with unlimited wheels,
at a rate that depends on the gains alone; and the sign switches a bounded number of times. -/
theorem C205_near {alpha gamma hw : ℝ} (ha : 0 < alpha) (hg : 0 < gamma) (hhw : hw < 1) (hh : 0 < hw) :
    ∃ k : ℝ, 0 < k ∧ ∀ (c : RwController), c.alpha = alpha → c.gamma = gamma →
      ∀ (mass : ℝ) (dims : V3) (ab cd : ℝ), Built c.sat mass dims ab cd → mass ≠ 0 → ∀ T : ℝ, 0 ≤ T →
      LimitedWheels c.sat T → ∀ j ks B V : ℝ, 0 ≤ j → 0 ≤ ks →
      (∀ x, npNorm (c.sat.totalMoment *ᵥ x) ≤ j * npNorm x) →
      (∀ (x : V3) i, |(c.sat.rw.distribution *ᵥ x) i| ≤ ks * npNorm x) →
      ks * (√(2 * V) * B + j * (√(alpha * V) + gamma * √(2 * V))) ≤ T →
      ∀ (qc : V4), npNorm qc = 1 → ∀ (tr0 tr : Trigger) (st0 st : SatState c.sat.rw.n) (t : ℝ) (n : ℕ),
      tr0.halfWidth = hw → (tr0.memory = 1 ∨ tr0.memory = -1) → npNorm st0.attrs.attitude = 1 →
      npNorm (Spec.totalMomentum c.sat st0) ≤ B → Spec.trackError alpha tr0.memory qc st0 < V →
      Spec.WheelRun c qc tr0 st0 t tr st n →
      (tr.memory = 1 ∨ tr.memory = -1) ∧
      Spec.trackError alpha tr.memory qc st ≤
        3 ^ (n + 1) * (Real.exp (-k * t) * Spec.trackError alpha tr0.memory qc st0) ∧
      4 * alpha * hw * n ≤ Spec.trackError alpha tr0.memory qc st0 := by
  obtain ⟨k, C, hk, -, hall⟩ := C140_converges ha hg hhw hh
  refine ⟨k, hk, ?_⟩
  rintro c rfl rfl mass dims ab cd hb hm T hT hw' j ks B V hj hks0 hjb hks hV qc hqc tr0 tr st0 st t n rfl hm0 hu hB h0 hrun
  have hloop := small_run ha hg hb hm hT hw' hj hjb hks0 hks hV hqc hh hm0 hu hB
    (by rw [← trackError_eq hm0 hqc hu]; exact h0) hrun
  obtain ⟨h1, h2⟩ := hall (unlimitedTwin c) rfl rfl mass dims ab cd (twin_built hb) hm (twin_wheels hw') qc hqc 0 tr0 tr st0
    st t n rfl hm0 hu hloop
  refine ⟨h1, ?_, ?_⟩
  · refine h2.trans (le_of_eq ?_)
    rw [Spec.trackError]
    ring
  · exact C140_switches (unlimitedTwin c) ha hg.le (twin_built hb) hm (twin_wheels hw') qc hqc tr0 tr st0 st t n hh hm0 hu
      hloop

/-- Such a region exists for every limit that is not zero and every bound of the angular momentum. -/
theorem C205_region (c : RwController) {T : ℝ} (hT : 0 < T) (B : ℝ) :
    ∃ j ks V : ℝ, 0 ≤ j ∧ 0 ≤ ks ∧ 0 < V ∧ (∀ x, npNorm (c.sat.totalMoment *ᵥ x) ≤ j * npNorm x) ∧
      (∀ (x : V3) i, |(c.sat.rw.distribution *ᵥ x) i| ≤ ks * npNorm x) ∧
      ks * (√(2 * V) * B + j * (√(c.alpha * V) + c.gamma * √(2 * V))) ≤ T := by
  obtain ⟨j, hj0, hj⟩ := mulVec_euclid c.sat.totalMoment
  obtain ⟨ks, hks0, hks⟩ := shares_bound c.sat.rw.distribution
  have hcont : Continuous fun V : ℝ => ks * (√(2 * V) * B + j * (√(c.alpha * V) + c.gamma * √(2 * V))) := by fun_prop
  have h0 : ks * (√(2 * 0) * B + j * (√(c.alpha * 0) + c.gamma * √(2 * 0))) < T := by simpa using hT
  have hev := (hcont.tendsto 0).eventually_lt_const h0
  obtain ⟨e, he, hball⟩ := Metric.eventually_nhds_iff.1 hev
  refine ⟨j, ks, e / 2, hj0, hks0, by linarith, hj, hks, (hball ?_).le⟩
  rw [Real.dist_eq, sub_zero, abs_of_pos (by linarith)]
  linarith

end Adcs
