import Verif.Proofs.Flow
import Verif.Props.Period
import Verif.Props.Accuracy
import Verif.Props.Unload
import Verif.Props.Spin
import Verif.Proofs.FilterCycle

set_option autoImplicit false

/-! # C192: the motions that simulations approximate exist and are the only ones

The equations of motion under gravity and its gradient torque, with wheels accelerating at constant rates. -/

namespace Adcs

open Env Dyn JDay Sens Vec Quat
open scoped Matrix Topology
open Set

/-- C192: the state at one time determines the motion. -/
theorem C192_unique {hiFi : Bool} {sat : Str.Satellite} {accl : Fin sat.rw.n → ℝ} {y z : ℝ → Raw sat.rw.n} {lo hi t0 : ℝ}
    (hy : Spec.Motion (Spec.gravityField hiFi sat accl) y lo hi)
    (hz : Spec.Motion (Spec.gravityField hiFi sat accl) z lo hi) (h0 : t0 ∈ Ioo lo hi) (h : y t0 = z t0) :
    ∀ t ∈ Ioo lo hi, y t = z t := by
  obtain ⟨g, hg, hga, -⟩ := gravityField_analytic hiFi sat accl
  have key := flow_unique (F := fun p : Cont sat.rw.n => toCont (g (ofCont p))) (y := fun t => toCont (y t))
    (z := fun t => toCont (z t))
    (fun t ht => (show AnalyticAt ℝ _ _ from hga (y t) (gravityField_pos hy ht)).contDiffAt)
    (fun t ht => motion_deriv hg hy ht) (fun t ht => motion_deriv hg hz ht) h0 (by rw [h])
  intro t ht
  have := congrArg ofCont (key t ht)
  simpa using this

/-- A quantity whose rate of change is at most `M` times itself plus one grows at most exponentially. -/
theorem grow_le {u u' : ℝ → ℝ} {a b M : ℝ} (ha : a < 0) (hb : 0 < b) (hu : ∀ t ∈ Ioo a b, 0 ≤ u t)
    (hd : ∀ t ∈ Ioo a b, HasDerivAt u (u' t) t ∧ |u' t| ≤ M * (u t + 1)) {t : ℝ} (ht : t ∈ Ioo a b) :
    u t + 1 ≤ (u 0 + 1) * Real.exp (M * |t|) := by
  have h0 : (0 : ℝ) ∈ Ioo a b := ⟨ha, hb⟩
  have pos : ∀ t ∈ Ioo a b, 0 < u t + 1 := fun t ht => by linarith [hu t ht]
  have := (convex_Ioo a b).norm_image_sub_le_of_norm_hasDerivWithin_le (f := fun t => Real.log (u t + 1))
    (f' := fun t => u' t / (u t + 1)) (C := M)
    (fun t ht => (((hd t ht).1.add_const 1).log (pos t ht).ne').hasDerivWithinAt)
    (fun t ht => by
      rw [Real.norm_eq_abs, abs_div, abs_of_pos (pos t ht), div_le_iff₀ (pos t ht)]
      exact (hd t ht).2) h0 ht
  rw [Real.norm_eq_abs, Real.norm_eq_abs, sub_zero] at this
  have l := (abs_le.1 this).2
  rw [← Real.exp_log (pos t ht), ← Real.exp_log (pos 0 h0), ← Real.exp_add]
  exact Real.exp_le_exp.2 (by linarith)

/-- The gradient torque of satellites at a distance is bounded. -/
theorem gradientTorque_bound (sat : Str.Satellite) : ∃ M, 0 ≤ M ∧ ∀ a : Raw sat.rw.n, 6.3e6 ≤ npNorm a.pos →
    npNorm a.att = 1 → npNorm (gradientTorque sat a) ≤ M := by
  have hc : Continuous fun N : V3 => npNorm (npCross N (sat.totalMoment *ᵥ N)) := by
    unfold npNorm npCross
    fun_prop
  obtain ⟨B, hB⟩ := (isCompact_closedBall (0 : V3) 1).exists_bound_of_continuousOn hc.continuousOn
  have hB0 : 0 ≤ B := (norm_nonneg _).trans (hB 0 (Metric.mem_closedBall_self zero_le_one))
  have hmu : (0 : ℝ) < Orb.MU := by rw [show Orb.MU = Spec.mu from rfl]; unfold Spec.mu; norm_num
  refine ⟨3 * Orb.MU / 6.3e6 ^ 3 * B, by positivity, fun a hr hq => ?_⟩
  have hr0 : 0 < npNorm a.pos := lt_of_lt_of_le (by norm_num) hr
  have hN : npNorm (nadirBody a) = 1 := by
    unfold nadirBody
    rw [(C06_sandwich_preserves a.att hq _ 0).2.1]
    rw [show (fun i => -a.pos i / npNorm a.pos) = (-(npNorm a.pos)⁻¹) • a.pos by
      funext i; simp only [Pi.smul_apply, smul_eq_mul]; ring, npNorm_smul, abs_neg, abs_of_pos (inv_pos.2 hr0),
      inv_mul_cancel₀ hr0.ne']
  have hin : nadirBody a ∈ Metric.closedBall (0 : V3) 1 := by
    rw [mem_closedBall_zero_iff, pi_norm_le_iff_of_nonneg zero_le_one]
    intro i
    have h1 := npNorm3_sq (nadirBody a)
    rw [hN] at h1
    rw [Real.norm_eq_abs, abs_le_one_iff_mul_self_le_one]
    fin_cases i <;> simp only [Fin.zero_eta, Fin.mk_one, Fin.reduceFinMk] <;>
      nlinarith [sq_nonneg (nadirBody a 0), sq_nonneg (nadirBody a 1), sq_nonneg (nadirBody a 2)]
  have h2 := hB _ hin
  rw [Real.norm_eq_abs, abs_of_nonneg (npNorm_nonneg _)] at h2
  unfold gradientTorque
  rw [npNorm_smul, abs_of_nonneg (by positivity)]
  have := npNorm_nonneg (npCross (nadirBody a) (sat.totalMoment *ᵥ nadirBody a))
  gcongr

/-- What `Along` is for the field under gravity. -/
theorem along_motion {hiFi : Bool} {sat : Str.Satellite} {accl : Fin sat.rw.n → ℝ} (hm : sat.mass ≠ 0)
    {g : Raw sat.rw.n → Raw sat.rw.n}
    (hgd : ∀ s, Consistent s → s.arr.pos ≠ 0 → sat.mass ≠ 0 → Spec.gravityField hiFi sat accl s = .ok (g s.arr))
    {Y : ℝ → Cont sat.rw.n} {a b : ℝ}
    (hY : ∀ t ∈ Ioo a b, HasDerivAt Y (toCont (g (ofCont (Y t)))) t ∧ 6.3e6 ≤ npNorm (Y t).1) :
    Spec.Motion (Spec.gravityField hiFi sat accl) (fun t => ofCont (Y t)) a b := by
  intro t ht
  obtain ⟨hd, hx⟩ := hY t ht
  obtain ⟨s, hs, -⟩ := C127_new (ofCont (Y t)) exClock hx
  obtain ⟨hc, hsa, -⟩ := C80_new hs
  have hne : (Y t).1 ≠ 0 := by
    intro h0
    rw [h0, npNorm_eq_zero.2 rfl] at hx
    norm_num at hx
  have e := hgd s hc (by rw [hsa]; exact hne) hm
  rw [hsa] at e
  exact ⟨exClock, s, _, hs, e, hd.fst, hd.snd.fst, hd.snd.snd.fst, hd.snd.snd.snd.fst, hd.snd.snd.snd.snd⟩

/-- The angular momentum of body and wheels, in body coordinates, is bounded over bounded times. -/
theorem momentum_grows {sat : Str.Satellite} {mass : ℝ} {dims : V3} {ab cd : ℝ} (hb : Built sat mass dims ab cd)
    {accl : Fin sat.rw.n → ℝ} {y : ℝ → Raw sat.rw.n} {a b M : ℝ} (ha : a < 0) (hb0 : 0 < b)
    (hrate : ∀ t ∈ Ioo a b, HasDerivAt (fun t => (y t).rate) (sat.invTotMoment *ᵥ (gradientTorque sat (y t) -
      sat.rw.torque accl - npCross (y t).rate (sat.rw.momentum (y t).whl + sat.totalMoment *ᵥ (y t).rate))) t)
    (hwhl : ∀ t ∈ Ioo a b, HasDerivAt (fun t => (y t).whl) accl t)
    (hM : ∀ t ∈ Ioo a b, npNorm (gradientTorque sat (y t)) ≤ M) {t : ℝ} (ht : t ∈ Ioo a b) :
    let L := fun t => sat.totalMoment *ᵥ (y t).rate + sat.rw.momentum (y t).whl
    npNorm (L t) ^ 2 + 1 ≤ (npNorm (L 0) ^ 2 + 1) * Real.exp (M * |t|) := by
  intro L
  have hL : ∀ t ∈ Ioo a b, HasDerivAt L (gradientTorque sat (y t) - (y t).rate ⨯₃ L t) t := by
    intro t ht
    refine ((hasDerivAt_mulVec3 (J := sat.totalMoment) (hrate t ht)).add
      (hasDerivAt_momentum sat (hwhl t ht))).congr_deriv ?_
    rw [Matrix.mulVec_mulVec, hb.inverse, Matrix.one_mulVec, npCross_eq_crossProduct, add_comm (sat.rw.momentum _)]
    abel
  have hsq : ∀ t, npNorm (L t) ^ 2 = L t ⬝ᵥ L t := fun t => by rw [npNorm_sq_dot, npDot_eq_dotProduct]
  refine grow_le (u := fun t => npNorm (L t) ^ 2) (u' := fun t => 2 * (L t ⬝ᵥ gradientTorque sat (y t))) ha hb0
    (fun t _ => sq_nonneg _) (fun t ht => ⟨?_, ?_⟩) ht
  · rw [funext hsq]
    refine (hasDerivAt_dot3 (hL t ht) (hL t ht)).congr_deriv ?_
    rw [dotProduct_comm (gradientTorque sat (y t) - (y t).rate ⨯₃ L t), dotProduct_sub, dot_cross_self]
    ring
  · have h1 := dot_bound (L t) (gradientTorque sat (y t))
    have h2 := hM t ht
    have h3 := npNorm_nonneg (L t)
    have h4 := npNorm_nonneg (gradientTorque sat (y t))
    rw [abs_mul, abs_two]
    have h5 : npNorm (L t) * npNorm (gradientTorque sat (y t)) ≤ npNorm (L t) * M := by gcongr
    nlinarith [sq_nonneg (npNorm (L t) - 1)]

/-- Over a window of time the motion exists. -/
theorem window {hiFi : Bool} {sat : Str.Satellite} {mass : ℝ} {dims : V3} {ab cd : ℝ} (hb : Built sat mass dims ab cd)
    (hm : sat.mass ≠ 0) {accl : Fin sat.rw.n → ℝ} {g : Raw sat.rw.n → Raw sat.rw.n}
    (hg : Spec.Autonomous (Spec.gravityField hiFi sat accl) g)
    (hga : ∀ a : Raw sat.rw.n, a.pos ≠ 0 → Spec.Analytic g a)
    (hgf : ∀ a : Raw sat.rw.n, (g a).pos = a.vel ∧
        (a.pos ≠ 0 → Env.Plain.gravityAccel hiFi a.pos (npNorm a.pos) = .ok (g a).vel) ∧
        (g a).att = (0.5 : ℝ) • Quat.product a.att ![0, a.rate 0, a.rate 1, a.rate 2] ∧
        (g a).rate = sat.invTotMoment *ᵥ (gradientTorque sat a - sat.rw.torque accl -
          npCross a.rate (sat.rw.momentum a.whl + sat.totalMoment *ᵥ a.rate)) ∧ (g a).whl = accl)
    (hgd : ∀ s, Consistent s → s.arr.pos ≠ 0 → sat.mass ≠ 0 → Spec.gravityField hiFi sat accl s = .ok (g s.arr))
    {x v : ℝ → V3} {lo hi a b : ℝ} (hO : Spec.Orbit hiFi x v lo hi) (hr : ∀ t ∈ Ioo lo hi, 6.3e6 ≤ npNorm (x t))
    (hla : lo < a) (ha : a < 0) (hb0 : 0 < b) (hbh : b < hi) (a0 : Raw sat.rw.n) (hp : a0.pos = x 0) (hv : a0.vel = v 0)
    (hq : npNorm a0.att = 1) : ∃ Y : ℝ → Cont sat.rw.n, Y 0 = toCont a0 ∧
      Along (fun p : Cont sat.rw.n => toCont (g (ofCont p))) {p | p.1 ≠ 0} Y a b ∧
      ∀ t ∈ Ioo a b, (Y t).1 = x t ∧ (Y t).2.1 = v t := by
  have hsub : ∀ t ∈ Icc a b, t ∈ Ioo lo hi := fun t ht => ⟨hla.trans_le ht.1, ht.2.trans_lt hbh⟩
  have hF : ∀ p ∈ {p : Cont sat.rw.n | p.1 ≠ 0}, ContDiffAt ℝ 1 (fun p : Cont sat.rw.n => toCont (g (ofCont p))) p :=
    fun p hp => (show AnalyticAt ℝ _ _ from hga (ofCont p) hp).contDiffAt
  have hU : IsOpen {p : Cont sat.rw.n | p.1 ≠ 0} := isOpen_ne.preimage continuous_fst
  obtain ⟨M, hM0, hM⟩ := gradientTorque_bound sat
  -- what holds on the way
  have facts : ∀ a' b' (y : ℝ → Cont sat.rw.n), a ≤ a' → a' < 0 → 0 < b' → b' ≤ b → y 0 = toCont a0 →
      Along (fun p : Cont sat.rw.n => toCont (g (ofCont p))) {p | p.1 ≠ 0} y a' b' →
      (∀ t ∈ Ioo a' b', (y t).1 = x t ∧ (y t).2.1 = v t) := by
    intro a' b' y h1 h2 h3 h4 h5 hy
    refine C189_unique (hiFi := hiFi) (t0 := 0) (fun t ht => ?_) (fun t ht => hO t (hsub t ⟨h1.trans ht.1.le, ht.2.le.trans h4⟩))
      ⟨h2, h3⟩ (by rw [h5]; exact hp) (by rw [h5]; exact hv)
    obtain ⟨hd, hne⟩ := hy t ht
    have e1 : HasDerivAt (fun t => (y t).1) (g (ofCont (y t))).pos t := hd.fst
    have e2 : HasDerivAt (fun t => (y t).2.1) (g (ofCont (y t))).vel t := hd.snd.fst
    have f := hgf (ofCont (y t))
    exact ⟨e1.congr_deriv f.1, _, f.2.1 hne, e2⟩
  set R := (npNorm (sat.totalMoment *ᵥ a0.rate + sat.rw.momentum a0.whl) ^ 2 + 1) * Real.exp (M * max (-a) b) with hR
  set O : Set (Fin sat.rw.n → ℝ) := (fun t : ℝ => a0.whl + t • accl) '' Icc a b with hOd
  set Kw : Set V3 := (fun p : V3 × (Fin sat.rw.n → ℝ) => sat.invTotMoment *ᵥ (p.1 - sat.rw.momentum p.2)) ''
    (Metric.closedBall 0 R ×ˢ O) with hKw
  set K : Set (Cont sat.rw.n) := (x '' Icc a b) ×ˢ (v '' Icc a b) ×ˢ (Metric.closedBall 0 1) ×ˢ Kw ×ˢ O with hK
  have cO : IsCompact O := isCompact_Icc.image (by fun_prop)
  have cK : IsCompact K := by
    refine (isCompact_Icc.image_of_continuousOn fun t ht => (hO t (hsub t ht)).1.continuousAt.continuousWithinAt).prod
      ((isCompact_Icc.image_of_continuousOn fun t ht => ?_).prod ((isCompact_closedBall _ _).prod
        ((((isCompact_closedBall _ _).prod cO).image ?_).prod cO)))
    · obtain ⟨-, _, -, h⟩ := hO t (hsub t ht)
      exact h.continuousAt.continuousWithinAt
    · refine (Continuous.matrix_mulVec continuous_const (continuous_fst.sub ?_))
      unfold Str.RWSystem.momentum Str.Wheel.momentum
      fun_prop
  have hKU : K ⊆ {p : Cont sat.rw.n | p.1 ≠ 0} := by
    rintro p ⟨⟨t, ht, e⟩, -⟩ h0
    have := hr t (hsub t ht)
    rw [e, h0, npNorm_eq_zero.2 rfl] at this
    norm_num at this
  have stay : ∀ a' b' (y : ℝ → Cont sat.rw.n), a ≤ a' → a' < 0 → 0 < b' → b' ≤ b → y 0 = toCont a0 →
      Along (fun p : Cont sat.rw.n => toCont (g (ofCont p))) {p | p.1 ≠ 0} y a' b' → ∀ t ∈ Ioo a' b', y t ∈ K := by
    intro a' b' y h1 h2 h3 h4 h5 hy t ht
    have hpv := facts a' b' y h1 h2 h3 h4 h5 hy
    have hin : ∀ t ∈ Ioo a' b', t ∈ Icc a b := fun t ht => ⟨h1.trans ht.1.le, ht.2.le.trans h4⟩
    have hr' : ∀ t ∈ Ioo a' b', 6.3e6 ≤ npNorm (y t).1 := fun t ht => by
      rw [(hpv t ht).1]; exact hr t (hsub t (hin t ht))
    have mo := along_motion hm hgd (fun t ht => ⟨(hy t ht).1, hr' t ht⟩)
    have unit : ∀ t ∈ Ioo a' b', npNorm (y t).2.2.1 = 1 := fun t ht => by
      refine (isUnit4_iff _).1 (motion_unit (fun s k hs hk => by rw [hg s k hs hk]; exact (hgf _).2.2.1) mo
        (s := 0) ⟨h2, h3⟩ ht ((isUnit4_iff _).2 ?_))
      rw [h5]; exact hq
    have dw : ∀ t ∈ Ioo a' b', HasDerivAt (fun t => (y t).2.2.2.2) accl t := fun t ht =>
      (show HasDerivAt (fun t => (y t).2.2.2.2) (g (ofCont (y t))).whl t from
        (hy t ht).1.snd.snd.snd.snd).congr_deriv (hgf _).2.2.2.2
    have dr : ∀ t ∈ Ioo a' b', HasDerivAt (fun t => (ofCont (y t)).rate) (sat.invTotMoment *ᵥ (gradientTorque sat (ofCont (y t)) -
        sat.rw.torque accl - npCross (ofCont (y t)).rate (sat.rw.momentum (ofCont (y t)).whl + sat.totalMoment *ᵥ (ofCont (y t)).rate))) t :=
      fun t ht => (show HasDerivAt (fun t => (ofCont (y t)).rate) (g (ofCont (y t))).rate t from
        (hy t ht).1.snd.snd.snd.fst).congr_deriv (hgf _).2.2.2.1
    have whl : ∀ t ∈ Ioo a' b', (y t).2.2.2.2 = a0.whl + t • accl := by
      intro t ht
      funext i
      have := const_Ioo (f := fun t => (y t).2.2.2.2 i - t * accl i) (fun t ht =>
        ((hasDerivAt_pi.1 (dw t ht) i).sub ((hasDerivAt_id t).mul_const (accl i))).congr_deriv (by simp)) ⟨h2, h3⟩ ht
      simp only [h5, zero_mul, sub_zero] at this
      simp only [Pi.add_apply, Pi.smul_apply, smul_eq_mul]
      have e : (toCont a0).2.2.2.2 i = a0.whl i := rfl
      linarith
    have hO' : (y t).2.2.2.2 ∈ O := ⟨t, hin t ht, (whl t ht).symm⟩
    refine ⟨⟨t, hin t ht, (hpv t ht).1.symm⟩, ⟨t, hin t ht, (hpv t ht).2.symm⟩, ?_, ?_, hO'⟩
    · rw [mem_closedBall_zero_iff, pi_norm_le_iff_of_nonneg zero_le_one]
      exact fun i => (abs_le_npNorm _ i).trans (unit t ht).le
    · refine ⟨(sat.totalMoment *ᵥ (y t).2.2.2.1 + sat.rw.momentum (y t).2.2.2.2, (y t).2.2.2.2), ⟨?_, hO'⟩, ?_⟩
      · have hgrow := momentum_grows hb (y := fun t => ofCont (y t)) (M := M) h2 h3 dr dw
          (fun t ht => hM _ (hr' t ht) (unit t ht)) ht
        have hle : (npNorm (sat.totalMoment *ᵥ a0.rate + sat.rw.momentum a0.whl) ^ 2 + 1) * Real.exp (M * |t|) ≤ R := by
          rw [hR]
          gcongr
          have := hin t ht
          exact abs_le.2 ⟨by linarith [le_max_left (-a) b, this.1], this.2.trans (le_max_right _ _)⟩
        dsimp only at hgrow
        rw [h5] at hgrow
        have h6 : npNorm (sat.totalMoment *ᵥ (y t).2.2.2.1 + sat.rw.momentum (y t).2.2.2.2) ^ 2 + 1 ≤ R := hgrow.trans hle
        have h7 := npNorm_nonneg (sat.totalMoment *ᵥ (y t).2.2.2.1 + sat.rw.momentum (y t).2.2.2.2)
        rw [mem_closedBall_zero_iff, pi_norm_le_iff_of_nonneg (by nlinarith)]
        intro i
        refine (abs_le_npNorm _ i).trans ?_
        nlinarith [sq_nonneg (npNorm (sat.totalMoment *ᵥ (y t).2.2.2.1 + sat.rw.momentum (y t).2.2.2.2) - 1)]
      · dsimp only
        rw [add_sub_cancel_right, hb.cancel]
  have start : toCont a0 ∈ K := by
    have h00 : (0 : ℝ) ∈ Icc a b := ⟨ha.le, hb0.le⟩
    have hO' : a0.whl ∈ O := ⟨0, h00, by simp⟩
    refine ⟨⟨0, h00, hp.symm⟩, ⟨0, h00, hv.symm⟩, ?_, ⟨(sat.totalMoment *ᵥ a0.rate + sat.rw.momentum a0.whl, a0.whl), ⟨?_, hO'⟩, ?_⟩, hO'⟩
    · rw [mem_closedBall_zero_iff, pi_norm_le_iff_of_nonneg zero_le_one]
      exact fun i => (abs_le_npNorm _ i).trans hq.le
    · have h7 := npNorm_nonneg (sat.totalMoment *ᵥ a0.rate + sat.rw.momentum a0.whl)
      have h8 : npNorm (sat.totalMoment *ᵥ a0.rate + sat.rw.momentum a0.whl) ^ 2 + 1 ≤ R := by
        rw [hR]
        refine le_mul_of_one_le_right (by positivity) (Real.one_le_exp (mul_nonneg hM0 ?_))
        exact hb0.le.trans (le_max_right _ _)
      rw [mem_closedBall_zero_iff, pi_norm_le_iff_of_nonneg (by nlinarith)]
      intro i
      refine (abs_le_npNorm _ i).trans ?_
      nlinarith [sq_nonneg (npNorm (sat.totalMoment *ᵥ a0.rate + sat.rw.momentum a0.whl) - 1)]
    · dsimp only
      rw [add_sub_cancel_right, hb.cancel]
      rfl
  obtain ⟨Y, h0, hY⟩ := along_extends hF hU cK hKU start ha hb0 stay
  exact ⟨Y, h0, hY, facts a b Y le_rfl ha hb0 le_rfl h0 hY⟩

/-- C192: along every orbit outside of the Earth the whole motion, with attitude, rate and wheels, exists as long as
the orbit does, from every attitude and every rate. -/
theorem C192_exists {hiFi : Bool} {sat : Str.Satellite} {mass : ℝ} {dims : V3} {ab cd : ℝ}
    (hb : Built sat mass dims ab cd) (hm : mass ≠ 0) (accl : Fin sat.rw.n → ℝ) {x v : ℝ → V3} {lo hi : ℝ}
    (hlo : lo < 0) (hhi : 0 < hi) (hO : Spec.Orbit hiFi x v lo hi) (hr : ∀ t ∈ Ioo lo hi, 6.3e6 ≤ npNorm (x t))
    (a : Raw sat.rw.n) (hp : a.pos = x 0) (hv : a.vel = v 0) (hq : npNorm a.att = 1) :
    ∃ y : ℝ → Raw sat.rw.n, y 0 = a ∧ Spec.Motion (Spec.gravityField hiFi sat accl) y lo hi ∧
      ∀ t ∈ Ioo lo hi, (y t).pos = x t ∧ (y t).vel = v t ∧ npNorm (y t).att = 1 := by
  have hm' : sat.mass ≠ 0 := by rw [hb.mass_eq.1]; exact hm
  obtain ⟨g, hg, hga, hgf, hgd⟩ := gravityField_form hiFi sat accl
  have hF : ∀ p ∈ {p : Cont sat.rw.n | p.1 ≠ 0}, ContDiffAt ℝ 1 (fun p : Cont sat.rw.n => toCont (g (ofCont p))) p :=
    fun p hp => (show AnalyticAt ℝ _ _ from hga (ofCont p) hp).contDiffAt
  have win : ∀ t ∈ Ioo lo hi, ∃ a' b' Y, a' < 0 ∧ 0 < b' ∧ t ∈ Ioo a' b' ∧ Y 0 = toCont a ∧
      Along (fun p : Cont sat.rw.n => toCont (g (ofCont p))) {p | p.1 ≠ 0} Y a' b' := by
    intro t ht
    have l1 : lo < min t 0 := lt_min ht.1 hlo
    have l2 : max t 0 < hi := max_lt ht.2 hhi
    have l3 := min_le_left t 0
    have l4 := min_le_right t 0
    have l5 := le_max_left t 0
    have l6 := le_max_right t 0
    obtain ⟨Y, h0, hY, -⟩ := window hb hm' hg hga hgf hgd hO hr (a := (lo + min t 0) / 2) (b := (hi + max t 0) / 2)
      (by linarith) (by linarith) (by linarith) (by linarith) a hp hv hq
    exact ⟨_, _, Y, by linarith, by linarith, ⟨by linarith, by linarith⟩, h0, hY⟩
  obtain ⟨Y, h0, hY⟩ := along_glue hF isOpen_Ioo ⟨hlo, hhi⟩ win
  have pv : ∀ t ∈ Ioo lo hi, (Y t).1 = x t ∧ (Y t).2.1 = v t := by
    refine C189_unique (hiFi := hiFi) (t0 := 0) (fun t ht => ?_) hO ⟨hlo, hhi⟩ (by rw [h0]; exact hp) (by rw [h0]; exact hv)
    obtain ⟨hd, hne⟩ := hY t ht
    have e1 : HasDerivAt (fun t => (Y t).1) (g (ofCont (Y t))).pos t := hd.fst
    have e2 : HasDerivAt (fun t => (Y t).2.1) (g (ofCont (Y t))).vel t := hd.snd.fst
    have f := hgf (ofCont (Y t))
    exact ⟨e1.congr_deriv f.1, _, f.2.1 hne, e2⟩
  have mo := along_motion hm' hgd (fun t ht => ⟨(hY t ht).1, by rw [(pv t ht).1]; exact hr t ht⟩)
  refine ⟨fun t => ofCont (Y t), by dsimp only; rw [h0]; rfl, mo, fun t ht => ⟨(pv t ht).1, (pv t ht).2, ?_⟩⟩
  refine (isUnit4_iff _).1 (motion_unit (fun s k hs hk => by rw [hg s k hs hk]; exact (hgf _).2.2.1) mo
    (s := 0) ⟨hlo, hhi⟩ ht ((isUnit4_iff _).2 ?_))
  rw [h0]; exact hq

/-- Motions over longer and longer times are one motion. -/
theorem forever {hiFi : Bool} {sat : Str.Satellite} {accl : Fin sat.rw.n → ℝ} {a : Raw sat.rw.n}
    (h : ∀ T : ℝ, 0 < T → ∃ y : ℝ → Raw sat.rw.n, y 0 = a ∧ Spec.Motion (Spec.gravityField hiFi sat accl) y (-T) T) :
    ∃ y : ℝ → Raw sat.rw.n, y 0 = a ∧ ∀ lo hi, Spec.Motion (Spec.gravityField hiFi sat accl) y lo hi := by
  have h' : ∀ t : ℝ, ∃ y : ℝ → Raw sat.rw.n, y 0 = a ∧
      Spec.Motion (Spec.gravityField hiFi sat accl) y (-(|t| + 1)) (|t| + 1) := fun t => h _ (by positivity)
  choose Y h0 hY using h'
  have same : ∀ s s' t : ℝ, |t| < |s| + 1 → |t| < |s'| + 1 → Y s t = Y s' t := by
    intro s s' t ht ht'
    set m := min (|s| + 1) (|s'| + 1)
    have hlt : |t| < m := lt_min ht ht'
    have m0 : 0 < m := lt_of_le_of_lt (abs_nonneg t) hlt
    have m1 : m ≤ |s| + 1 := min_le_left _ _
    have m2 : m ≤ |s'| + 1 := min_le_right _ _
    exact C192_unique (lo := -m) (hi := m) (t0 := 0)
      (fun u hu => hY s u ⟨by linarith [hu.1], by linarith [hu.2]⟩)
      (fun u hu => hY s' u ⟨by linarith [hu.1], by linarith [hu.2]⟩)
      ⟨by linarith, m0⟩ ((h0 s).trans (h0 s').symm) t (abs_lt.1 hlt)
  refine ⟨fun t => Y t t, h0 _, fun lo hi t _ => ?_⟩
  have e : (fun u => Y u u) =ᶠ[𝓝 t] Y t := by
    have : ∀ᶠ u in 𝓝 t, |u| < |t| + 1 := continuous_abs.continuousAt.eventually (gt_mem_nhds (by linarith))
    filter_upwards [this] with u hu
    exact same _ _ u (by linarith) hu
  obtain ⟨c, s, k, hs, hk, h1, h2, h3, h4, h5⟩ := hY t t (abs_lt.1 (by linarith))
  refine ⟨c, s, k, hs, hk, h1.congr_of_eventuallyEq ?_, h2.congr_of_eventuallyEq ?_, h3.congr_of_eventuallyEq ?_,
    h4.congr_of_eventuallyEq ?_, h5.congr_of_eventuallyEq ?_⟩
  all_goals
    filter_upwards [e] with u hu
    rw [hu]

/-- Specification: the smallest distance from the centre on a Kepler orbit, from energy and angular momentum:
half-axis times one minus the eccentricity. -/
noncomputable def Spec.perigee (x v : V3) : ℝ :=
  Spec.halfAxis x v * (1 - npNorm (Spec.eccentricity Spec.mu x v))

/-- C192: a satellite in an orbit whose perigee is outside of the Earth has one motion for all times, past and future,
from every attitude, rate and wheel speeds. -/
theorem C192_forever {sat : Str.Satellite} {mass : ℝ} {dims : V3} {ab cd : ℝ} (hb : Built sat mass dims ab cd)
    (hm : mass ≠ 0) (accl : Fin sat.rw.n → ℝ) (a : Raw sat.rw.n) (h0 : a.pos ≠ 0)
    (hE : Spec.energy Spec.mu a.pos a.vel < 0) (hr : 6.3e6 ≤ Spec.perigee a.pos a.vel) (hq : npNorm a.att = 1) :
    ∃ y : ℝ → Raw sat.rw.n, y 0 = a ∧ (∀ lo hi, Spec.Motion (Spec.gravityField false sat accl) y lo hi) ∧
      (∀ t, Spec.perigee a.pos a.vel ≤ npNorm (y t).pos) ∧
      ∀ z : ℝ → Raw sat.rw.n, z 0 = a → (∀ lo hi, Spec.Motion (Spec.gravityField false sat accl) z lo hi) → z = y := by
  have hμ : 0 < Spec.mu := mu_eq ▸ MU_pos
  have hh : Spec.orbitMomentum a.pos a.vel ≠ 0 := by
    intro hh
    have e := eccentricity_sq hμ.ne' h0 a.vel
    rw [hh] at e
    simp only [dotProduct_zero, mul_zero, zero_div, add_zero] at e
    have e1 : npNorm (Spec.eccentricity Spec.mu a.pos a.vel) = 1 :=
      (sq_eq_sq₀ (npNorm_nonneg _) zero_le_one).1 (e.trans (one_pow 2).symm)
    rw [Spec.perigee, e1, sub_self, mul_zero] at hr
    norm_num at hr
  obtain ⟨x, v, hx, hv, hO⟩ := C189_forever h0 hE hh 0
  have far : ∀ t, Spec.perigee a.pos a.vel ≤ npNorm (x t) := by
    intro t
    have := (C141_bounded (hO (-(|t| + 1)) (|t| + 1)) (t0 := 0) (t := t) ⟨by linarith [abs_nonneg t], by positivity⟩
      (abs_lt.1 (by linarith)) (by rw [hx, hv]; exact hE)).2.2.1
    rw [hx, hv] at this
    exact this
  obtain ⟨y, hy0, hy⟩ := forever (a := a) (fun T hT => by
    obtain ⟨y, h1, h2, -⟩ := C192_exists hb hm accl (neg_lt_zero.2 hT) hT (hO _ _) (fun t _ => hr.trans (far t)) a
      hx.symm hv.symm hq
    exact ⟨y, h1, h2⟩)
  refine ⟨y, hy0, hy, fun t => ?_, fun z hz0 hz => ?_⟩
  · obtain ⟨y', h1, h2, h3⟩ := C192_exists hb hm accl (lo := -(|t| + 1)) (hi := |t| + 1) (by linarith [abs_nonneg t])
      (by positivity) (hO _ _) (fun t _ => hr.trans (far t)) a hx.symm hv.symm hq
    have ht : t ∈ Ioo (-(|t| + 1)) (|t| + 1) := abs_lt.1 (by linarith)
    rw [C192_unique (hy _ _) h2 ⟨by linarith [abs_nonneg t], by positivity⟩ (hy0.trans h1.symm) t ht, (h3 t ht).1]
    exact far t
  · funext t
    exact C192_unique (hz _ _) (hy _ _) (lo := -(|t| + 1)) (hi := |t| + 1) (t0 := 0)
      ⟨by linarith [abs_nonneg t], by positivity⟩ (hz0.trans hy0.symm) t (abs_lt.1 (by linarith))

/-- C192: simulations of such a satellite follow this motion: up to any time, every simulation with a step that is
short enough runs without an exception as long as the calendar does not run out, and is within a constant times the
fourth power of the step of the motion. -/
theorem C192_simulated {sat : Str.Satellite} {mass : ℝ} {dims : V3} {ab cd : ℝ} (hb : Built sat mass dims ab cd)
    (hm : mass ≠ 0) (accl : Fin sat.rw.n → ℝ) (a : Raw sat.rw.n) (h0 : a.pos ≠ 0)
    (hE : Spec.energy Spec.mu a.pos a.vel < 0) (hr : 6.4e6 ≤ Spec.perigee a.pos a.vel) (hq : npNorm a.att = 1) :
    ∃ y : ℝ → Raw sat.rw.n, y 0 = a ∧ (∀ lo hi, Spec.Motion (Spec.gravityField false sat accl) y lo hi) ∧
      ∀ T : ℝ, ∃ C h : ℝ, 0 < h ∧ ∀ (i : Integ sat.rw.n) (c : JClock) (k : ℕ), Consistent i.state → i.state.arr = a →
        i.state.clock = some c → 0 < i.dt → i.dt < h → k * i.dt ≤ T → 0 ≤ i.gyro.arwVar → 0 ≤ i.gyro.rrwVar →
        (∀ j : ℕ, j ≤ k → InRange (c.datetime + j * timedelta i.dt)) →
        ∃ i', runs (Spec.gravityField false sat accl) k i = (.ok (), i') ∧
          Spec.Within (C * i.dt ^ 4) i'.state.arr (y (k * i.dt)) := by
  obtain ⟨y, hy0, hy, far, -⟩ := C192_forever hb hm accl a h0 hE (le_trans (by norm_num) hr) hq
  have hm' : sat.mass ≠ 0 := by rw [hb.mass_eq.1]; exact hm
  refine ⟨y, hy0, hy, fun T => ?_⟩
  have := C153_gravity_completes false sat hm' accl (lo := -1) (hi := |T| + 1) (T := T) (by norm_num) (by positivity)
    (by linarith [le_abs_self T]) (hy _ _) (by rw [hy0]; exact (isUnit4_iff _).2 hq) (fun t _ => hr.trans (far t))
  rw [hy0] at this
  exact this

/-- Specification: the same place and attitude, with everything moving the opposite way. -/
def Spec.reversed {n : ℕ} (a : Raw n) : Raw n := ⟨a.pos, -a.vel, a.att, -a.rate, -a.whl⟩

theorem gradientTorque_reversed (sat : Str.Satellite) (a : Raw sat.rw.n) :
    gradientTorque sat (Spec.reversed a) = gradientTorque sat a := rfl

theorem momentum_neg (rw : Str.RWSystem) (Ω : Fin rw.n → ℝ) : rw.momentum (-Ω) = -rw.momentum Ω := by
  unfold Str.RWSystem.momentum Str.Wheel.momentum
  rw [← Finset.sum_neg_distrib]
  refine Finset.sum_congr rfl fun i _ => ?_
  funext j
  simp

/-- C192: played backwards, a motion is a motion. -/
theorem C192_reversible {hiFi : Bool} {sat : Str.Satellite} (hm : sat.mass ≠ 0) {accl : Fin sat.rw.n → ℝ}
    {y : ℝ → Raw sat.rw.n} {lo hi : ℝ} (hy : Spec.Motion (Spec.gravityField hiFi sat accl) y lo hi)
    (hr : ∀ t ∈ Ioo lo hi, 6.3e6 ≤ npNorm (y t).pos) :
    Spec.Motion (Spec.gravityField hiFi sat accl) (fun t => Spec.reversed (y (-t))) (-hi) (-lo) := by
  obtain ⟨g, hg, hga, hgf, hgd⟩ := gravityField_form hiFi sat accl
  refine along_motion (Y := fun t => toCont (Spec.reversed (y (-t)))) hm hgd (fun t ht => ?_)
  have ht' : -t ∈ Ioo lo hi := ⟨by linarith [ht.2], by linarith [ht.1]⟩
  refine ⟨?_, hr _ ht'⟩
  have hd := motion_deriv hg hy ht'
  have d1 : HasDerivAt (fun t => (y t).pos) (g (y (-t))).pos (-t) := hd.fst
  have d2 : HasDerivAt (fun t => (y t).vel) (g (y (-t))).vel (-t) := hd.snd.fst
  have d3 : HasDerivAt (fun t => (y t).att) (g (y (-t))).att (-t) := hd.snd.snd.fst
  have d4 : HasDerivAt (fun t => (y t).rate) (g (y (-t))).rate (-t) := hd.snd.snd.snd.fst
  have d5 : HasDerivAt (fun t => (y t).whl) (g (y (-t))).whl (-t) := hd.snd.snd.snd.snd
  have back : ∀ {k : ℕ} {f : ℝ → Fin k → ℝ} {f' : Fin k → ℝ}, HasDerivAt f f' (-t) → HasDerivAt (fun t => f (-t)) (-f') t := by
    intro k f f' h
    have := HasDerivAt.scomp t h (hasDerivAt_neg t)
    rw [neg_one_smul] at this
    exact this
  set b := y (-t) with hbdef
  have f := hgf b
  have fr := hgf (Spec.reversed b)
  have hne : b.pos ≠ 0 := by
    intro h0
    have := hr _ ht'
    rw [← hbdef, h0, npNorm_eq_zero.2 rfl] at this
    norm_num at this
  have ev : (g (Spec.reversed b)).vel = (g b).vel :=
    Except.ok.inj ((fr.2.1 hne).symm.trans (f.2.1 hne))
  have ea : (g (Spec.reversed b)).att = -(g b).att := by
    rw [fr.2.2.1, f.2.2.1]
    simp only [Spec.reversed]
    apply vec4_ext <;> simp [product_0, product_1, product_2, product_3] <;> ring
  have er : (g (Spec.reversed b)).rate = (g b).rate := by
    rw [fr.2.2.2.1, f.2.2.2.1, gradientTorque_reversed]
    simp only [Spec.reversed, momentum_neg, Matrix.mulVec_neg, npCross_eq_crossProduct, map_neg, LinearMap.neg_apply, map_add]
    congr 2
    abel
  refine HasDerivAt.prodMk ((back d1).congr_deriv ?_) (HasDerivAt.prodMk ((back d2).neg.congr_deriv ?_)
    (HasDerivAt.prodMk ((back d3).congr_deriv ?_) (HasDerivAt.prodMk ((back d4).neg.congr_deriv ?_)
      ((back d5).neg.congr_deriv ?_))))
  · rw [f.1]; exact fr.1.symm
  · rw [neg_neg]; exact ev.symm
  · exact ea.symm
  · rw [neg_neg]; exact er.symm
  · rw [neg_neg, f.2.2.2.2]; exact fr.2.2.2.2.symm

/-- The orbit from 400 km with 8 km/s, a satellite made by the constructor, turning at 0.1 rad/s: a case of the
theorems above. -/
example : ∃ (sat : Str.Satellite) (mass : ℝ) (dims : V3) (ab cd : ℝ) (a : Raw sat.rw.n), Built sat mass dims ab cd ∧
    mass ≠ 0 ∧ a.rate = ![0.1, 0, 0] ∧ a.pos ≠ 0 ∧ Spec.energy Spec.mu a.pos a.vel < 0 ∧
    6.4e6 ≤ Spec.perigee a.pos a.vel ∧ npNorm a.att = 1 := by
  obtain ⟨sat, hb, -⟩ := exSat3 true []
  refine ⟨sat, _, _, _, _, ⟨![6778137, 0, 0], ![0, 8000, 0], ![1, 0, 0, 0], ![0.1, 0, 0], 0⟩, hb, by norm_num, rfl,
    fun h => by simpa using congrFun h 0, ?_, ?_, npNorm_vec4 (by norm_num)⟩
  all_goals
    have hnorm : npNorm (![6778137, 0, 0] : V3) = 6778137 := by
      rw [npNorm, Fin.sum_univ_three]; simp
    have hE : Spec.energy Spec.mu ![6778137, 0, 0] ![0, 8000, 0] = 8000 ^ 2 / 2 - Spec.mu / 6778137 := by
      simp only [Spec.energy, hnorm, Matrix.vec3_dotProduct, Matrix.cons_val_zero, Matrix.cons_val_one, cons3_2]
      ring
  · rw [hE, Spec.mu]; norm_num
  · have he : Spec.eccentricity Spec.mu ![6778137, 0, 0] ![0, 8000, 0] = (6778137 * 8000 ^ 2 / Spec.mu - 1) • ![1, 0, 0] := by
      apply vec3_ext <;> simp [Spec.eccentricity, hnorm] <;> field_simp <;> norm_num [Spec.mu]
    have hn : npNorm (![1, 0, 0] : V3) = 1 := npNorm_vec3 (by norm_num)
    dsimp only
    rw [Spec.perigee, he, npNorm_smul, hn, mul_one, Spec.halfAxis, hE, abs_of_nonneg] <;> norm_num [Spec.mu]

end Adcs
