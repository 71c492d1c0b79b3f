import Verif.Proofs.AttitudeFlow
import Verif.Props.Detumble
import Verif.Props.Libration

set_option autoImplicit false

/-! # C197: the attitude motions exist from every state -/

namespace Adcs

open Str Sens JDay Quat Vec Dyn Ctl Spec Set
open scoped Matrix

/-! ## Detumbling -/

/-- The satellite of the controller turns under the moment that `detumble` asks for in the field `B`, given in inertial
coordinates. -/
def Spec.DetumblingIn (c : MagController) (B : ℝ → V3) (q : ℝ → V4) (w : ℝ → V3) : Prop :=
  ∀ t, 0 ≤ t → npNorm (q t) = 1 ∧ ∃ m : V3,
    magMoment (sandwich (q t) (B t)) (c.detumbleTorque (w t)) = .ok m ∧
    TurnsAt c.sat.totalMoment q w m (sandwich (q t) (B t)) t

/-- The torque of `detumble` as a function of time, attitude and angular momentum. -/
noncomputable def brake (B : ℝ → V3) (p : Turn) : V3 :=
  (-kBbq) • p.2.2 - ((sandwich p.2.1 (B p.1) ⬝ᵥ ((-kBbq) • p.2.2)) / (B p.1 ⬝ᵥ B p.1)) • sandwich p.2.1 (B p.1)

theorem contDiff_brake {B : ℝ → V3} (hB : ContDiff ℝ 1 B) (hne : ∀ t, B t ≠ 0) : ContDiff ℝ 1 (brake B) := by
  have hH : ContDiff ℝ 1 fun p : Turn => p.2.2 := contDiff_snd.comp contDiff_snd
  have hq : ContDiff ℝ 1 fun p : Turn => p.2.1 := contDiff_fst.comp contDiff_snd
  have hBp : ContDiff ℝ 1 fun p : Turn => B p.1 := hB.comp contDiff_fst
  have hs := contDiff_sandwich3 hq hBp
  have hk : ContDiff ℝ 1 fun p : Turn => (-kBbq) • p.2.2 := by
    have : ContDiff ℝ 1 ((fun _ : Turn => -kBbq) • fun p : Turn => p.2.2) := contDiff_const.smul hH
    exact this
  unfold brake
  refine hk.sub (((contDiff_dot3 hs hk).div (contDiff_dot3 hBp hBp) fun p => ?_).smul hs)
  have := npDot_pos (hne p.1)
  rw [npDot_eq_dotProduct] at this
  exact this.ne'

theorem brake_bound (B : ℝ → V3) (hne : ∀ t, B t ≠ 0) (p : Turn) (hq : npNorm p.2.1 = 1) :
    |p.2.2 ⬝ᵥ brake B p| ≤ 2 * kBbq * (1 + npNorm p.2.2 ^ 2) := by
  have hk : 0 ≤ kBbq := kBbq_pos.le
  have hpos := npDot_pos (hne p.1)
  rw [npDot_eq_dotProduct] at hpos
  have hss := (C06_sandwich_preserves p.2.1 hq (B p.1) (B p.1)).1
  unfold brake
  generalize sandwich p.2.1 (B p.1) = s at *
  rw [← hss] at hpos ⊢
  set H := p.2.2
  have hHH : npNorm H ^ 2 = H ⬝ᵥ H := by rw [npNorm_sq_dot, npDot_eq_dotProduct]
  have hs2 : npNorm s ^ 2 = s ⬝ᵥ s := by rw [npNorm_sq_dot, npDot_eq_dotProduct]
  have hcs : (s ⬝ᵥ H) ^ 2 ≤ (s ⬝ᵥ s) * (H ⬝ᵥ H) := by
    have := dot_bound s H
    rw [← hs2, ← hHH, ← mul_pow]
    exact sq_le_sq' (by linarith [(abs_le.1 this).1]) (abs_le.1 this).2
  have e : H ⬝ᵥ ((-kBbq) • H - ((s ⬝ᵥ ((-kBbq) • H)) / (s ⬝ᵥ s)) • s) =
      -(kBbq * (H ⬝ᵥ H)) + kBbq * ((s ⬝ᵥ H) ^ 2 / (s ⬝ᵥ s)) := by
    rw [dotProduct_sub, dotProduct_smul, dotProduct_smul, dotProduct_smul, dotProduct_comm H s]
    simp only [smul_eq_mul]
    ring
  have h1 : (s ⬝ᵥ H) ^ 2 / (s ⬝ᵥ s) ≤ H ⬝ᵥ H := by
    rw [div_le_iff₀ hpos]
    linarith
  have h2 : 0 ≤ (s ⬝ᵥ H) ^ 2 / (s ⬝ᵥ s) := by positivity
  have h3 : 0 ≤ H ⬝ᵥ H := by rw [← hHH]; positivity
  rw [e, hHH]
  have h4 := mul_le_mul_of_nonneg_left h1 hk
  have h5 := mul_nonneg hk h2
  have h6 := mul_nonneg hk h3
  rw [abs_le]
  constructor <;> linarith

theorem brake_eq (c : MagController) {B : ℝ → V3}
    (hne : ∀ t, B t ≠ 0) (t : ℝ) {q : V4} (hq : npNorm q = 1) (w : V3) :
    ∃ m, magMoment (sandwich q (B t)) (c.detumbleTorque w) = .ok m ∧
      m ⨯₃ sandwich q (B t) = brake B (t, q, c.sat.totalMoment *ᵥ w) := by
  have hs : sandwich q (B t) ≠ 0 := by
    intro h
    have := (C06_sandwich_preserves q hq (B t) (B t)).2.1
    rw [h, npNorm_eq_zero.2 rfl] at this
    exact hne t (npNorm_eq_zero.1 this.symm)
  obtain ⟨m, h1, -, h2⟩ := C65_moment (sandwich q (B t)) (c.detumbleTorque w) hs
  refine ⟨m, h1, h2.trans ?_⟩
  rw [(C06_sandwich_preserves q hq (B t) (B t)).1]
  rfl

/-- C197: from every attitude and every rate, in every field that varies smoothly and does not vanish, there is a motion
under `detumble` for all later times, and only one. -/
theorem C197_detumble {c : MagController} {mass : ℝ} {dims : V3} {ab cd : ℝ} (hb : Built c.sat mass dims ab cd)
    {B : ℝ → V3} (hB : ContDiff ℝ 1 B) (hne : ∀ t, B t ≠ 0) {q0 : V4} (hq0 : npNorm q0 = 1) (w0 : V3) :
    ∃ q w, q 0 = q0 ∧ w 0 = w0 ∧ Spec.DetumblingIn c B q w ∧
      ∀ q' w', q' 0 = q0 → w' 0 = w0 → Spec.DetumblingIn c B q' w' → ∀ t, 0 ≤ t → q' t = q t ∧ w' t = w t := by
  have hT := contDiff_brake hB hne
  obtain ⟨y, h0, hy⟩ := turn_forever (Ji := c.sat.invTotMoment) hT
    (fun τ => ⟨2 * kBbq, fun p _ hp => brake_bound B hne p hp⟩) hq0 (c.sat.totalMoment *ᵥ w0)
  have hJ : ∀ v, c.sat.totalMoment *ᵥ (c.sat.invTotMoment *ᵥ v) = v := fun v => by
    rw [Matrix.mulVec_mulVec, hb.inverse, Matrix.one_mulVec]
  refine ⟨fun t => (y t).2.1, fun t => c.sat.invTotMoment *ᵥ (y t).2.2, by simp only [h0], by simp only [h0, hb.cancel],
    ?_, ?_⟩
  · intro t _
    obtain ⟨hd, h1, h2⟩ := hy t
    obtain ⟨m, hm, hmB⟩ := brake_eq c hne t h2 (c.sat.invTotMoment *ᵥ (y t).2.2)
    refine ⟨h2, m, hm, ⟨hd.snd.fst, ?_⟩⟩
    simp only [hJ] at hmB ⊢
    rw [hmB, show ((t, (y t).2.1, (y t).2.2) : Turn) = y t from Prod.ext h1.symm rfl]
    exact hd.snd.snd
  · intro q' w' hq' hw' h t ht
    have := flow_unique_right (contDiff_turnField c.sat.invTotMoment hT) (y := y)
      (z := fun t => (t, q' t, c.sat.totalMoment *ᵥ w' t)) (fun t => (hy t).1) (fun s hs => ?_)
      (by simp only [h0, hq', hw']) t ht
    · simp only [this]
      exact ⟨trivial, (hb.cancel _).symm⟩
    · obtain ⟨hu, m, hm, hturn⟩ := h s hs
      obtain ⟨m2, hm2, hmB⟩ := brake_eq c hne s hu (w' s)
      have hmm : m2 = m := Except.ok.inj (hm2.symm.trans hm)
      subst hmm
      have d := hturn.momentum
      rw [hmB] at d
      refine HasDerivAt.prodMk (hasDerivAt_id s) (HasDerivAt.prodMk ?_ ?_)
      · simp only [hb.cancel]
        exact hturn.attitude
      · simp only [hb.cancel]
        exact d

/-- Such a motion is one of C179's, with the whole of the moment. -/
theorem Spec.DetumblingIn.detumbling {c : MagController} {β : ℝ → ℝ} (hβ : ∀ t, β t ≠ 0) {b : ℝ → V3} {q : ℝ → V4}
    {w : ℝ → V3} (h : Spec.DetumblingIn c (fun t => β t • b t) q w) : Spec.Detumbling c 1 b q w := by
  intro t ht
  obtain ⟨hq, m, hm, hturn⟩ := h t ht
  have e : sandwich (q t) (β t • b t) = β t • sandwich (q t) (b t) := by
    rw [sandwich_eq_dcm, sandwich_eq_dcm, Matrix.mulVec_smul]
  simp only [e] at hm hturn
  exact ⟨hq, β t, 1, m, hβ t, le_rfl, le_rfl, hm, by rw [one_smul]; exact hturn⟩

/-- C197: in a field of any strength that turns steadily, there is from every attitude and every rate a motion under
`detumble`, only one, and its angular momentum dies out exponentially. -/
theorem C197_detumbles {c : MagController} {mass : ℝ} {dims : V3} {ab cd : ℝ} (hb : Built c.sat mass dims ab cd)
    {β : ℝ → ℝ} (hβ : ContDiff ℝ 1 β) (hβ0 : ∀ t, β t ≠ 0) {n : ℝ} (hn : 0 < n) {e₁ e₂ : V3} (he : Spec.Plane e₁ e₂)
    {q0 : V4} (hq0 : npNorm q0 = 1) (w0 : V3) :
    ∃ q w, q 0 = q0 ∧ w 0 = w0 ∧ Spec.DetumblingIn c (fun t => β t • Spec.turning n e₁ e₂ t) q w ∧
      (∀ q' w', q' 0 = q0 → w' 0 = w0 → Spec.DetumblingIn c (fun t => β t • Spec.turning n e₁ e₂ t) q' w' →
        ∀ t, 0 ≤ t → q' t = q t ∧ w' t = w t) ∧
      ∀ t, 0 ≤ t → npNorm (c.sat.totalMoment *ᵥ w t) ^ 2 ≤
        3 * Real.exp (-(2 / 3 * (kBbq * n ^ 2 / (2 * n ^ 2 + kBbq ^ 2))) * t) *
          npNorm (c.sat.totalMoment *ᵥ w0) ^ 2 := by
  have hturn : ContDiff ℝ 1 (Spec.turning n e₁ e₂) := by
    unfold Spec.turning
    fun_prop
  have hne : ∀ t, β t • Spec.turning n e₁ e₂ t ≠ 0 := by
    intro t h
    rcases smul_eq_zero.1 h with h | h
    · exact hβ0 t h
    · have h1 := (turning_frame he n t).1
      rw [h, npNorm_eq_zero.2 rfl] at h1
      exact zero_ne_one h1
  obtain ⟨q, w, h1, h2, h3, h4⟩ := C197_detumble hb (hβ.smul hturn) hne hq0 w0
  refine ⟨q, w, h1, h2, h3, h4, fun t ht => ?_⟩
  have := C179_turning_partial one_pos hn he (h3.detumbling hβ0) ht
  rw [h2, mul_one] at this
  exact this

/-! ## Alone -/

/-- C197: a satellite left alone has, from every rate, a motion for all later times and only one. -/
theorem C197_alone {sat : Satellite} {mass : ℝ} {dims : V3} {ab cd : ℝ} (hb : Built sat mass dims ab cd)
    (hm : mass ≠ 0) (s0 : SatState sat.rw.n) (hw : s0.attrs.wheelVel = 0) (w0 : V3) :
    ∃ st, Spec.Alone sat st ∧ (st 0).attrs.bodyAngVel = w0 ∧
      ∀ st', Spec.Alone sat st' → (st' 0).attrs.bodyAngVel = w0 →
        ∀ t, 0 ≤ t → (st' t).attrs.bodyAngVel = (st t).attrs.bodyAngVel := by
  have hT : ContDiff ℝ 1 (fun _ : Turn => (0 : V3)) := contDiff_const
  have hJ : ∀ v, sat.totalMoment *ᵥ (sat.invTotMoment *ᵥ v) = v := fun v => by
    rw [Matrix.mulVec_mulVec, hb.inverse, Matrix.one_mulVec]
  obtain ⟨y, h0, hy⟩ := turn_forever (Ji := sat.invTotMoment) hT
    (fun τ => ⟨0, fun p _ _ => by simp⟩) (q0 := ![1, 0, 0, 0]) (npNorm_vec4 (by norm_num)) (sat.totalMoment *ᵥ w0)
  set F : V3 → V3 := fun H => -((sat.invTotMoment *ᵥ H) ⨯₃ H) with hF
  have dH : ∀ t, HasDerivAt (fun t => (y t).2.2) (F (y t).2.2) t := by
    intro t
    refine (show HasDerivAt (fun t => (y t).2.2) (turnField sat.invTotMoment (fun _ => 0) (y t)).2.2 t from
      (hy t).1.snd.snd).congr_deriv ?_
    simp only [turnField, zero_sub, hF]
  have cF : ContDiff ℝ 1 F := by
    have h1 : ContDiff ℝ 1 fun H : V3 => ((0, 0, H) : Turn) := contDiff_const.prodMk (contDiff_const.prodMk contDiff_id)
    have h2 := (contDiff_turnField sat.invTotMoment hT).comp h1
    have h3 := (contDiff_snd (𝕜 := ℝ) (E := V4) (F := V3) (n := 1)).comp
      ((contDiff_snd (𝕜 := ℝ) (E := ℝ) (F := V4 × V3) (n := 1)).comp h2)
    have e : F = (Prod.snd ∘ (Prod.snd ∘ (turnField sat.invTotMoment (fun _ => 0) ∘ fun H : V3 => ((0, 0, H) : Turn)))) := by
      funext H
      simp only [Function.comp, turnField, zero_sub, hF]
    rw [e]
    exact h3
  refine ⟨_, alone_of_euler hb hm s0 hw (fun t => sat.invTotMoment *ᵥ (y t).2.2) (fun t => sat.invTotMoment *ᵥ F (y t).2.2)
    (fun t => hasDerivAt_mulVec3 (dH t)) (fun t => by rw [hJ, hJ]), ?_, ?_⟩
  · simp only [h0, hb.cancel]
  · intro st' h hw' t ht
    have := flow_unique_right cF (y := fun t => (y t).2.2) (z := fun t => sat.totalMoment *ᵥ (st' t).attrs.bodyAngVel)
      dH (fun s hs => ?_) (by simp only [h0, hw']) t ht
    · simp only at this ⊢
      rw [this, hb.cancel]
    · obtain ⟨w', h1, h2⟩ := alone_euler hb h hs
      refine (hasDerivAt_mulVec3 h1).congr_deriv ?_
      simp only [hF, hb.cancel]
      exact h2

/-! ## Under gravity -/

/-- The gradient torque on a circular orbit as a function of time and attitude. -/
noncomputable def pull (J : M3) (n : ℝ) (a b : V3) (p : Turn) : V3 :=
  (3 * n ^ 2) • (sandwich p.2.1 (Spec.turning n a b p.1) ⨯₃ (J *ᵥ sandwich p.2.1 (Spec.turning n a b p.1)))

theorem contDiff_pull (J : M3) (n : ℝ) (a b : V3) : ContDiff ℝ 1 (pull J n a b) := by
  have hq : ContDiff ℝ 1 fun p : Turn => p.2.1 := contDiff_fst.comp contDiff_snd
  have hturn : ContDiff ℝ 1 (Spec.turning n a b) := by
    unfold Spec.turning
    fun_prop
  have hs := contDiff_sandwich3 hq (hturn.comp contDiff_fst)
  have hx := contDiff_cross3 hs (contDiff_mulVec3 J hs)
  have : ContDiff ℝ 1 ((fun _ : Turn => 3 * n ^ 2) • fun p : Turn => sandwich p.2.1 (Spec.turning n a b p.1) ⨯₃
    (J *ᵥ sandwich p.2.1 (Spec.turning n a b p.1))) := contDiff_const.smul hx
  exact this

theorem pull_bound (J : M3) (n : ℝ) {a b : V3} (hab : Spec.Plane a b) : ∃ C : ℝ, ∀ p : Turn, npNorm p.2.1 = 1 →
    |p.2.2 ⬝ᵥ pull J n a b p| ≤ C * (1 + npNorm p.2.2 ^ 2) := by
  have hc : Continuous fun N : V3 => npNorm (npCross N (J *ᵥ N)) := by
    unfold npNorm npCross
    fun_prop
  obtain ⟨M, hM⟩ := (isCompact_closedBall (0 : V3) 1).exists_bound_of_continuousOn hc.continuousOn
  have hM0 : 0 ≤ M := (norm_nonneg _).trans (hM 0 (Metric.mem_closedBall_self zero_le_one))
  refine ⟨3 * n ^ 2 * M, fun p hq => ?_⟩
  set R := sandwich p.2.1 (Spec.turning n a b p.1) with hR
  have hu : npNorm R = 1 := by
    rw [hR, (C06_sandwich_preserves p.2.1 hq _ 0).2.1]
    exact (turning_frame hab n p.1).1
  have hin : R ∈ Metric.closedBall (0 : V3) 1 := by
    rw [mem_closedBall_zero_iff, pi_norm_le_iff_of_nonneg zero_le_one]
    exact fun i => (abs_le_npNorm _ i).trans hu.le
  have h1 := hM R hin
  rw [Real.norm_eq_abs, abs_of_nonneg (npNorm_nonneg _), npCross_eq_crossProduct] at h1
  have h2 := dot_bound p.2.2 (R ⨯₃ (J *ᵥ R))
  have h3 : |p.2.2 ⬝ᵥ pull J n a b p| = 3 * n ^ 2 * |p.2.2 ⬝ᵥ (R ⨯₃ (J *ᵥ R))| := by
    unfold pull
    rw [← hR, dotProduct_smul, smul_eq_mul, abs_mul, abs_of_nonneg (by positivity : (0 : ℝ) ≤ 3 * n ^ 2)]
  rw [h3, mul_assoc (3 * n ^ 2) M]
  have h4 := npNorm_nonneg p.2.2
  have h5 : npNorm p.2.2 * npNorm (R ⨯₃ (J *ᵥ R)) ≤ npNorm p.2.2 * M := mul_le_mul_of_nonneg_left h1 h4
  refine mul_le_mul_of_nonneg_left (h2.trans (h5.trans ?_)) (by positivity)
  nlinarith [sq_nonneg (npNorm p.2.2 - 1)]

/-- C197: on every circular orbit outside of the Earth there is, from every attitude and every rate, a motion under
gravity for all later times, and only one. -/
theorem C197_librating {sat : Satellite} {mass : ℝ} {dims : V3} {ab cd : ℝ} (hb : Built sat mass dims ab cd)
    (hm : mass ≠ 0) {r n : ℝ} (hk : Spec.Kepler r n) (hr : 6.3e6 ≤ r) {a b : V3} (hab : Spec.Plane a b) {q0 : V4}
    (hq0 : npNorm q0 = 1) (w0 : V3) :
    ∃ st, Spec.Librating sat r n a b st ∧ (st 0).attrs.attitude = q0 ∧ (st 0).attrs.bodyAngVel = w0 ∧
      ∀ st', Spec.Librating sat r n a b st' → (st' 0).attrs.attitude = q0 → (st' 0).attrs.bodyAngVel = w0 →
        ∀ t, 0 ≤ t → (st' t).attrs.attitude = (st t).attrs.attitude ∧
          (st' t).attrs.bodyAngVel = (st t).attrs.bodyAngVel := by
  have hmass : sat.mass ≠ 0 := by rw [hb.mass_eq.1]; exact hm
  have hT := contDiff_pull sat.totalMoment n a b
  obtain ⟨C, hC⟩ := pull_bound sat.totalMoment n hab
  obtain ⟨y, h0, hy⟩ := turn_forever (Ji := sat.invTotMoment) hT (fun τ => ⟨C, fun p _ hp => hC p hp⟩) hq0
    (sat.totalMoment *ᵥ w0)
  have hJ : ∀ v, sat.totalMoment *ᵥ (sat.invTotMoment *ᵥ v) = v := fun v => by
    rw [Matrix.mulVec_mulVec, hb.inverse, Matrix.one_mulVec]
  have hcirc : ∀ t : ℝ, Spec.circle r a b (n * t) = r • Spec.turning n a b t := fun t => rfl
  have hraw : ∀ t : ℝ, ∃ s : SatState sat.rw.n, SatState.new (n := sat.rw.n)
      { pos := Spec.circle r a b (n * t), vel := 0, att := (y t).2.1, rate := sat.invTotMoment *ᵥ (y t).2.2, whl := 0 }
      (some exClock) = .ok s := by
    intro t
    obtain ⟨s, hs, -⟩ := C127_new (n := sat.rw.n)
      { pos := Spec.circle r a b (n * t), vel := 0, att := (y t).2.1, rate := sat.invTotMoment *ᵥ (y t).2.2, whl := 0 }
      exClock (by
        simp only [hcirc]
        rw [npNorm_smul, (turning_frame hab n t).1, mul_one, abs_of_pos hk.1]
        exact hr)
    exact ⟨s, hs⟩
  choose st hst using hraw
  have hatt : ∀ t, (st t).attrs.attitude = (y t).2.1 := by
    intro t
    obtain ⟨hcons, harr, -⟩ := C80_new (hst t)
    rw [hcons.attitude, harr]
  have hrate : ∀ t, (st t).attrs.bodyAngVel = sat.invTotMoment *ᵥ (y t).2.2 := by
    intro t
    obtain ⟨hcons, harr, -⟩ := C80_new (hst t)
    rw [hcons.bodyAngVel, harr]
  refine ⟨st, ?_, by rw [hatt, h0], by rw [hrate, h0]; exact hb.cancel w0, ?_⟩
  · intro t _
    obtain ⟨hcons, harr, -⟩ := C80_new (hst t)
    obtain ⟨G, g, hG, -, -, -⟩ := C77_formula (hiFi := false) (sat := sat) (hst t)
    have hGT := circle_gravity hk hab (hst t) rfl hG
    obtain ⟨hd, h1, h2⟩ := hy t
    obtain ⟨d, hdd⟩ : ∃ d, derivative sat (st t) G 0 = .ok d := by
      simp only [derivative, npVDiv]
      rw [if_neg hmass]
      exact ⟨_, rfl⟩
    refine ⟨_, exClock, hst t, rfl, h2, rfl, G, d, hG, hdd, ?_⟩
    simp only [derivative, npVDiv] at hdd
    rw [if_neg hmass] at hdd
    simp only [Except.ok.injEq] at hdd
    subst hdd
    simp only
    have hw0 : (st t).attrs.wheelVel = 0 := by rw [hcons.wheelVel, harr]
    rw [hatt, hrate, hw0, torque_eq_momentum, momentum_zero, hGT, hJ, funext hatt, funext hrate]
    constructor
    · exact hd.snd.fst
    · refine (hasDerivAt_mulVec3 (show HasDerivAt (fun t => (y t).2.2) _ t from hd.snd.snd)).congr_deriv ?_
      simp only [turnField, pull, h1, sub_zero, zero_add, npCross_eq_crossProduct]
  · intro st' h hq' hw' t ht
    have := flow_unique_right (contDiff_turnField sat.invTotMoment hT) (y := y)
      (z := fun t => (t, (st' t).attrs.attitude, sat.totalMoment *ᵥ (st' t).attrs.bodyAngVel)) (fun t => (hy t).1)
      (fun s hs => ?_) (by simp only [h0, hq', hw']) t ht
    · rw [hatt, hrate, this]
      exact ⟨rfl, (hb.cancel _).symm⟩
    · obtain ⟨-, d1, w', d2, e⟩ := librating_euler hb hk hab h hs
      refine HasDerivAt.prodMk (hasDerivAt_id s) (HasDerivAt.prodMk ?_ ?_)
      · simp only [hb.cancel]
        exact d1
      · refine (hasDerivAt_mulVec3 d2).congr_deriv ?_
        simp only [hb.cancel, pull]
        exact e

/-- The hypotheses of `C197_detumbles` are met by the controller of a satellite that tumbles about all of its axes, in a
field of 30 microtesla and a third as much again in the course of a revolution. -/
example : ∃ (c : MagController) (q : ℝ → V4) (w : ℝ → V3), w 0 = ![1, -2, 3] ∧
    Spec.DetumblingIn c (fun t => (3e-5 + 1e-5 * Real.sin (0.001 * t)) • Spec.turning 0.001 ![1, 0, 0] ![0, 1, 0] t) q w := by
  obtain ⟨sat, hb, -, ⟨h3, -⟩, -, -, -⟩ := exSat3 true []
  obtain ⟨c, hc⟩ : ∃ c, MagController.init ⟨sat, some ⟨0, 0⟩, none⟩ h3 false = .ok c := ⟨_, rfl⟩
  have hsat : c.sat = sat := by
    have := Except.ok.inj hc
    subst this
    rfl
  subst hsat
  obtain ⟨q, w, -, hw, h, -⟩ := C197_detumbles hb (β := fun t => 3e-5 + 1e-5 * Real.sin (0.001 * t)) (by fun_prop)
    (fun t => by nlinarith [Real.neg_one_le_sin (0.001 * t)]) (n := 0.001) (by norm_num) xy_plane (q0 := ![1, 0, 0, 0])
    (npNorm_vec4 (by norm_num)) ![1, -2, 3]
  exact ⟨c, q, w, hw, h⟩

/-- Those of `C197_alone` and `C197_librating` are met by a satellite that is thrown out at three radians per second,
on an orbit of radius 6800 km. -/
example : ∃ (sat : Satellite) (n : ℝ), (∃ st, Spec.Alone sat st ∧ (st 0).attrs.bodyAngVel = ![1, -2, 2]) ∧
    ∃ st, Spec.Librating sat 6800000 n ![1, 0, 0] ![0, 1, 0] st ∧ (st 0).attrs.attitude = ![0.6, 0, 0.8, 0] ∧
      (st 0).attrs.bodyAngVel = ![1, -2, 2] := by
  obtain ⟨sat, hb, -⟩ := exSat3 true []
  obtain ⟨n, hk⟩ := kepler_exists (r := 6800000) (by norm_num)
  obtain ⟨s0, hs0, -⟩ := C127_new (n := sat.rw.n) { pos := ![6800000, 0, 0], vel := 0, att := ![1, 0, 0, 0], rate := 0, whl := 0 }
    exClock (by
      refine le_trans ?_ (abs_le_npNorm _ 0)
      norm_num)
  obtain ⟨hcons, harr, -⟩ := C80_new hs0
  obtain ⟨st, h1, h2, -⟩ := C197_alone hb (by norm_num) s0 (by rw [hcons.wheelVel, harr]) ![1, -2, 2]
  obtain ⟨st', h3, h4, h5, -⟩ := C197_librating hb (by norm_num) hk (by norm_num) xy_plane (q0 := ![0.6, 0, 0.8, 0])
    (npNorm_vec4 (by norm_num)) ![1, -2, 2]
  exact ⟨sat, n, ⟨st, h1, h2⟩, st', h3, h4, h5⟩

end Adcs
