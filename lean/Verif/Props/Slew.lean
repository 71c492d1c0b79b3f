import Verif.Proofs.Slew
import Verif.Props.Convergence

set_option autoImplicit false

/-! # C188: turns from rest under the tracking law -/

namespace Adcs

open Str Ctl Sens JDay Quat Vec Dyn
open scoped Matrix Topology

/-- The quaternion of a turn by `theta` about `e`. -/
noncomputable def Spec.offBy (e : V3) (theta : ℝ) : V4 :=
  ![Real.cos (theta / 2), Real.sin (theta / 2) * e 0, Real.sin (theta / 2) * e 1, Real.sin (theta / 2) * e 2]

/-- The satellite rests, turned by `theta` about the axis `e` away from the command `qc`, and the controller has made
up its mind (its trigger holds `tr`) to undo just this turn. -/
structure Spec.AtRest {n : ℕ} (qc : V4) (tr : Trigger) (st : SatState n) (e : V3) (theta : ℝ) : Prop where
  axis : e ⬝ᵥ e = 1
  sign : tr.memory = 1 ∨ tr.memory = -1
  width : tr.halfWidth = 0.3
  nonneg : 0 ≤ theta
  bound : theta < 2 * Real.arccos (-0.3)
  attitude : st.attrs.attitude = tr.memory • product qc (Spec.offBy e theta)
  rest : st.attrs.bodyAngVel = 0

theorem offBy_unit {e : V3} (he : e ⬝ᵥ e = 1) (theta : ℝ) : IsUnit4 (Spec.offBy e theta) := by
  have h := Real.sin_sq_add_cos_sq (theta / 2)
  rw [Matrix.vec3_dotProduct] at he
  unfold IsUnit4 Spec.offBy
  simp only [Matrix.cons_val_zero, Matrix.cons_val_one, cons4_2, cons4_3]
  linear_combination Real.sin (theta / 2) ^ 2 * he + h

/-- A unit quaternion is the turn of the angle with its cosine, if its vector lies along the axis. -/
theorem offBy_of {p : V4} (hp : IsUnit4 p) {e : V3} (he : e ⬝ᵥ e = 1) (hv : vecPart p = (vecPart p ⬝ᵥ e) • e) :
    ∃ theta, p = Spec.offBy e theta ∧ |theta| = 2 * Real.arccos (p 0) ∧ (0 ≤ vecPart p ⬝ᵥ e → 0 ≤ theta) ∧
      (vecPart p ⬝ᵥ e < 0 → theta ≤ 0) := by
  set a := vecPart p ⬝ᵥ e with ha
  have hua : p 0 ^ 2 + a ^ 2 = 1 := by
    have h1 := vecPart_unit hp
    rw [hv, smul_dotProduct, dotProduct_smul, he] at h1
    simp only [smul_eq_mul, mul_one] at h1
    linarith
  have h1 : -1 ≤ p 0 ∧ p 0 ≤ 1 := by constructor <;> nlinarith [sq_nonneg a]
  have hn := Real.arccos_nonneg (p 0)
  have c1 := congrFun hv 0
  have c2 := congrFun hv 1
  have c3 := congrFun hv 2
  simp only [vecPart_0, vecPart_1, vecPart_2, Pi.smul_apply, smul_eq_mul] at c1 c2 c3
  rcases le_or_gt 0 a with h | h
  · have hs : Real.sin (Real.arccos (p 0)) = a := by
      rw [Real.sin_arccos, show 1 - p 0 ^ 2 = a ^ 2 by linarith]; exact Real.sqrt_sq h
    refine ⟨2 * Real.arccos (p 0), ?_, abs_of_nonneg (by linarith), fun _ => by linarith, fun h' => absurd h' (not_lt.2 h)⟩
    unfold Spec.offBy
    rw [mul_div_cancel_left₀ _ (two_ne_zero), hs, Real.cos_arccos h1.1 h1.2]
    apply vec4_ext
    · rfl
    · exact c1
    · exact c2
    · exact c3
  · have hs : Real.sin (Real.arccos (p 0)) = -a := by
      rw [Real.sin_arccos, show 1 - p 0 ^ 2 = (-a) ^ 2 by rw [neg_sq]; linarith]; exact Real.sqrt_sq (by linarith)
    refine ⟨-(2 * Real.arccos (p 0)), ?_, by rw [abs_neg, abs_of_nonneg (by linarith)], fun h' => absurd h (not_lt.2 h'),
      fun _ => by linarith⟩
    unfold Spec.offBy
    rw [neg_div, mul_div_cancel_left₀ _ (two_ne_zero), Real.sin_neg, Real.cos_neg, hs, neg_neg, Real.cos_arccos h1.1 h1.2]
    apply vec4_ext
    · rfl
    · exact c1
    · exact c2
    · exact c3

/-- The error with the sign of the trigger, and back. -/
theorem signed_error {s : ℝ} (hs : s = 1 ∨ s = -1) {q qc p : V4} (hqc : npNorm qc = 1) :
    q = s • product qc p ↔ s • errorQuat q qc = p := by
  have hs2 : s * s = 1 := by rcases hs with rfl | rfl <;> norm_num
  have hl : ∀ (k : ℝ) (a b : V4), product a (k • b) = k • product a b :=
    fun k a b => (C04_product_bilinear a b 0 k).2.2.2
  have hu := (isUnit4_iff _).2 hqc
  constructor
  · rintro rfl
    rw [errorQuat, hl, ← product_assoc, conj_product_self hu, one_product, smul_smul, hs2, one_smul]
  · rintro rfl
    rw [errorQuat, hl, ← product_assoc, product_conj_self hu, one_product, smul_smul, hs2, one_smul]

/-- Every state of rest, with whatever the trigger remembers, is one of these after the trigger has been asked: the
turn to be made is below `2 arccos (-0.3)`, about 215 degrees. -/
theorem C188_start {n : ℕ} (qc : V4) (hqc : npNorm qc = 1) (tr : Trigger) (hw : tr.halfWidth = 0.3)
    (hm : tr.memory = 1 ∨ tr.memory = -1) (st : SatState n) (hu : npNorm st.attrs.attitude = 1)
    (hr : st.attrs.bodyAngVel = 0) :
    ∃ e theta, Spec.AtRest qc (tr.step (errorQuat st.attrs.attitude qc 0)) st e theta := by
  set x := errorQuat st.attrs.attitude qc 0 with hx
  set tr' := tr.step x with htr'
  have hm' : tr'.memory = 1 ∨ tr'.memory = -1 := trigger_step_pm hm x
  have hw' : tr'.halfWidth = 0.3 := by rw [htr', ← hw, Trigger.step]; split_ifs <;> rfl
  have hout : -0.3 < tr'.memory * x := by
    by_cases h : tr' = tr
    · by_contra hle
      refine trigger_switches hm (by rw [hw]; norm_num) (x := x) ?_ h
      rw [hw, mul_comm, ← h]; exact not_lt.1 hle
    · obtain ⟨j1, -, j3⟩ := trigger_switch hm (by rw [hw]; norm_num) h
      rw [j1, neg_mul, mul_comm]
      rw [hw] at j3
      linarith
  set p := tr'.memory • errorQuat st.attrs.attitude qc with hp
  have hpu : IsUnit4 p := by
    have h1 := errorQuat_unit ((isUnit4_iff _).2 hu) ((isUnit4_iff _).2 hqc)
    unfold IsUnit4 at h1 ⊢
    simp only [hp, Pi.smul_apply, smul_eq_mul]
    rcases hm' with h | h <;> rw [h] <;> linarith
  -- the axis
  obtain ⟨e, he, hv, hpos⟩ : ∃ e : V3, e ⬝ᵥ e = 1 ∧ vecPart p = (vecPart p ⬝ᵥ e) • e ∧ 0 ≤ vecPart p ⬝ᵥ e := by
    by_cases h0 : vecPart p = 0
    · refine ⟨![1, 0, 0], by simp [Matrix.vec3_dotProduct], ?_, ?_⟩ <;> rw [h0] <;> simp
    · have hd : 0 < vecPart p ⬝ᵥ vecPart p :=
        lt_of_le_of_ne (dot_self_nonneg3 _) fun h => h0 (dotProduct_self_eq_zero.1 h.symm)
      set r := Real.sqrt (vecPart p ⬝ᵥ vecPart p) with hr
      have hrp : 0 < r := Real.sqrt_pos.2 hd
      have hr2 : vecPart p ⬝ᵥ vecPart p = r ^ 2 := (Real.sq_sqrt hd.le).symm
      refine ⟨r⁻¹ • vecPart p, ?_, ?_, ?_⟩
      · rw [smul_dotProduct, dotProduct_smul, hr2]; simp only [smul_eq_mul]; field_simp
      · rw [dotProduct_smul, hr2, smul_smul]
        simp only [smul_eq_mul]
        rw [show r⁻¹ * r ^ 2 * r⁻¹ = 1 by field_simp, one_smul]
      · rw [dotProduct_smul, hr2]; simp only [smul_eq_mul]; positivity
  obtain ⟨theta, h1, h2, h3, -⟩ := offBy_of hpu he hv
  have ht := h3 hpos
  rw [abs_of_nonneg ht] at h2
  refine ⟨e, theta, he, hm', hw', ht, ?_, (signed_error hm' hqc).2 h1, hr⟩
  rw [h2]
  have hp0 : p 0 = tr'.memory * x := rfl
  have hle : p 0 ≤ 1 := (abs_le.1 (signed_unit_le hpu he).1).2
  have := Real.strictAntiOn_arccos (a := -0.3) (b := p 0) ⟨by norm_num, by norm_num⟩ ⟨by rw [hp0]; linarith, hle⟩
    (by rw [hp0]; exact hout)
  linarith

/-- The bound in degrees. -/
theorem C188_bound : 2 * Real.arccos (-0.3) < 215 * Real.pi / 180 := by
  have p1 := Real.pi_gt_d4
  have p2 := Real.pi_lt_d4
  set y := 35 * Real.pi / 360 with hy
  have y1 : 0.3054 < y := by rw [hy]; linarith
  have y2 : y < 0.3055 := by rw [hy]; linarith
  have hs : 0.3 < Real.sin y := by
    have h1 := Real.sin_gt_sub_cube (show 0 < y by linarith)
    have h2 : y ^ 3 ≤ 0.3055 ^ 3 := by gcongr
    norm_num at h2
    linarith
  have hc : Real.cos (y + Real.pi / 2) < -0.3 := by rw [Real.cos_add_pi_div_two]; linarith
  have h1 := Real.strictAntiOn_arccos (a := Real.cos (y + Real.pi / 2)) (b := -0.3)
    ⟨Real.neg_one_le_cos _, Real.cos_le_one _⟩ ⟨by norm_num, by norm_num⟩ hc
  rw [Real.arccos_cos (by linarith) (by linarith)] at h1
  linarith

/-- A stretch of the loop is a turn. -/
theorem flow_turn {c : RwController} {mass : ℝ} {dims : V3} {ab cd : ℝ} (hb : Built c.sat mass dims ab cd)
    (hm : mass ≠ 0) (hw : UnlimitedWheels c.sat) {qc : V4} (hqc : npNorm qc = 1) {tr : Trigger}
    (hs : tr.memory = 1 ∨ tr.memory = -1) {st : ℝ → SatState c.sat.rw.n} {T : ℝ}
    (hu : npNorm (st 0).attrs.attitude = 1)
    (hcq : ContinuousOn (fun τ => (st τ).attrs.attitude) (Set.Icc 0 T))
    (hcw : ContinuousOn (fun τ => (st τ).attrs.bodyAngVel) (Set.Icc 0 T))
    (h : ∀ τ ∈ Set.Ico 0 T, ∃ d, Spec.Instant c qc 0 tr tr (st τ) d ∧
        HasDerivAt (fun τ => (st τ).attrs.attitude) d.att τ ∧ HasDerivAt (fun τ => (st τ).attrs.bodyAngVel) d.rate τ) :
    TurnFlow c.alpha c.gamma (fun τ => tr.memory • errorQuat (st τ).attrs.attitude qc)
      (fun τ => (st τ).attrs.bodyAngVel) T := by
  have hdq : ∀ τ ∈ Set.Ico 0 T, HasDerivAt (fun τ => (st τ).attrs.attitude)
      ((0.5 : ℝ) • product (st τ).attrs.attitude (pureQ (st τ).attrs.bodyAngVel)) τ := by
    intro τ hτ
    obtain ⟨d, hi, hdq, -⟩ := h τ hτ
    rw [← (instant_eq hb hm hw hi).2.1]
    exact hdq
  have hunit : ∀ τ ∈ Set.Icc 0 T, npNorm (st τ).attrs.attitude = 1 := by
    intro τ hτ
    rw [← hu]
    exact norm_flow (q := fun τ => (st τ).attrs.attitude) (w := fun τ => (st τ).attrs.bodyAngVel) hτ.1
      (hcq.mono (Set.Icc_subset_Icc_right hτ.2)) fun σ hσ => hdq σ ⟨hσ.1, hσ.2.trans_le hτ.2⟩
  refine ⟨ContinuousOn.fun_const_smul ((errorQuat_continuous qc).comp_continuousOn hcq) _, hcw, ?_, ?_, ?_⟩
  · intro τ hτ
    have h1 := errorQuat_unit ((isUnit4_iff _).2 (hunit τ hτ)) ((isUnit4_iff _).2 hqc)
    unfold IsUnit4 at h1 ⊢
    simp only [Pi.smul_apply, smul_eq_mul]
    rcases hs with h | h <;> rw [h] <;> linarith
  · intro τ hτ
    have hp := (hasDerivAt_product (hasDerivAt_const τ (conjugate qc)) (hdq τ hτ)).const_smul tr.memory
    refine hp.congr_deriv ?_
    have z : product 0 (st τ).attrs.attitude = 0 := by
      apply vec4_ext <;> simp [product_0, product_1, product_2, product_3]
    rw [z, zero_add, (C04_product_bilinear _ _ 0 _).2.2.2, ← product_assoc, (C04_product_bilinear _ _ 0 _).2.2.1,
      smul_comm]
    rfl
  · intro τ hτ
    obtain ⟨d, hi, -, hdw⟩ := h τ hτ
    obtain ⟨-, -, x, hx, hr⟩ := instant_eq hb hm hw hi
    have hx0 : x = 0 := by
      by_contra hne
      exact absurd hx (not_le.2 (npNorm_pos hne))
    rw [hx0, add_zero] at hr
    rw [hr] at hdw
    refine hdw.congr_deriv ?_
    have e : vecPart (tr.memory • errorQuat (st τ).attrs.attitude qc) =
        tr.memory • vecPart (errorQuat (st τ).attrs.attitude qc) := by
      apply vec3_ext <;> simp only [vecPart_0, vecPart_1, vecPart_2, Pi.smul_apply]
    rw [e, smul_smul, show -c.alpha * tr.memory = -(tr.memory * c.alpha) by ring]

theorem turn_run (damping natFreq : ℝ) (hd : 0 < damping) (hn : 0 < natFreq) (c : RwController)
    (hal : c.alpha = 2 * natFreq ^ 2) (hga : c.gamma = 2 * damping * natFreq) {mass : ℝ} {dims : V3} {ab cd : ℝ}
    (hb : Built c.sat mass dims ab cd) (hm : mass ≠ 0) (hw : UnlimitedWheels c.sat) (qc : V4) (hqc : npNorm qc = 1)
    (tr0 : Trigger) (st0 : SatState c.sat.rw.n) (e : V3) (theta0 : ℝ) (h0 : Spec.AtRest qc tr0 st0 e theta0)
    (t : ℝ) (tr : Trigger) (st : SatState c.sat.rw.n) (k : ℕ) (hrun : Spec.LoopRun c qc 0 tr0 st0 t tr st k) :
    k = 0 ∧ tr = tr0 ∧ ∃ theta rate : ℝ, |theta| ≤ theta0 ∧
      st.attrs.attitude = tr0.memory • product qc (Spec.offBy e theta) ∧ st.attrs.bodyAngVel = rate • e ∧
      (1 ≤ damping → theta0 * Real.exp (-natFreq * t) ≤ theta ∧ rate ≤ 0) := by
  have ha : 0 < c.alpha := by rw [hal]; positivity
  have hg : 0 < c.gamma := by rw [hga]; positivity
  have hhw : 0 < tr0.halfWidth := by rw [h0.width]; norm_num
  have he := h0.axis
  have hp0 : tr0.memory • errorQuat st0.attrs.attitude qc = Spec.offBy e theta0 := (signed_error h0.sign hqc).1 h0.attitude
  have hpi : theta0 / 2 ∈ Set.Icc 0 Real.pi := by
    have := Real.arccos_le_pi (-0.3)
    exact ⟨by linarith [h0.nonneg], by linarith [h0.bound]⟩
  have hx0 : tr0.memory * errorQuat st0.attrs.attitude qc 0 = Real.cos (theta0 / 2) := congrFun hp0 0
  have hcos : -0.3 < Real.cos (theta0 / 2) := by
    have h1 := Real.strictAntiOn_cos hpi ⟨Real.arccos_nonneg _, Real.arccos_le_pi _⟩ (show theta0 / 2 < Real.arccos (-0.3) by linarith [h0.bound])
    rwa [Real.cos_arccos (by norm_num) (by norm_num)] at h1
  have hu0 : npNorm st0.attrs.attitude = 1 := by
    rw [← isUnit4_iff, h0.attitude]
    have h1 := isUnit4_product ((isUnit4_iff _).2 hqc) (offBy_unit he theta0)
    unfold IsUnit4 at h1 ⊢
    simp only [Pi.smul_apply, smul_eq_mul]
    rcases h0.sign with h | h <;> rw [h] <;> linarith
  -- the energy keeps the error below the one of the start
  have hen : ∀ {t tr st k}, Spec.LoopRun c qc 0 tr0 st0 t tr st k →
      npNorm st.attrs.attitude = 1 ∧ st.attrs.bodyAngVel ⬝ᵥ st.attrs.bodyAngVel / 2
        ≤ 2 * c.alpha * (tr.memory * errorQuat st.attrs.attitude qc 0 - Real.cos (theta0 / 2)) := by
    intro t tr st k h
    obtain ⟨-, j2, j3, -⟩ := C69_run hg.le ha hqc h0.sign hu0 (LoopRun.hybrid hb hm hw hhw h0.sign h).2.2
    refine ⟨j2, ?_⟩
    have hk : 0 ≤ 4 * c.alpha * tr0.halfWidth * k := by positivity
    unfold lyap at j3
    rw [h0.rest, hx0, zero_dotProduct] at j3
    linarith
  have hle : ∀ {t tr st k}, Spec.LoopRun c qc 0 tr0 st0 t tr st k →
      Real.cos (theta0 / 2) ≤ tr.memory * errorQuat st.attrs.attitude qc 0 := by
    intro t tr st k h
    have h1 := (hen h).2
    have h2 := dot_self_nonneg3 st.attrs.bodyAngVel
    by_contra hlt
    have := mul_neg_of_pos_of_neg ha (sub_neg.2 (not_le.1 hlt))
    linarith
  -- the invariant
  have key : k = 0 ∧ tr = tr0 ∧
      across e (vecPart (tr0.memory • errorQuat st.attrs.attitude qc)) st.attrs.bodyAngVel ≤ 0 ∧
      (1 ≤ damping → 0 < theta0 → 0 < vecPart (tr0.memory • errorQuat st.attrs.attitude qc) ⬝ᵥ e ∧
        st.attrs.bodyAngVel ⬝ᵥ e ≤ 0 ∧
        0 ≤ st.attrs.bodyAngVel ⬝ᵥ e + 2 * natFreq * Real.arccos (tr0.memory * errorQuat st.attrs.attitude qc 0) ∧
        Real.exp (-natFreq * t) * (theta0 / 2) ≤ Real.arccos (tr0.memory * errorQuat st.attrs.attitude qc 0)) := by
    induction hrun with
    | start =>
      have hv : vecPart (tr0.memory • errorQuat st0.attrs.attitude qc) = Real.sin (theta0 / 2) • e := by
        rw [hp0]
        apply vec3_ext <;> simp [vecPart_0, vecPart_1, vecPart_2, Spec.offBy, cons4_2, cons4_3]
      refine ⟨rfl, rfl, ?_, fun _ hpos => ?_⟩
      · rw [hv, h0.rest]
        unfold across
        simp only [smul_dotProduct, dotProduct_smul, he, zero_dotProduct, smul_eq_mul]
        ring_nf; rfl
      · rw [hv, h0.rest, hx0, Real.arccos_cos hpi.1 hpi.2, smul_dotProduct, he, zero_dotProduct]
        refine ⟨?_, le_rfl, ?_, ?_⟩
        · simp only [smul_eq_mul, mul_one]
          refine Real.sin_pos_of_pos_of_lt_pi (by linarith) ?_
          have := Real.arccos_le_pi (-0.3)
          linarith [h0.bound]
        · have := hpi.1; positivity
        · simp
    | @flow t tr n st T hT hprev hcq hcw hstep ih =>
      obtain ⟨i1, i2, i3, i4⟩ := ih
      subst i2
      have hF := flow_turn hb hm hw hqc h0.sign (hen hprev).1 hcq hcw hstep
      refine ⟨i1, rfl, axis_flow ha.le hg.le hF he i3 ⟨hT, le_rfl⟩, fun hd1 hpos => ?_⟩
      obtain ⟨j1, j2, j3, j4⟩ := i4 hd1 hpos
      have hP := hF.plane ha.le hg.le he i3
      rw [hal, hga] at hP
      have hsin := fun {τ} hτ => hP.direct hn hd1 j1 j2 j3 (t := τ) hτ
      obtain ⟨m1, -, m2⟩ := hP.ahead hn hT (fun τ hτ => hsin ⟨hτ.1, hτ.2.le⟩) j2
      obtain ⟨m3, m4⟩ := m2 hd1 j3
      refine ⟨hsin ⟨hT, le_rfl⟩, m1, m3, le_trans ?_ m4⟩
      calc Real.exp (-natFreq * (t + T)) * (theta0 / 2)
          = Real.exp (-natFreq * T) * (Real.exp (-natFreq * t) * (theta0 / 2)) := by
            rw [← mul_assoc, ← Real.exp_add]; ring_nf
        _ ≤ _ := mul_le_mul_of_nonneg_left j4 (Real.exp_pos _).le
    | @switch t tr tr' n st d hprev hi hne ih =>
      obtain ⟨i1, i2, -, -⟩ := ih
      subst i2
      have hst := (instant_eq hb hm hw hi).1
      obtain ⟨-, -, j3⟩ := trigger_switch h0.sign hhw (x := errorQuat st.attrs.attitude qc 0) (hst ▸ hne)
      have := hle hprev
      rw [h0.width, mul_comm] at j3
      linarith
  obtain ⟨k1, k2, k3, k4⟩ := key
  subst k2
  refine ⟨k1, rfl, ?_⟩
  obtain ⟨z1, z2⟩ := across_zero he k3
  set p := tr.memory • errorQuat st.attrs.attitude qc with hp
  have hpu : IsUnit4 p := by
    have h1 := errorQuat_unit ((isUnit4_iff _).2 (hen hrun).1) ((isUnit4_iff _).2 hqc)
    unfold IsUnit4 at h1 ⊢
    simp only [hp, Pi.smul_apply, smul_eq_mul]
    rcases h0.sign with h | h <;> rw [h] <;> linarith
  obtain ⟨theta, q1, q2, q3, q4⟩ := offBy_of hpu he z1
  have hpx : p 0 = tr.memory * errorQuat st.attrs.attitude qc 0 := rfl
  have hab : |theta| ≤ theta0 := by
    rw [q2]
    have h1 : Real.arccos (p 0) ≤ Real.arccos (Real.cos (theta0 / 2)) := Real.antitone_arccos (hle hrun)
    rw [Real.arccos_cos hpi.1 hpi.2] at h1
    linarith
  refine ⟨theta, _, hab, (signed_error h0.sign hqc).2 q1, z2, fun hd1 => ?_⟩
  rcases h0.nonneg.lt_or_eq with hpos | hz
  · obtain ⟨j1, j2, -, j4⟩ := k4 hd1 hpos
    refine ⟨?_, j2⟩
    have := q3 j1.le
    rw [abs_of_nonneg this] at q2
    rw [q2, hpx]
    linarith
  · rw [← hz] at hab ⊢
    have ht0 : theta = 0 := abs_eq_zero.1 (le_antisymm hab (abs_nonneg _))
    refine ⟨by rw [ht0, zero_mul], ?_⟩
    have h1 := (hen hrun).2
    rw [← hz, zero_div, Real.cos_zero] at h1
    have h2 : tr.memory * errorQuat st.attrs.attitude qc 0 ≤ 1 := by
      rw [← hpx]; exact (abs_le.1 (signed_unit_le hpu he).1).2
    have h3 : 2 * c.alpha * (tr.memory * errorQuat st.attrs.attitude qc 0 - 1) ≤ 0 :=
      mul_nonpos_of_nonneg_of_nonpos (by positivity) (by linarith)
    have h4 := dot_self_nonneg3 st.attrs.bodyAngVel
    have h5 : st.attrs.bodyAngVel = 0 := dotProduct_self_eq_zero.1 (le_antisymm (by linarith) h4)
    rw [h5, zero_dotProduct]

/-- From rest the sign of the trigger never changes, the satellite turns about the one axis `e` and is never farther
from the command than at the start; with damping of at least 1 it never passes the command and always turns towards it. -/
theorem C188_turn (model : CtlModel) (damping natFreq : ℝ) (hd : 0 < damping) (hn : 0 < natFreq) (c : RwController)
    (hc : RwController.init model damping natFreq = .ok c) (av : Bool) {mass : ℝ} {dims : V3} {ab cd : ℝ}
    (hb : Built c.sat mass dims ab cd) (hm : mass ≠ 0) (hw : UnlimitedWheels c.sat) (qc : V4) (hqc : npNorm qc = 1)
    (tr0 : Trigger) (st0 : SatState c.sat.rw.n) (e : V3) (theta0 : ℝ) (h0 : Spec.AtRest qc tr0 st0 e theta0)
    (t : ℝ) (tr : Trigger) (st : SatState c.sat.rw.n) (k : ℕ) (hrun : Spec.LoopRun { c with objAvoidance := av } qc 0 tr0 st0 t tr st k) :
    k = 0 ∧ tr = tr0 ∧ ∃ theta rate : ℝ, |theta| ≤ theta0 ∧
      st.attrs.attitude = tr0.memory • product qc (Spec.offBy e theta) ∧ st.attrs.bodyAngVel = rate • e ∧
      (1 ≤ damping → theta0 * Real.exp (-natFreq * t) ≤ theta ∧ rate ≤ 0) := by
  obtain ⟨-, hal, hga, -, -, -⟩ := C69_gains model damping natFreq c hc
  exact turn_run damping natFreq hd hn { c with objAvoidance := av } hal hga hb hm hw qc hqc tr0 st0 e theta0 h0 t tr st k hrun

/-- With damping below 1 every turn from rest passes the command. -/
theorem C188_overshoot (model : CtlModel) (damping natFreq : ℝ) (hd : 0 < damping) (hd1 : damping < 1) (hn : 0 < natFreq)
    (c : RwController) (hc : RwController.init model damping natFreq = .ok c) (av : Bool) {mass : ℝ} {dims : V3} {ab cd : ℝ}
    (hb : Built c.sat mass dims ab cd) (hm : mass ≠ 0) (hw : UnlimitedWheels c.sat) (qc : V4) (hqc : npNorm qc = 1)
    (tr : Trigger) (st : ℝ → SatState c.sat.rw.n) (e : V3) (theta0 : ℝ) (h0 : Spec.AtRest qc tr (st 0) e theta0)
    (hpos : 0 < theta0)
    (h : ∀ τ, 0 ≤ τ → ∃ d, Spec.Instant { c with objAvoidance := av } qc 0 tr tr (st τ) d ∧
        HasDerivAt (fun τ => (st τ).attrs.attitude) d.att τ ∧ HasDerivAt (fun τ => (st τ).attrs.bodyAngVel) d.rate τ) :
    ∃ t > 0, ∃ theta < 0, (st t).attrs.attitude = tr.memory • product qc (Spec.offBy e theta) := by
  obtain ⟨ha, hal, hga, hhw, hmem, -⟩ := C69_gains model damping natFreq c hc
  have hg : 0 < c.gamma := by rw [hga]; positivity
  have he := h0.axis
  have hp0 : tr.memory • errorQuat (st 0).attrs.attitude qc = Spec.offBy e theta0 := (signed_error h0.sign hqc).1 h0.attitude
  have hv : vecPart (tr.memory • errorQuat (st 0).attrs.attitude qc) = Real.sin (theta0 / 2) • e := by
    rw [hp0]
    apply vec3_ext <;> simp [vecPart_0, vecPart_1, vecPart_2, Spec.offBy, cons4_2, cons4_3]
  have hu0 : npNorm (st 0).attrs.attitude = 1 := by
    rw [← isUnit4_iff, h0.attitude]
    have h1 := isUnit4_product ((isUnit4_iff _).2 hqc) (offBy_unit he theta0)
    unfold IsUnit4 at h1 ⊢
    simp only [Pi.smul_apply, smul_eq_mul]
    rcases h0.sign with h | h <;> rw [h] <;> linarith
  have hac : across e (vecPart (tr.memory • errorQuat (st 0).attrs.attitude qc)) (st 0).attrs.bodyAngVel ≤ 0 := by
    rw [hv, h0.rest]
    unfold across
    simp only [smul_dotProduct, dotProduct_smul, he, zero_dotProduct, smul_eq_mul]
    ring_nf; rfl
  have hF : ∀ T, 0 ≤ T → TurnFlow c.alpha c.gamma (fun τ => tr.memory • errorQuat (st τ).attrs.attitude qc)
      (fun τ => (st τ).attrs.bodyAngVel) T := fun T hT =>
    flow_turn (c := { c with objAvoidance := av }) hb hm hw hqc h0.sign hu0
      (fun τ hτ => by obtain ⟨d, -, hd, -⟩ := h τ hτ.1; exact hd.continuousAt.continuousWithinAt)
      (fun τ hτ => by obtain ⟨d, -, -, hd⟩ := h τ hτ.1; exact hd.continuousAt.continuousWithinAt)
      fun τ hτ => h τ hτ.1
  have hP : ∀ T, 0 ≤ T → PlaneFlow (2 * natFreq ^ 2) (2 * damping * natFreq)
      (fun τ => (tr.memory • errorQuat (st τ).attrs.attitude qc) 0)
      (fun τ => vecPart (tr.memory • errorQuat (st τ).attrs.attitude qc) ⬝ᵥ e) (fun τ => (st τ).attrs.bodyAngVel ⬝ᵥ e) T := by
    intro T hT
    have := (hF T hT).plane ha.le hg.le he hac
    rwa [hal, hga] at this
  -- the trigger is one of the controller's
  have htr : tr = c.trigger ∨ ∃ x, tr = c.trigger.step x := by
    obtain ⟨m, w⟩ := tr
    have h1 := h0.sign
    have h2 := h0.width
    simp only at h1 h2
    rcases hcd : c.trigger with ⟨m', w'⟩
    rw [hcd] at hhw hmem
    simp only at hhw hmem
    subst hhw hmem h2
    rcases h1 with rfl | rfl
    · exact .inl rfl
    · refine .inr ⟨-1, ?_⟩
      rw [Trigger.step, if_pos (by norm_num)]
      simp [npSign]
  have hlim := (C140_limit model damping natFreq hd hn c hc av hb hm hw qc hqc tr htr st hu0 h).2
  have hx : Filter.Tendsto (fun τ => (tr.memory • errorQuat (st τ).attrs.attitude qc) 0) Filter.atTop (𝓝 1) := by
    have h1 := (hlim.pow 2).const_mul (1 / 2) |>.const_sub 1
    simp only [ne_eq, OfNat.ofNat_ne_zero, not_false_eq_true, zero_pow, mul_zero, sub_zero] at h1
    refine h1.congr' ?_
    filter_upwards [Filter.eventually_ge_atTop 0] with t ht
    have hut : npNorm (st t).attrs.attitude = 1 := by
      rw [← hu0]
      refine norm_flow (q := fun τ => (st τ).attrs.attitude) (w := fun τ => (st τ).attrs.bodyAngVel) ht
        (fun τ hτ => by obtain ⟨d, -, hd, -⟩ := h τ hτ.1; exact hd.continuousAt.continuousWithinAt) fun σ hσ => ?_
      obtain ⟨d, hi, hdq, -⟩ := h σ hσ.1
      rw [← (instant_eq (c := { c with objAvoidance := av }) hb hm hw hi).2.1]
      exact hdq
    rw [quat_dist h0.sign hut hqc]
    simp only [Pi.smul_apply, smul_eq_mul]
    ring
  obtain ⟨t1, ht1, hle⟩ := PlaneFlow.reaches hn hd hd1 hP hx
  have hpi := Real.arccos_le_pi (-0.3)
  obtain ⟨t, ht, hneg, -⟩ := (hP (t1 + 1) (by linarith)).crosses hn (by
      simp only [hv, smul_dotProduct, he, smul_eq_mul, mul_one]
      exact Real.sin_pos_of_pos_of_lt_pi (by linarith) (by linarith [h0.bound]))
    (by simp only [h0.rest, zero_dotProduct, le_refl]) ⟨ht1, by linarith⟩ hle
  have hFt := hF (t1 + 1) (by linarith)
  have z1 := (across_zero he (axis_flow ha.le hg.le hFt he hac ⟨ht.1.le, ht.2.le⟩)).1
  obtain ⟨theta, q1, -, -, q4⟩ := offBy_of (hFt.unit t ⟨ht.1.le, ht.2.le⟩) he z1
  refine ⟨t, ht.1, theta, lt_of_le_of_ne (q4 hneg) fun h => ?_, (signed_error h0.sign hqc).2 q1⟩
  simp only [q1, h] at hneg
  have : vecPart (Spec.offBy e 0) = 0 := by
    apply vec3_ext <;> simp [vecPart_0, vecPart_1, vecPart_2, Spec.offBy, cons4_2, cons4_3]
  rw [this, zero_dotProduct] at hneg
  exact lt_irrefl _ hneg

/-! ## Motions that go on for ever -/

/-- Solutions over a common time that end where others start are put together. -/
theorem global_of_local {f : V4 × V3 → V4 × V3} {K : Set (V4 × V3)} {ε : ℝ} (hε : 0 < ε)
    (h : ∀ x ∈ K, ∃ y : ℝ → V4 × V3, y 0 = x ∧ (∀ t ∈ Set.Icc (-ε) ε, HasDerivAt y (f (y t)) t) ∧ y ε ∈ K)
    (x : V4 × V3) (hx : x ∈ K) : ∃ Y : ℝ → V4 × V3, Y 0 = x ∧ ∀ t, 0 ≤ t → HasDerivAt Y (f (Y t)) t := by
  choose! sol h1 h2 h3 using h
  set X : ℕ → V4 × V3 := fun k => Nat.rec x (fun _ z => sol z ε) k with hX
  have hXs : ∀ k, X (k + 1) = sol (X k) ε := fun k => rfl
  have hXK : ∀ k, X k ∈ K := by
    intro k
    induction k with
    | zero => exact hx
    | succ k ih => rw [hXs]; exact h3 _ ih
  set Y : ℝ → V4 × V3 := fun t => sol (X ⌊t / ε⌋₊) (t - ⌊t / ε⌋₊ * ε) with hY
  -- on the piece `k`
  have hpiece : ∀ (k : ℕ) (t : ℝ), k * ε ≤ t → t < (k + 1) * ε → Y t = sol (X k) (t - k * ε) := by
    intro k t a b
    have : ⌊t / ε⌋₊ = k := by
      rw [Nat.floor_eq_iff (div_nonneg ((by positivity : (0:ℝ) ≤ k * ε).trans a) hε.le)]
      exact ⟨by rwa [le_div_iff₀ hε], by rwa [div_lt_iff₀ hε]⟩
    simp only [hY, this]
  have hend : ∀ (k : ℕ), Y ((k + 1) * ε) = sol (X k) ((k + 1) * ε - k * ε) := by
    intro k
    have := hpiece (k + 1) ((k + 1) * ε) (by push_cast; exact le_rfl) (by push_cast; nlinarith)
    rw [this, hXs, show (k + 1 : ℝ) * ε - (k + 1 : ℕ) * ε = 0 by push_cast; ring, h1 _ (h3 _ (hXK k)),
      show (k + 1 : ℝ) * ε - k * ε = ε by ring]
  have hneg : ∀ t, t < ε → Y t = sol (X 0) t := by
    intro t ht
    have : ⌊t / ε⌋₊ = 0 := Nat.floor_eq_zero.2 (by rwa [div_lt_one hε])
    simp only [hY, this, Nat.cast_zero, zero_mul, sub_zero]
  have hdsol : ∀ (k : ℕ) (t : ℝ), k * ε - ε ≤ t → t ≤ (k + 1) * ε →
      HasDerivAt (fun t => sol (X k) (t - k * ε)) (f (sol (X k) (t - k * ε))) t := by
    intro k t a b
    exact (h2 _ (hXK k) (t - k * ε) ⟨by linarith, by linarith⟩).comp_sub_const t (k * ε)
  refine ⟨Y, ?_, fun t ht => ?_⟩
  · rw [hneg 0 hε]; exact h1 _ hx
  set k := ⌊t / ε⌋₊ with hk
  have ka : k * ε ≤ t := by rw [← le_div_iff₀ hε]; exact Nat.floor_le (by positivity)
  have kb : t < (k + 1) * ε := by rw [← div_lt_iff₀ hε]; exact Nat.lt_floor_add_one _
  have hYt := hpiece k t ka kb
  have hright : HasDerivWithinAt Y (f (Y t)) (Set.Ici t) t := by
    rw [hYt]
    refine (hdsol k t (by linarith) kb.le).hasDerivWithinAt.congr_of_eventuallyEq ?_ hYt
    have : Set.Iio ((k + 1) * ε) ∈ nhds t := Iio_mem_nhds kb
    filter_upwards [nhdsWithin_le_nhds this, self_mem_nhdsWithin] with s hs hs'
    exact hpiece k s (ka.trans hs') hs
  have hleft : HasDerivWithinAt Y (f (Y t)) (Set.Iic t) t := by
    rcases ka.lt_or_eq with hlt | heq
    · rw [hYt]
      refine (hdsol k t (by linarith) kb.le).hasDerivWithinAt.congr_of_eventuallyEq ?_ hYt
      have : Set.Ioi (k * ε) ∈ nhds t := Ioi_mem_nhds hlt
      filter_upwards [nhdsWithin_le_nhds this, self_mem_nhdsWithin] with s hs hs'
      exact hpiece k s (le_of_lt hs) (lt_of_le_of_lt hs' kb)
    · rcases Nat.eq_zero_or_pos k with h0 | hpos
      · have ht0 : t = 0 := by rw [← heq, h0]; simp
        have e0 : Y t = sol (X 0) t := hneg t (by rw [ht0]; exact hε)
        rw [e0]
        refine (h2 _ (hXK 0) t ⟨by linarith, by rw [ht0]; exact hε.le⟩).hasDerivWithinAt.congr_of_eventuallyEq ?_ e0
        filter_upwards [self_mem_nhdsWithin] with s hs
        have hs' : s ≤ t := hs
        exact hneg s (by linarith)
      · obtain ⟨j, hj⟩ := Nat.exists_eq_succ_of_ne_zero hpos.ne'
        have htj : t = (j + 1) * ε := by rw [← heq, hj]; push_cast; ring
        have e0 : Y t = sol (X j) (t - j * ε) := by rw [htj]; exact hend j
        rw [e0]
        refine (hdsol j t (by rw [htj]; nlinarith) htj.le).hasDerivWithinAt.congr_of_eventuallyEq ?_ e0
        have : Set.Ioi (j * ε) ∈ nhds t := Ioi_mem_nhds (by rw [htj]; nlinarith)
        filter_upwards [nhdsWithin_le_nhds this, self_mem_nhdsWithin] with s hs hs'
        rcases (show s ≤ t from hs').lt_or_eq with hlt | heq'
        · exact hpiece j s (le_of_lt hs) (by rw [← htj]; exact hlt)
        · rw [heq']; exact e0
  have := hleft.union hright
  rwa [Set.Iic_union_Ici, hasDerivWithinAt_univ] at this

/-- From every state of rest there is a motion that goes on for ever, without a switch: so `C188_overshoot` is not empty. -/
theorem C188_motion (c : RwController) (ha : 0 < c.alpha) (hg : 0 ≤ c.gamma) {mass : ℝ} {dims : V3} {ab cd : ℝ}
    (hb : Built c.sat mass dims ab cd) (hm : mass ≠ 0) (hw : UnlimitedWheels c.sat) (hav : c.objAvoidance = false)
    (s0 : Measurements c.sat.rw.n) (objs0 : List V3) (hobj : c.objects s0 = .ok objs0) (qc : V4) (hqc : npNorm qc = 1)
    (tr : Trigger) (st0 : SatState c.sat.rw.n) (e : V3) (theta0 : ℝ) (h0 : Spec.AtRest qc tr st0 e theta0) :
    ∃ st : ℝ → SatState c.sat.rw.n, st 0 = st0 ∧ ∀ τ, 0 ≤ τ → ∃ d, Spec.Instant c qc 0 tr tr (st τ) d ∧
      HasDerivAt (fun τ => (st τ).attrs.attitude) d.att τ ∧ HasDerivAt (fun τ => (st τ).attrs.bodyAngVel) d.rate τ := by
  have he := h0.axis
  have hp0 : tr.memory • errorQuat st0.attrs.attitude qc = Spec.offBy e theta0 := (signed_error h0.sign hqc).1 h0.attitude
  have hx0 : tr.memory * errorQuat st0.attrs.attitude qc 0 = Real.cos (theta0 / 2) := congrFun hp0 0
  have hcos : -0.3 < Real.cos (theta0 / 2) := by
    have := Real.arccos_le_pi (-0.3)
    have h1 := Real.strictAntiOn_cos (a := theta0 / 2) (b := Real.arccos (-0.3)) ⟨by linarith [h0.nonneg], by linarith [h0.bound]⟩
      ⟨Real.arccos_nonneg _, Real.arccos_le_pi _⟩ (by linarith [h0.bound])
    rwa [Real.cos_arccos (by norm_num) (by norm_num)] at h1
  have hu0 : npNorm st0.attrs.attitude = 1 := by
    rw [← isUnit4_iff, h0.attitude]
    have h1 := isUnit4_product ((isUnit4_iff _).2 hqc) (offBy_unit he theta0)
    unfold IsUnit4 at h1 ⊢
    simp only [Pi.smul_apply, smul_eq_mul]
    rcases h0.sign with h | h <;> rw [h] <;> linarith
  set V0 := lyap c.alpha tr.memory (errorQuat st0.attrs.attitude qc 0) st0.attrs.bodyAngVel with hV0
  set f := loopField c.alpha c.gamma tr.memory qc with hf
  set K : Set (V4 × V3) := {x | npNorm x.1 = 1 ∧ lyap c.alpha tr.memory (errorQuat x.1 qc 0) x.2 ≤ V0} with hK
  -- the energy does not grow
  have hinv : ∀ (y : ℝ → V4 × V3) (T : ℝ), 0 ≤ T → y 0 ∈ K → (∀ t ∈ Set.Icc 0 T, HasDerivAt y (f (y t)) t) → y T ∈ K := by
    intro y T hT hy0 hy
    have hr : HybridRun c.alpha c.gamma 0 qc tr.memory (y 0).1 (y 0).2 tr.memory (y T).1 (y T).2 0 :=
      HybridRun.flow (fun τ => (y τ).1) (fun τ => (y τ).2) T hT .start
        (fun τ hτ => (hy τ hτ).continuousAt.fst.continuousWithinAt)
        (fun τ hτ => (hy τ hτ).continuousAt.snd.continuousWithinAt)
        (fun τ hτ => (hy τ ⟨hτ.1, hτ.2.le⟩).fst) (fun τ hτ => (hy τ ⟨hτ.1, hτ.2.le⟩).snd)
    obtain ⟨-, j2, j3, -⟩ := C69_run hg ha hqc h0.sign hy0.1 hr
    simp only [Nat.cast_zero, mul_zero, add_zero] at j3
    exact ⟨j2, j3.trans hy0.2⟩
  set R := Real.sqrt (2 * V0)
  have hsub : K ⊆ Metric.closedBall 0 1 ×ˢ Metric.closedBall 0 R := by
    rintro ⟨q, w⟩ ⟨j2, j3⟩
    simp only at j2 j3
    refine ⟨?_, ?_⟩
    · rw [mem_closedBall_zero_iff]
      refine (pi_norm_le_iff_of_nonneg zero_le_one).2 fun i => ?_
      have hu' := (isUnit4_iff _).2 j2
      unfold IsUnit4 at hu'
      rw [Real.norm_eq_abs]
      apply abs_le_one_iff_mul_self_le_one.2
      fin_cases i <;> simp only [Fin.zero_eta, Fin.mk_one, Fin.reduceFinMk] <;>
        nlinarith [sq_nonneg (q 0), sq_nonneg (q 1), sq_nonneg (q 2), sq_nonneg (q 3)]
    · rw [mem_closedBall_zero_iff]
      refine (pi_norm_le_iff_of_nonneg (Real.sqrt_nonneg _)).2 fun i => ?_
      rw [Real.norm_eq_abs]
      apply Real.abs_le_sqrt
      have hd := quat_dist h0.sign j2 hqc
      have hpos : 0 ≤ 2 * c.alpha * (1 - tr.memory * errorQuat q qc 0) := by
        have := sq_nonneg (npNorm (q - tr.memory • qc))
        have h2 : 0 ≤ 1 - tr.memory * errorQuat q qc 0 := by linarith
        positivity
      have hle : w ⬝ᵥ w ≤ 2 * V0 := by
        unfold lyap at j3
        linarith
      rw [Matrix.vec3_dotProduct] at hle
      fin_cases i <;> simp only [Fin.zero_eta, Fin.mk_one, Fin.reduceFinMk] <;>
        nlinarith [sq_nonneg (w 0), sq_nonneg (w 1), sq_nonneg (w 2)]
  obtain ⟨E, hE, hsol⟩ := uniform_time (loopField_contDiff c.alpha c.gamma tr.memory qc)
    ((isCompact_closedBall (0 : V4) 1).prod (isCompact_closedBall (0 : V3) R))
  obtain ⟨Y, hY0, hY⟩ := global_of_local (f := f) (K := K) (ε := E / 2) (by linarith) (fun x hx => by
    obtain ⟨y, y0, hy⟩ := hsol x (hsub hx)
    have hy' : ∀ t ∈ Set.Icc (-(E / 2)) (E / 2), HasDerivAt y (f (y t)) t := fun t ht => hy t ⟨by linarith [ht.1], by linarith [ht.2]⟩
    exact ⟨y, y0, hy', hinv y (E / 2) (by linarith) (y0 ▸ hx) fun t ht => hy' t ⟨by linarith [ht.1], ht.2⟩⟩)
    (st0.attrs.attitude, st0.attrs.bodyAngVel) ⟨hu0, le_rfl⟩
  refine ⟨fun τ => withMotion st0 (Y τ), by simp only [hY0]; rfl, fun τ hτ => ?_⟩
  obtain ⟨k1, k2⟩ := hinv Y τ hτ (hY0 ▸ ⟨hu0, le_rfl⟩) fun t ht => hY t ht.1
  have hhold : -tr.halfWidth < errorQuat (Y τ).1 qc 0 * tr.memory := by
    rw [h0.width, mul_comm]
    unfold lyap at k2 hV0
    rw [h0.rest, hx0, zero_dotProduct] at hV0
    have hw2 := dot_self_nonneg3 (Y τ).2
    by_contra hle
    have := mul_neg_of_pos_of_neg ha (show tr.memory * errorQuat (Y τ).1 qc 0 - Real.cos (theta0 / 2) < 0 by linarith)
    linarith
  obtain ⟨d, hi, hd⟩ := instant_exists c hb hm hw hav s0 objs0 hobj qc tr (withMotion st0 (Y τ))
  have hst : tr.step (errorQuat (withMotion st0 (Y τ)).attrs.attitude qc 0) = tr := step_hold hhold
  rw [hst] at hi hd
  have hd' := hY τ hτ
  have e1 : f (Y τ) = (d.att, d.rate) := hd.symm
  rw [e1] at hd'
  exact ⟨d, hi, hd'.fst, hd'.snd⟩

/-- A concrete controller with damping 1 and its satellite, which rests 2 arccos (-0.28) from the command, more than half
a turn away: there is a run of an hour, in which it does not turn back but goes the long way. -/
example : ∃ (model : CtlModel) (c : RwController) (qc : V4) (st : SatState c.sat.rw.n) (theta0 : ℝ) (tr : Trigger)
    (st' : SatState c.sat.rw.n) (n : ℕ),
    RwController.init model 1 1 = .ok c ∧ Built c.sat 2 ![0.1, 0.1, 0.2] 0.8 2.2 ∧ UnlimitedWheels c.sat ∧
    npNorm qc = 1 ∧ Real.pi < theta0 ∧ Spec.AtRest qc c.trigger st ![0.6, 0, 0.8] theta0 ∧
    Spec.LoopRun { c with objAvoidance := false } qc 0 c.trigger st 3600 tr st' n := by
  obtain ⟨model, c, st, s, objs, hc, hb, hw, hav, hs, hobj, hn, hrate, -⟩ := exLoop 0 0 []
  obtain ⟨ha, -, hga, hhw, hmem, -⟩ := C69_gains model 1 1 c hc
  have hu : npNorm st.attrs.attitude = 1 := by rw [← hs.1]; exact hn
  have he : (![0.6, 0, 0.8] : V3) ⬝ᵥ ![0.6, 0, 0.8] = 1 := by norm_num [Matrix.vec3_dotProduct]
  set theta0 := 2 * Real.arccos (-0.28) with ht
  set E := Spec.offBy ![0.6, 0, 0.8] theta0 with hE
  have hEu : IsUnit4 E := offBy_unit he _
  set qc := product st.attrs.attitude (conjugate E) with hqc
  have hqcu : npNorm qc = 1 := (isUnit4_iff _).1 (isUnit4_product ((isUnit4_iff _).2 hu) (isUnit4_conjugate hEu))
  obtain ⟨tr, st', n, hr⟩ := C140_exists { c with objAvoidance := false } ha (by simp only [hga]; norm_num) hb (by norm_num) hw
    rfl s objs hobj qc hqcu c.trigger (by rw [hhw]; norm_num) (.inl hmem) st hu 3600 (by norm_num)
  refine ⟨model, c, qc, st, theta0, tr, st', n, hc, hb, hw, hqcu, ?_, ⟨he, .inl hmem, hhw, ?_, ?_, ?_, ?_⟩, hr⟩
  · have := Real.strictAntiOn_arccos (a := -0.28) (b := 0) ⟨by norm_num, by norm_num⟩ ⟨by norm_num, by norm_num⟩ (by norm_num)
    rw [Real.arccos_zero] at this
    linarith
  · have := Real.arccos_nonneg (-0.28); positivity
  · have := Real.strictAntiOn_arccos (a := -0.3) (b := -0.28) ⟨by norm_num, by norm_num⟩ ⟨by norm_num, by norm_num⟩ (by norm_num)
    linarith
  · rw [hmem, one_smul, hqc, product_assoc, conj_product_self hEu, product_one]
  · rw [← hs.2.1]; exact hrate

/-- A concrete motion for `C188_overshoot`: the same with the traditional damping 0.707, half a turn away. -/
example : ∃ (model : CtlModel) (c : RwController) (qc : V4) (st : ℝ → SatState c.sat.rw.n),
    RwController.init model 0.707 1 = .ok c ∧ Built c.sat 2 ![0.1, 0.1, 0.2] 0.8 2.2 ∧ UnlimitedWheels c.sat ∧
    npNorm qc = 1 ∧ Spec.AtRest qc c.trigger (st 0) ![0.6, 0, 0.8] Real.pi ∧
    ∀ τ, 0 ≤ τ → ∃ d, Spec.Instant { c with objAvoidance := false } qc 0 c.trigger c.trigger (st τ) d ∧
      HasDerivAt (fun τ => (st τ).attrs.attitude) d.att τ ∧ HasDerivAt (fun τ => (st τ).attrs.bodyAngVel) d.rate τ := by
  obtain ⟨model, c0, st0, s, objs, hc0, hb, hw, -, hs, hobj, hn, hrate, -⟩ := exLoop 0 0 []
  obtain ⟨ck, hck⟩ : ∃ ck, model.clock = some ck := by
    cases hk : model.clock with
    | some ck => exact ⟨ck, rfl⟩
    | none => rw [RwController.init, hk] at hc0; cases hc0
  rw [RwController.init, hck] at hc0
  simp only at hc0
  rw [if_neg (by norm_num)] at hc0
  cases hc0
  obtain ⟨c, hc, hsat, hclk, hsun⟩ : ∃ c, RwController.init model 0.707 1 = .ok c ∧ c.sat = model.sat ∧ c.clock = ck ∧
      c.sunVector = model.sunVector := by
    rw [RwController.init, hck]
    simp only
    rw [if_neg (by norm_num)]
    exact ⟨_, rfl, rfl, rfl, rfl⟩
  obtain ⟨sat, clk, sun, av, trg, al, ga, ins⟩ := c
  simp only at hsat hclk hsun
  subst hsat hclk hsun
  obtain ⟨ha, -, hga, hhw, hmem, -⟩ := C69_gains model 0.707 1 _ hc
  have hu : npNorm st0.attrs.attitude = 1 := by rw [← hs.1]; exact hn
  have he : (![0.6, 0, 0.8] : V3) ⬝ᵥ ![0.6, 0, 0.8] = 1 := by norm_num [Matrix.vec3_dotProduct]
  set E := Spec.offBy ![0.6, 0, 0.8] Real.pi with hE
  have hEu : IsUnit4 E := offBy_unit he _
  set qc := product st0.attrs.attitude (conjugate E) with hqc
  have hqcu : npNorm qc = 1 := (isUnit4_iff _).1 (isUnit4_product ((isUnit4_iff _).2 hu) (isUnit4_conjugate hEu))
  have h0 : Spec.AtRest qc trg st0 ![0.6, 0, 0.8] Real.pi := by
    refine ⟨he, .inl hmem, hhw, Real.pi_pos.le, ?_, ?_, ?_⟩
    · have := Real.strictAntiOn_arccos (a := -0.3) (b := 0) ⟨by norm_num, by norm_num⟩ ⟨by norm_num, by norm_num⟩ (by norm_num)
      rw [Real.arccos_zero] at this
      linarith
    · rw [show trg.memory = 1 from hmem, one_smul, hqc, product_assoc, conj_product_self hEu, product_one]
    · rw [← hs.2.1]; exact hrate
  obtain ⟨st, hst, hmot⟩ := C188_motion ⟨model.sat, clk, model.sunVector, false, trg, al, ga, ins⟩ ha
    (by simp only at hga ⊢; rw [hga]; norm_num) hb (by norm_num) hw rfl s objs hobj qc hqcu trg st0 _ _ h0
  exact ⟨model, ⟨model.sat, clk, model.sunVector, av, trg, al, ga, ins⟩, qc, st, hc, hb, hw, hqcu, by rw [hst]; exact h0, hmot⟩

end Adcs
