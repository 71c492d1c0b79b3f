import Verif.Proofs.HeldTrack
import Verif.Proofs.AttitudeFlow

set_option autoImplicit false

/-! # C204: tracking with commands that are held between the samples -/

namespace Adcs

open Str Sens JDay Quat Vec Dyn Ctl Spec Set Filter Topology
open scoped Matrix

/-- One interval of the sampled loop: at its beginning the controller `c`, with the memory `tr` of its trigger, is given
the true state, no object to be avoided is near (or avoidance is off), and it commands accelerations of the wheels. For
the time `h` the satellite moves as the library's dynamics say for these accelerations, without a disturbing torque. -/
def Spec.TrackHold (c : RwController) (qc : V4) (h : ℝ) (tr tr' : Trigger) (st : ℝ → SatState c.sat.rw.n) : Prop :=
  ∃ (s : Measurements c.sat.rw.n) (objs : List V3) (law : V3) (c' : RwController) (a : Fin c.sat.rw.n → ℝ),
    Measured s (st 0) ∧ ({ c with trigger := tr } : RwController).objects s = .ok objs ∧
    (c.objAvoidance = false ∨ Clear c.instruments objs) ∧
    ({ c with trigger := tr } : RwController).tracking s 0 0 qc = (.ok law, c') ∧ c'.trigger = tr' ∧
    c.actuatorCommands law = .ok a ∧
    ∀ t ∈ Icc 0 h, ∃ F d, derivative c.sat (st t) ⟨F, 0⟩ a = .ok d ∧
      HasDerivAt (fun τ => (st τ).attrs.attitude) d.att t ∧ HasDerivAt (fun τ => (st τ).attrs.bodyAngVel) d.rate t ∧
      HasDerivAt (fun τ => (st τ).attrs.wheelVel) d.whl t

/-- A run of the sampled loop: `tr n` is the memory of the trigger before the sample `n`, and `st n t` the state at the
time `t` after it. -/
def Spec.TrackRun (c : RwController) (qc : V4) (h : ℝ) (tr : ℕ → Trigger) (st : ℕ → ℝ → SatState c.sat.rw.n) : Prop :=
  ∀ n, Spec.TrackHold c qc h (tr n) (tr (n + 1)) (st n) ∧
    (st (n + 1) 0).attrs.attitude = (st n h).attrs.attitude ∧
    (st (n + 1) 0).attrs.bodyAngVel = (st n h).attrs.bodyAngVel ∧
    (st (n + 1) 0).attrs.wheelVel = (st n h).attrs.wheelVel

/-- The error: the rate, and the distance of the attitude from the commanded one, for one sign of the quaternion. -/
noncomputable def Spec.trackError (alpha sgn : ℝ) (qc : V4) {n : ℕ} (st : SatState n) : ℝ :=
  st.attrs.bodyAngVel ⬝ᵥ st.attrs.bodyAngVel / 2 + alpha * npNorm (st.attrs.attitude - sgn • qc) ^ 2

/-- The angular momentum of body and wheels, in body coordinates. -/
def Spec.totalMomentum (sat : Satellite) (st : SatState sat.rw.n) : V3 :=
  sat.totalMoment *ᵥ st.attrs.bodyAngVel + sat.rw.momentum st.attrs.wheelVel

theorem trackError_eq {alpha sgn : ℝ} (hs : sgn = 1 ∨ sgn = -1) {qc : V4} (hqc : npNorm qc = 1) {n : ℕ} {st : SatState n}
    (hu : npNorm st.attrs.attitude = 1) :
    Spec.trackError alpha sgn qc st = lyap alpha sgn (errorQuat st.attrs.attitude qc 0) st.attrs.bodyAngVel := by
  rw [Spec.trackError, lyap, quat_dist hs hu hqc]; ring

/-- What an interval is. -/
theorem hold_eq {c : RwController} {mass : ℝ} {dims : V3} {ab cd : ℝ} (hb : Built c.sat mass dims ab cd)
    (hm : mass ≠ 0) (hw : UnlimitedWheels c.sat) {qc : V4} {h : ℝ} {tr tr' : Trigger} {st : ℝ → SatState c.sat.rw.n}
    (hh : Spec.TrackHold c qc h tr tr' st) :
    tr' = tr.step (errorQuat (st 0).attrs.attitude qc 0) ∧
    HeldMotion c.alpha c.gamma tr'.memory c.sat.invTotMoment qc h (fun t => (st t).attrs.attitude)
      (fun t => (st t).attrs.bodyAngVel) (fun t => Spec.totalMomentum c.sat (st t)) := by
  obtain ⟨s, objs, law, c', a, hs, hobj, hcl, ht, htr, ha, hmot⟩ := hh
  rw [tracking_clear hobj hcl, tracking_plain (c := { c with trigger := tr, objAvoidance := false }) rfl hobj] at ht
  obtain ⟨e1, e2⟩ := Prod.ext_iff.1 ht
  simp only [Except.ok.injEq] at e1 e2
  have hstep : tr' = tr.step (errorQuat (st 0).attrs.attitude qc 0) := by
    rw [← htr, ← e2, ← hs.1]; rfl
  have hsg : (tr.sign (errorQuat s.att qc 0)).1 = tr'.memory := by rw [hstep, ← hs.1]; rfl
  obtain ⟨a', ha', hta⟩ := hw.accelerations (-law)
  have ea : a' = a := Except.ok.inj (ha'.symm.trans ha)
  subst ea
  have z : ∀ q : V4, sandwich q 0 = 0 := fun q => by rw [sandwich_eq_dcm, Matrix.mulVec_zero]
  have hzc : ∀ v : V3, npCross v 0 = 0 := fun v => by rw [npCross_eq_crossProduct, LinearMap.map_zero]
  rw [hsg, z, hzc, add_zero, sub_zero, sub_zero, hs.1, hs.2.1, hs.2.2] at e1
  have key : ∀ t ∈ Icc 0 h,
      HasDerivAt (fun τ => (st τ).attrs.attitude) ((0.5 : ℝ) • product (st t).attrs.attitude (pureQ (st t).attrs.bodyAngVel)) t ∧
      HasDerivAt (fun τ => (st τ).attrs.bodyAngVel)
        (c.sat.invTotMoment *ᵥ (law - npCross (st t).attrs.bodyAngVel (Spec.totalMomentum c.sat (st t)))) t ∧
      HasDerivAt (fun τ => (st τ).attrs.wheelVel) a' t := by
    intro t ht
    obtain ⟨F, d, hd, d1, d2, d3⟩ := hmot t ht
    obtain ⟨d', hd', -, hwh, hatt, hrate⟩ := derivative_rate hb hm (st t) law F 0 a' hta
    have ed : d' = d := Except.ok.inj (hd'.symm.trans hd)
    subst ed
    rw [zero_add] at hrate
    exact ⟨hatt ▸ d1, hrate ▸ d2, hwh ▸ d3⟩
  refine ⟨hstep, fun t ht => (key t ht).1, fun t ht => ?_, fun t ht => ?_⟩
  · refine (key t ht).2.1.congr_deriv ?_
    have e3 : law - npCross (st t).attrs.bodyAngVel (Spec.totalMomentum c.sat (st t)) =
        c.sat.totalMoment *ᵥ ((-tr'.memory * c.alpha) • vecPart (errorQuat (st 0).attrs.attitude qc)
          - c.gamma • (st 0).attrs.bodyAngVel) - (npCross (st t).attrs.bodyAngVel (Spec.totalMomentum c.sat (st t))
          - npCross (st 0).attrs.bodyAngVel (Spec.totalMomentum c.sat (st 0))) := by
      rw [← e1]
      show _ + _ - _ = _ - (_ - npCross (st 0).attrs.bodyAngVel (c.sat.totalMoment *ᵥ (st 0).attrs.bodyAngVel
        + c.sat.rw.momentum (st 0).attrs.wheelVel))
      abel
    rw [e3, Matrix.mulVec_sub, hb.cancel, neg_mul]
  · have d1 := hasDerivAt_mulVec3 (J := c.sat.totalMoment) (key t ht).2.1
    have d2 := hasDerivAt_momentum c.sat (key t ht).2.2
    refine (d1.fun_add d2).congr_deriv ?_
    rw [Matrix.mulVec_mulVec, hb.inverse, Matrix.one_mulVec, hta]
    abel

theorem mulVec_euclid (A : M3) : ∃ j : ℝ, 0 ≤ j ∧ ∀ x, npNorm (A *ᵥ x) ≤ j * npNorm x := by
  obtain ⟨C, hC0, hC⟩ := mulVec_le' A
  refine ⟨2 * C, by positivity, fun x => ?_⟩
  have h1 := hC x
  have h2 : ‖x‖ ≤ npNorm x := by
    rw [pi_norm_le_iff_of_nonneg (npNorm_nonneg _)]
    exact fun i => abs_le_npNorm _ i
  have h3 : npNorm (A *ᵥ x) ≤ 2 * ‖A *ᵥ x‖ := by
    refine le_of_sq_le_sq ?_ (by positivity)
    rw [npNorm3_sq]
    have g : ∀ i, (A *ᵥ x) i ^ 2 ≤ ‖A *ᵥ x‖ ^ 2 := fun i => by
      rw [← sq_abs ((A *ᵥ x) i)]
      exact pow_le_pow_left₀ (abs_nonneg _) (norm_le_pi_norm (A *ᵥ x) i) 2
    nlinarith [g 0, g 1, g 2]
  have h4 := mul_le_mul_of_nonneg_left h2 hC0
  linarith

/-- What a sample does: nothing, or a switch of the sign. -/
theorem sample_eq {alpha eps : ℝ} (ha : 0 < alpha) (he : 0 < eps) (h1 : eps ^ 2 ≤ alpha / 2) {tr : Trigger}
    (hm : tr.memory = 1 ∨ tr.memory = -1) (hh : 0 < tr.halfWidth) {e : V4} (hu : IsUnit4 e) (w : V3) :
    ((tr.step (e 0)).memory = 1 ∨ (tr.step (e 0)).memory = -1) ∧ (tr.step (e 0)).halfWidth = tr.halfWidth ∧
    -tr.halfWidth ≤ (tr.step (e 0)).memory * e 0 ∧
    (tr.step (e 0) = tr ∨
      lyap alpha (tr.step (e 0)).memory (e 0) w ≤ lyap alpha tr.memory (e 0) w - 4 * alpha * tr.halfWidth ∧
      strict alpha eps (tr.step (e 0)).memory e w ≤ 3 / 2 * lyap alpha tr.memory (e 0) w ∧
      strict alpha eps (tr.step (e 0)).memory e w ≤ 3 * strict alpha eps tr.memory e w) := by
  by_cases hst : tr.step (e 0) = tr
  · rw [hst]
    refine ⟨hm, rfl, ?_, .inl rfl⟩
    by_contra hlt
    rw [not_le, mul_comm] at hlt
    exact trigger_switches hm hh hlt.le hst
  · obtain ⟨j1, j2, j3⟩ := trigger_switch hm hh hst
    have i1' : (tr.step (e 0)).memory = 1 ∨ (tr.step (e 0)).memory = -1 := by
      rw [j1]; rcases hm with h | h <;> rw [h] <;> simp
    have b1 := (strict_between ha he h1 i1' hu w).2
    have b2 := (strict_between ha he h1 hm hu w).1
    have b3 : lyap alpha (tr.step (e 0)).memory (e 0) w ≤ lyap alpha tr.memory (e 0) w - 4 * alpha * tr.halfWidth := by
      rw [j1]
      unfold lyap
      have := mul_le_mul_of_nonneg_left j3 ha.le
      linarith
    have b4 : 0 < alpha * tr.halfWidth := mul_pos ha hh
    refine ⟨i1', j2, ?_, .inr ⟨b3, by linarith, by linarith⟩⟩
    rw [j1]; linarith

/-- The constants of the proof, for errors up to `2 U` and momenta up to `B`. -/
structure HoldConsts (alpha gamma hyst j B U eps k beta R S D K h : ℝ) : Prop where
  he : 0 < eps
  hk : 0 < k
  e1 : eps ^ 2 ≤ alpha / 2
  e2 : eps * (1 + gamma ^ 2 / alpha) ≤ gamma
  e3 : 3 * k ≤ gamma
  e4 : 12 * k ≤ eps * (1 - (1 + hyst) / 2)
  hR0 : 0 ≤ R
  hRR : R ^ 2 = 2 * U
  hS : S = 8 + 2 * Real.sqrt alpha
  hD : D = Real.sqrt alpha + 2 * gamma + 2 * (j * B) * S
  hK : K = alpha * S / 2 + (gamma + j * B) * D + S * R * (j * B) * S
  hb0 : 0 < beta
  hb1 : beta ≤ 2 / 3
  hb2 : 3 * beta * U ≤ 2 * alpha * hyst
  hh0 : 0 < h
  c1 : h ≤ 1
  c2 : 4 * (j * B) * h ≤ 1
  c3 : gamma * h ≤ 1
  c4 : S * R * h ≤ 1 - hyst
  c5 : 4 * (1 / gamma + eps / alpha) * K ^ 2 * h ^ 2 ≤ k
  c6 : 2 * K ^ 2 * h ^ 2 ≤ beta * k * gamma
  c7 : k * h ≤ 1

theorem holdConsts_exist {alpha gamma hyst j B U : ℝ} (ha : 0 < alpha) (hg : 0 < gamma) (hh : 0 < hyst) (hh1 : hyst < 1)
    (hj0 : 0 ≤ j) (hB : 0 ≤ B) (hU0 : 0 < U) :
    ∃ eps k beta R S D K h0 : ℝ, 0 < k ∧ 0 < h0 ∧ ∀ h, 0 < h → h ≤ h0 →
      HoldConsts alpha gamma hyst j B U eps k beta R S D K h := by
  obtain ⟨eps, k, he, hk, e1, e2, e3, e4⟩ := rate_exists ha hg (by linarith : (1 + hyst) / 2 < 1)
  set R := Real.sqrt (2 * U) with hR
  have hR0 : 0 ≤ R := Real.sqrt_nonneg _
  have hRR : R ^ 2 = 2 * U := Real.sq_sqrt (by linarith)
  set S := 8 + 2 * Real.sqrt alpha with hS
  set D := Real.sqrt alpha + 2 * gamma + 2 * (j * B) * S with hD
  set K := alpha * S / 2 + (gamma + j * B) * D + S * R * (j * B) * S with hK
  have hS0 : 0 ≤ S := by positivity
  have hD0 : 0 ≤ D := by positivity
  have hK0 : 0 ≤ K := by positivity
  set beta := min (2 / 3) (2 * alpha * hyst / (3 * U)) with hbeta
  have hb0 : 0 < beta := lt_min (by norm_num) (by positivity)
  have hb1 : beta ≤ 2 / 3 := min_le_left _ _
  have hb2 : 3 * beta * U ≤ 2 * alpha * hyst := by
    have := min_le_right (2 / 3) (2 * alpha * hyst / (3 * U))
    rw [← hbeta, le_div_iff₀ (by positivity)] at this
    linarith
  have h1h : 0 < 1 - hyst := by linarith
  set X1 := 4 * (j * B) with hX1
  set X2 := S * R / (1 - hyst) with hX2
  set X3 := 4 * (1 / gamma + eps / alpha) * K ^ 2 / k with hX3
  set X4 := 2 * K ^ 2 / (beta * k * gamma) with hX4
  have p1 : 0 ≤ X1 := by positivity
  have p2 : 0 ≤ X2 := by positivity
  have p3 : 0 ≤ X3 := by positivity
  have p4 : 0 ≤ X4 := by positivity
  set X := 1 + X1 + gamma + X2 + X3 + X4 + k with hX
  have hXp : 0 < X := by positivity
  refine ⟨eps, k, beta, R, S, D, K, 1 / X, hk, by positivity, fun h hh0 hhX => ?_⟩
  have hX' : h * X ≤ 1 := by rwa [le_div_iff₀ hXp] at hhX
  have part : ∀ y, 0 ≤ y → y ≤ X → h * y ≤ 1 := fun y _ hy => (mul_le_mul_of_nonneg_left hy hh0.le).trans hX'
  have c1 : h ≤ 1 := by have := part 1 zero_le_one (by linarith); linarith
  have c2 : 4 * (j * B) * h ≤ 1 := by have := part X1 p1 (by linarith); linarith
  have c3 : gamma * h ≤ 1 := by have := part gamma hg.le (by linarith); linarith
  have c4 : S * R * h ≤ 1 - hyst := by
    have := part X2 p2 (by linarith)
    have e : h * X2 = S * R * h / (1 - hyst) := by rw [hX2]; ring
    rw [e, div_le_iff₀ h1h] at this
    linarith
  have hsq : h ^ 2 ≤ h := by rw [sq]; exact mul_le_of_le_one_left hh0.le c1
  have c5 : 4 * (1 / gamma + eps / alpha) * K ^ 2 * h ^ 2 ≤ k := by
    have := part X3 p3 (by rw [hX]; linarith)
    have e : h * X3 = 4 * (1 / gamma + eps / alpha) * K ^ 2 * h / k := by rw [hX3]; ring
    rw [e, div_le_iff₀ hk] at this
    refine le_trans ?_ (this.trans_eq (one_mul k))
    exact mul_le_mul_of_nonneg_left hsq (by positivity)
  have c6 : 2 * K ^ 2 * h ^ 2 ≤ beta * k * gamma := by
    have := part X4 p4 (by linarith)
    have e : h * X4 = 2 * K ^ 2 * h / (beta * k * gamma) := by rw [hX4]; ring
    rw [e, div_le_iff₀ (by positivity)] at this
    refine le_trans ?_ (this.trans_eq (one_mul _))
    exact mul_le_mul_of_nonneg_left hsq (by positivity)
  have c7 : k * h ≤ 1 := by have := part k hk.le (by linarith); linarith
  exact ⟨he, hk, e1, e2, e3, e4, hR0, hRR, hS, hD, hK, hb0, hb1, hb2, hh0, c1, c2, c3, c4, c5, c6, c7⟩

/-- The energy-like function of a state. -/
noncomputable abbrev lyapAt (alpha : ℝ) (qc : V4) {n : ℕ} (s : ℝ) (x : SatState n) : ℝ :=
  lyap alpha s (errorQuat x.attrs.attitude qc 0) x.attrs.bodyAngVel

/-- The strict function of a state. -/
noncomputable abbrev strictAt (alpha eps : ℝ) (qc : V4) {n : ℕ} (s : ℝ) (x : SatState n) : ℝ :=
  strict alpha eps s (errorQuat x.attrs.attitude qc) x.attrs.bodyAngVel

theorem at_between {alpha eps : ℝ} (ha : 0 < alpha) (he : 0 < eps) (e1 : eps ^ 2 ≤ alpha / 2) {qc : V4}
    (hqc : npNorm qc = 1) {n : ℕ} (s : ℝ) (x : SatState n) (hs : s = 1 ∨ s = -1) (hx : npNorm x.attrs.attitude = 1) :
    0 ≤ lyapAt alpha qc s x ∧ lyapAt alpha qc s x ≤ 2 * strictAt alpha eps qc s x ∧
      2 * strictAt alpha eps qc s x ≤ 3 * lyapAt alpha qc s x := by
  have hu : IsUnit4 (errorQuat x.attrs.attitude qc) := errorQuat_unit ((isUnit4_iff _).2 hx) ((isUnit4_iff _).2 hqc)
  exact ⟨(C69_definite alpha s ha hs _ qc hx hqc _).1, strict_between ha he e1 hs hu _⟩

/-- The sample at the beginning of an interval. -/
theorem sample_change {alpha gamma hyst j B U eps k beta R S D K h : ℝ}
    (hc : HoldConsts alpha gamma hyst j B U eps k beta R S D K h) (ha : 0 < alpha) (hh : 0 < hyst) {qc : V4}
    (hqc : npNorm qc = 1) {m : ℕ} {tr : Trigger} {x : SatState m} (i1 : tr.memory = 1 ∨ tr.memory = -1)
    (i2 : tr.halfWidth = hyst) (i3 : npNorm x.attrs.attitude = 1)
    (i5 : lyapAt alpha qc tr.memory x + beta * strictAt alpha eps qc tr.memory x ≤ 2 * U) :
    ∃ tr' : Trigger, tr' = tr.step (errorQuat x.attrs.attitude qc 0) ∧ (tr'.memory = 1 ∨ tr'.memory = -1) ∧
      tr'.halfWidth = hyst ∧ -hyst ≤ tr'.memory * errorQuat x.attrs.attitude qc 0 ∧
      lyapAt alpha qc tr'.memory x ≤ 2 * U ∧
      ∃ i : ℕ, i ≤ 1 ∧ strictAt alpha eps qc tr'.memory x ≤ 3 ^ i * strictAt alpha eps qc tr.memory x ∧
        lyapAt alpha qc tr'.memory x + beta * strictAt alpha eps qc tr'.memory x + 2 * alpha * hyst * i ≤
          lyapAt alpha qc tr.memory x + beta * strictAt alpha eps qc tr.memory x := by
  have hu : IsUnit4 (errorQuat x.attrs.attitude qc) := errorQuat_unit ((isUnit4_iff _).2 i3) ((isUnit4_iff _).2 hqc)
  obtain ⟨s1, s2, s3, s4⟩ := sample_eq ha hc.he hc.e1 i1 (i2 ▸ hh) hu x.attrs.bodyAngVel
  refine ⟨_, rfl, s1, s2.trans i2, i2 ▸ s3, ?_⟩
  rw [i2] at s4
  obtain ⟨b1, b2, b3⟩ := at_between ha hc.he hc.e1 hqc _ x i1 i3
  have hbW : 0 ≤ beta * strictAt alpha eps qc tr.memory x := mul_nonneg hc.hb0.le (by linarith)
  rcases s4 with s4 | ⟨s4, s5, s6⟩
  · rw [s4]
    exact ⟨by linarith, 0, zero_le_one, by simp, by simp⟩
  · have hp : 0 < alpha * hyst := mul_pos ha hh
    refine ⟨by linarith, 1, le_rfl, by rw [pow_one]; exact s6, ?_⟩
    have d0 : strictAt alpha eps qc (tr.step (errorQuat x.attrs.attitude qc 0)).memory x ≤ 3 / 2 * (2 * U) := by linarith
    have d1 := mul_le_mul_of_nonneg_left d0 hc.hb0.le
    have d2 := hc.hb2
    push_cast
    linarith

/-- A sample and the interval that follows. -/
theorem hold_change {c : RwController} (ha : 0 < c.alpha) (hg : 0 < c.gamma) {mass : ℝ} {dims : V3} {ab cd : ℝ}
    (hb : Built c.sat mass dims ab cd) (hm : mass ≠ 0) (hw : UnlimitedWheels c.sat)
    {hyst j B U eps k beta R S D K h : ℝ} (hh : 0 < hyst)
    (hc : HoldConsts c.alpha c.gamma hyst j B U eps k beta R S D K h) (hj0 : 0 ≤ j)
    (hj : ∀ x, npNorm (c.sat.invTotMoment *ᵥ x) ≤ j * npNorm x) {qc : V4} (hqc : npNorm qc = 1) {tr tr' : Trigger}
    {st : ℝ → SatState c.sat.rw.n} (hhold : Spec.TrackHold c qc h tr tr' st) (i1 : tr.memory = 1 ∨ tr.memory = -1)
    (i2 : tr.halfWidth = hyst) (i3 : npNorm (st 0).attrs.attitude = 1)
    (i4 : npNorm (Spec.totalMomentum c.sat (st 0)) ≤ B)
    (i5 : lyapAt c.alpha qc tr.memory (st 0) + beta * strictAt c.alpha eps qc tr.memory (st 0) ≤ 2 * U) :
    (tr'.memory = 1 ∨ tr'.memory = -1) ∧ tr'.halfWidth = hyst ∧ (∀ t ∈ Icc 0 h, npNorm (st t).attrs.attitude = 1) ∧
    npNorm (Spec.totalMomentum c.sat (st h)) ≤ B ∧
    ∃ i : ℕ, (∀ t ∈ Icc 0 h, strictAt c.alpha eps qc tr'.memory (st t) ≤
        3 ^ i * Real.exp (-(k / 4) * t) * strictAt c.alpha eps qc tr.memory (st 0)) ∧ i ≤ 1 ∧
      lyapAt c.alpha qc tr'.memory (st h) + beta * strictAt c.alpha eps qc tr'.memory (st h) + 2 * c.alpha * hyst * i ≤
        lyapAt c.alpha qc tr.memory (st 0) + beta * strictAt c.alpha eps qc tr.memory (st 0) := by
  obtain ⟨htr, hmot⟩ := hold_eq hb hm hw hhold
  obtain ⟨tr2, htr2, s1, s2, s3, hVU, i, hi, t2, t3⟩ := sample_change hc ha hh hqc i1 i2 i3 i5
  rw [← htr] at htr2
  subst htr2
  have hh0 := hc.hh0
  have hk := hc.hk
  obtain ⟨b1', b2', b3'⟩ := at_between ha hc.he hc.e1 hqc _ (st 0) s1 i3
  have hVR : lyapAt c.alpha qc tr2.memory (st 0) ≤ R ^ 2 := by rw [hc.hRR]; exact hVU
  obtain ⟨f1, f2⟩ := hmot.decay ha hg s1 hh0.le hqc i3 hj0 hj i4 hc.hR0 hVR hc.hS hc.hD hc.hK hc.he hk hc.e1 hc.e2 hc.e3
    hc.e4 s3 hc.c1 hc.c2 hc.c3 hc.c4 hc.c5
  have hW0' : 0 ≤ strictAt c.alpha eps qc tr2.memory (st 0) := by linarith
  refine ⟨s1, s2, hmot.unit i3, (hmot.mom_const h ⟨hh0.le, le_rfl⟩).trans_le i4, i, fun t ht => ?_, hi, ?_⟩
  · have hx0 : 0 ≤ k * t := mul_nonneg hk.le ht.1
    have hx1 : k * t ≤ 1 := (mul_le_mul_of_nonneg_left ht.2 hk.le).trans hc.c7
    have g1 := (exp_half hx0 hx1).2
    have e' : Real.exp (-(k / 4) * t) = Real.exp (-(k * t / 4)) := by ring_nf
    have g2 := f1 t ht
    rw [neg_mul] at g2
    rw [e']
    calc _ ≤ _ := g2
      _ ≤ Real.exp (-(k * t / 4)) * (3 ^ i * strictAt c.alpha eps qc tr.memory (st 0)) :=
        mul_le_mul g1 t2 hW0' (Real.exp_pos _).le
      _ = _ := by ring
  · have g1 := (exp_half (mul_nonneg hk.le hh0.le) hc.c7).1
    have g2 := f1 h ⟨hh0.le, le_rfl⟩
    rw [neg_mul] at g2
    have g4 : strictAt c.alpha eps qc tr2.memory (st h) ≤ (1 - k * h / 4) * strictAt c.alpha eps qc tr2.memory (st 0) :=
      g2.trans (mul_le_mul_of_nonneg_right g1 hW0')
    have hb0 := hc.hb0
    have g5 : h ^ 3 * K ^ 2 / (4 * c.gamma) ≤ beta * k * h / 8 := by
      rw [div_le_iff₀ (by positivity)]
      have := mul_le_mul_of_nonneg_left hc.c6 (by positivity : 0 ≤ h / 2)
      calc h ^ 3 * K ^ 2 = h / 2 * (2 * K ^ 2 * h ^ 2) := by ring
        _ ≤ _ := this
        _ = _ := by ring
    have g6 := mul_le_mul_of_nonneg_left g5 b1'
    have g7 := mul_le_mul_of_nonneg_left g4 hb0.le
    have g8 : beta * k * h / 8 * lyapAt c.alpha qc tr2.memory (st 0) ≤
        beta * k * h / 8 * (2 * strictAt c.alpha eps qc tr2.memory (st 0)) :=
      mul_le_mul_of_nonneg_left b2' (by positivity)
    have g9 : beta * ((1 - k * h / 4) * strictAt c.alpha eps qc tr2.memory (st 0)) =
      beta * strictAt c.alpha eps qc tr2.memory (st 0)
        - beta * k * h / 8 * (2 * strictAt c.alpha eps qc tr2.memory (st 0)) := by ring
    have f2' : lyapAt c.alpha qc tr2.memory (st h) ≤ lyapAt c.alpha qc tr2.memory (st 0)
        + lyapAt c.alpha qc tr2.memory (st 0) * (h ^ 3 * K ^ 2 / (4 * c.gamma)) := by
      refine le_of_le_of_eq f2 ?_; ring
    linarith

/-- With samples often enough, for the errors up to `V` and the momenta up to `B` at the beginning: the errors fall off
exponentially, at a rate and with a factor that do not depend on the interval. -/
theorem C204_short_partial (c : RwController) (ha : 0 < c.alpha) (hg : 0 < c.gamma) {mass : ℝ} {dims : V3} {ab cd : ℝ}
    (hb : Built c.sat mass dims ab cd) (hm : mass ≠ 0) (hw : UnlimitedWheels c.sat) {hyst : ℝ} (hh : 0 < hyst)
    (hh1 : hyst < 1) (qc : V4) (hqc : npNorm qc = 1) (V B : ℝ) :
    ∃ h0 > 0, ∃ k > 0, ∃ C : ℝ, ∀ h, 0 < h → h ≤ h0 → ∀ (tr : ℕ → Trigger) (st : ℕ → ℝ → SatState c.sat.rw.n),
      (tr 0).halfWidth = hyst → ((tr 0).memory = 1 ∨ (tr 0).memory = -1) → npNorm (st 0 0).attrs.attitude = 1 →
      Spec.trackError c.alpha (tr 0).memory qc (st 0 0) ≤ V → npNorm (Spec.totalMomentum c.sat (st 0 0)) ≤ B →
      Spec.TrackRun c qc h tr st → ∀ n, ∀ t ∈ Icc 0 h,
        ((tr (n + 1)).memory = 1 ∨ (tr (n + 1)).memory = -1) ∧
        Spec.trackError c.alpha (tr (n + 1)).memory qc (st n t) ≤
          C * Real.exp (-k * (n * h + t)) * Spec.trackError c.alpha (tr 0).memory qc (st 0 0) := by
  rcases lt_or_ge B 0 with hB | hB
  · exact ⟨1, one_pos, 1, one_pos, 0, fun h _ _ tr st _ _ _ _ hb _ => absurd hb (not_le.2 (hB.trans_le (npNorm_nonneg _)))⟩
  rcases lt_or_ge V 0 with hV | hV
  · refine ⟨1, one_pos, 1, one_pos, 0, fun h _ _ tr st _ _ _ hb _ _ => absurd hb (not_le.2 (hV.trans_le ?_))⟩
    unfold Spec.trackError
    have := dot_self_nonneg3 (st 0 0).attrs.bodyAngVel
    positivity
  obtain ⟨j, hj0, hj⟩ := mulVec_euclid c.sat.invTotMoment
  have hU0 : 0 < V + 1 := by linarith
  obtain ⟨eps, k, beta, R, S, D, K, h0, hk, hh0p, hcs⟩ := holdConsts_exist ha hg hh hh1 hj0 hB hU0
  obtain ⟨N0, hN0⟩ := exists_nat_gt (2 * (V + 1) / (2 * c.alpha * hyst))
  refine ⟨h0, hh0p, k / 4, by positivity, 3 ^ (N0 + 2), ?_⟩
  intro h hh0 hhX tr st ht0 hm0 hu0 hV0 hB0 hrun
  have hc := hcs h hh0 hhX
  have hbt := fun (s : ℝ) (x : SatState c.sat.rw.n) => at_between ha hc.he hc.e1 hqc s x
  rw [trackError_eq hm0 hqc hu0] at hV0
  obtain ⟨a1, a2, a3⟩ := hbt _ _ hm0 hu0
  have hPhi2 : lyapAt c.alpha qc (tr 0).memory (st 0 0) + beta * strictAt c.alpha eps qc (tr 0).memory (st 0 0) ≤ 2 * (V + 1) := by
    have : beta * strictAt c.alpha eps qc (tr 0).memory (st 0 0) ≤ 2 / 3 * (3 / 2 * lyapAt c.alpha qc (tr 0).memory (st 0 0)) :=
      mul_le_mul hc.hb1 (by linarith) (by linarith) (by norm_num)
    linarith
  -- all samples
  have all : ∀ n, ((tr n).memory = 1 ∨ (tr n).memory = -1) ∧ (tr n).halfWidth = hyst ∧ npNorm (st n 0).attrs.attitude = 1 ∧
      npNorm (Spec.totalMomentum c.sat (st n 0)) ≤ B ∧ ∃ N : ℕ,
        lyapAt c.alpha qc (tr n).memory (st n 0) + beta * strictAt c.alpha eps qc (tr n).memory (st n 0)
          + 2 * c.alpha * hyst * N ≤ 2 * (V + 1) ∧
        strictAt c.alpha eps qc (tr n).memory (st n 0) ≤
          3 ^ N * Real.exp (-(k / 4) * (n * h)) * strictAt c.alpha eps qc (tr 0).memory (st 0 0) := by
    intro n
    induction n with
    | zero => exact ⟨hm0, ht0, hu0, hB0, 0, by simpa using hPhi2, by simp⟩
    | succ n ih =>
      obtain ⟨i1, i2, i3, i4, N, i5, i6⟩ := ih
      have hp : 0 ≤ 2 * c.alpha * hyst * N := by positivity
      obtain ⟨hhold, r1, r2, r3⟩ := hrun n
      obtain ⟨s1, s2, s3, s4, i, s5, -, s6⟩ := hold_change ha hg hb hm hw hh hc hj0 hj hqc hhold i1 i2 i3 i4 (by linarith)
      have eV : lyapAt c.alpha qc (tr (n + 1)).memory (st (n + 1) 0) = lyapAt c.alpha qc (tr (n + 1)).memory (st n h) := by
        simp only [lyapAt, r1, r2]
      have eW : strictAt c.alpha eps qc (tr (n + 1)).memory (st (n + 1) 0) =
          strictAt c.alpha eps qc (tr (n + 1)).memory (st n h) := by
        simp only [strictAt, r1, r2]
      have eH : Spec.totalMomentum c.sat (st (n + 1) 0) = Spec.totalMomentum c.sat (st n h) := by
        simp only [Spec.totalMomentum, r2, r3]
      refine ⟨s1, s2, by rw [r1]; exact s3 h ⟨hh0.le, le_rfl⟩, by rw [eH]; exact s4, N + i, ?_, ?_⟩
      · rw [eV, eW]; push_cast; linarith
      · rw [eW]
        refine (s5 h ⟨hh0.le, le_rfl⟩).trans ?_
        have e : Real.exp (-(k / 4) * ((n + 1 : ℕ) * h)) = Real.exp (-(k / 4) * h) * Real.exp (-(k / 4) * (n * h)) := by
          rw [← Real.exp_add]; push_cast; ring_nf
        rw [e, pow_add]
        calc 3 ^ i * Real.exp (-(k / 4) * h) * strictAt c.alpha eps qc (tr n).memory (st n 0)
            ≤ 3 ^ i * Real.exp (-(k / 4) * h) *
              (3 ^ N * Real.exp (-(k / 4) * (n * h)) * strictAt c.alpha eps qc (tr 0).memory (st 0 0)) :=
              mul_le_mul_of_nonneg_left i6 (by positivity)
          _ = _ := by ring
  intro n t ht
  obtain ⟨i1, i2, i3, i4, N, i5, i6⟩ := all n
  have hp : 0 ≤ 2 * c.alpha * hyst * N := by positivity
  obtain ⟨s1, s2, s3, -, i, s5, hi, -⟩ := hold_change ha hg hb hm hw hh hc hj0 hj hqc (hrun n).1 i1 i2 i3 i4 (by linarith)
  refine ⟨s1, ?_⟩
  rw [trackError_eq s1 hqc (s3 t ht), trackError_eq hm0 hqc hu0]
  obtain ⟨b1, b2, b3⟩ := hbt _ _ s1 (s3 t ht)
  obtain ⟨d1, d2, -⟩ := hbt _ _ i1 i3
  have hNN : N ≤ N0 := by
    have h1 : (N : ℝ) ≤ 2 * (V + 1) / (2 * c.alpha * hyst) := by
      rw [le_div_iff₀ (by positivity)]
      have : 0 ≤ beta * strictAt c.alpha eps qc (tr n).memory (st n 0) := mul_nonneg hc.hb0.le (by linarith)
      linarith
    exact_mod_cast (h1.trans_lt hN0).le
  have hpow : (3 : ℝ) ^ i * 3 ^ N ≤ 3 ^ (N0 + 1) := by
    rw [← pow_add]
    exact pow_le_pow_right₀ (by norm_num) (by omega)
  have e : Real.exp (-(k / 4) * (n * h + t)) = Real.exp (-(k / 4) * t) * Real.exp (-(k / 4) * (n * h)) := by
    rw [← Real.exp_add]; ring_nf
  have hE : 0 ≤ Real.exp (-(k / 4) * t) * Real.exp (-(k / 4) * (n * h)) := by positivity
  show lyapAt c.alpha qc (tr (n + 1)).memory (st n t) ≤ _ * lyapAt c.alpha qc (tr 0).memory (st 0 0)
  calc lyapAt c.alpha qc (tr (n + 1)).memory (st n t) ≤ 2 * strictAt c.alpha eps qc (tr (n + 1)).memory (st n t) := b2
    _ ≤ 2 * (3 ^ i * Real.exp (-(k / 4) * t) * strictAt c.alpha eps qc (tr n).memory (st n 0)) := by linarith [s5 t ht]
    _ ≤ 2 * (3 ^ i * Real.exp (-(k / 4) * t) * (3 ^ N * Real.exp (-(k / 4) * (n * h)) *
          strictAt c.alpha eps qc (tr 0).memory (st 0 0))) := by gcongr
    _ = 3 ^ i * 3 ^ N * (Real.exp (-(k / 4) * t) * Real.exp (-(k / 4) * (n * h))) *
          (2 * strictAt c.alpha eps qc (tr 0).memory (st 0 0)) := by ring
    _ ≤ 3 ^ (N0 + 1) * (Real.exp (-(k / 4) * t) * Real.exp (-(k / 4) * (n * h))) *
          (3 * lyapAt c.alpha qc (tr 0).memory (st 0 0)) := by
        apply mul_le_mul _ a3 (by linarith) (by positivity)
        exact mul_le_mul_of_nonneg_right hpow hE
    _ = _ := by rw [e]; ring

/-! ## Runs exist -/

theorem objects_any {c : RwController} {s0 : Measurements c.sat.rw.n} {objs0 : List V3} (hobj : c.objects s0 = .ok objs0)
    (tr : Trigger) (q : V4) (w : V3) (whl : Fin c.sat.rw.n → ℝ) :
    ∃ objs, ({ c with trigger := tr } : RwController).objects { s0 with att := q, rate := w, whl := whl } = .ok objs := by
  unfold RwController.objects at hobj ⊢
  split at hobj
  · cases hobj
  · next f hf =>
    split at hobj
    · cases hobj
    · next sun hsun =>
      refine ⟨[sandwich q sun, -normalizeV s0.pos], ?_⟩
      simp only [hf, hsun]

/-- The commands at a sample, from the state. -/
theorem commands_exist (c : RwController) (hw : UnlimitedWheels c.sat) (hav : c.objAvoidance = false)
    (s0 : Measurements c.sat.rw.n) (objs0 : List V3) (hobj : c.objects s0 = .ok objs0) (qc : V4) (tr : Trigger)
    (x : SatState c.sat.rw.n) :
    ∃ (s : Measurements c.sat.rw.n) (objs : List V3) (law : V3) (c' : RwController) (a : Fin c.sat.rw.n → ℝ),
    Measured s x ∧ ({ c with trigger := tr } : RwController).objects s = .ok objs ∧
    ({ c with trigger := tr } : RwController).tracking s 0 0 qc = (.ok law, c') ∧
    c'.trigger = tr.step (errorQuat x.attrs.attitude qc 0) ∧ c.actuatorCommands law = .ok a ∧ c.sat.rw.torque a = -law ∧
    law = npCross x.attrs.bodyAngVel (Spec.totalMomentum c.sat x) +
      c.sat.totalMoment *ᵥ (-((tr.step (errorQuat x.attrs.attitude qc 0)).memory * c.alpha) •
        vecPart (errorQuat x.attrs.attitude qc) - c.gamma • x.attrs.bodyAngVel) := by
  obtain ⟨objs, ho⟩ := objects_any hobj tr x.attrs.attitude x.attrs.bodyAngVel x.attrs.wheelVel
  have ht := tracking_plain (c := { c with trigger := tr }) hav ho 0 0 qc
  set law := (({ c with trigger := tr } : RwController).tracking
    { s0 with att := x.attrs.attitude, rate := x.attrs.bodyAngVel, whl := x.attrs.wheelVel } 0 0 qc).1 with hl
  have z : ∀ q : V4, sandwich q 0 = 0 := fun q => by rw [sandwich_eq_dcm, Matrix.mulVec_zero]
  have hzc : ∀ v : V3, npCross v 0 = 0 := fun v => by rw [npCross_eq_crossProduct, LinearMap.map_zero]
  obtain ⟨a, ha, hta⟩ := hw.accelerations (-_)
  refine ⟨_, objs, _, _, a, ⟨rfl, rfl, rfl⟩, ho, ht, rfl, ha, hta, ?_⟩
  rw [z, hzc, add_zero, sub_zero, sub_zero, neg_mul]
  rfl

/-- The state `x` with another attitude, rate and wheel speeds. -/
def withSpin {n : ℕ} (x : SatState n) (q : V4) (w : V3) (whl : Fin n → ℝ) : SatState n :=
  { x with attrs := { x.attrs with attitude := q, bodyAngVel := w, wheelVel := whl } }

theorem momentum_line (rw : RWSystem) (v a : Fin rw.n → ℝ) (t : ℝ) :
    rw.momentum (v + t • a) = rw.momentum v + t • rw.torque a := by
  unfold RWSystem.momentum RWSystem.torque
  rw [Finset.smul_sum, ← Finset.sum_add_distrib]
  refine Finset.sum_congr rfl fun i _ => ?_
  funext k
  simp only [Wheel.momentum, Wheel.torque, Pi.add_apply, Pi.smul_apply, smul_eq_mul]
  ring

theorem hold_exists (c : RwController) {mass : ℝ} {dims : V3} {ab cd : ℝ} (hb : Built c.sat mass dims ab cd)
    (hm : mass ≠ 0) (hw : UnlimitedWheels c.sat) (hav : c.objAvoidance = false)
    (s0 : Measurements c.sat.rw.n) (objs0 : List V3) (hobj : c.objects s0 = .ok objs0) (qc : V4) (h : ℝ) (tr : Trigger)
    (x : SatState c.sat.rw.n) (hu : npNorm x.attrs.attitude = 1) :
    ∃ st : ℝ → SatState c.sat.rw.n, Spec.TrackHold c qc h tr (tr.step (errorQuat x.attrs.attitude qc 0)) st ∧ st 0 = x ∧
      ∀ t, npNorm (st t).attrs.attitude = 1 := by
  obtain ⟨s, objs, law, c', a, hs, ho, ht, htr, ha, hta, -⟩ := commands_exist c hw hav s0 objs0 hobj qc tr x
  set Ji := c.sat.invTotMoment with hJi
  set H0 := c.sat.rw.momentum x.attrs.wheelVel with hH0
  set ta := c.sat.rw.torque a with hta'
  set T : Turn → V3 := fun p => law - (Ji *ᵥ p.2.2) ⨯₃ (H0 + p.1 • ta) with hT
  have hTs : ContDiff ℝ 1 T := by
    have c1 : ContDiff ℝ 1 fun p : Turn => Ji *ᵥ p.2.2 := contDiff_mulVec3 Ji (contDiff_snd.comp contDiff_snd)
    have c2 : ContDiff ℝ 1 fun p : Turn => H0 + p.1 • ta := contDiff_const.add (contDiff_fst.smul contDiff_const)
    exact contDiff_const.sub (contDiff_cross3 c1 c2)
  obtain ⟨j, hj0, hj⟩ := mulVec_euclid Ji
  obtain ⟨y, hy0, hy⟩ := turn_forever (Ji := Ji) hTs (fun τ => by
    refine ⟨npNorm law + j * (npNorm H0 + |τ| * npNorm ta), fun p hp _ => ?_⟩
    have b1 := dot_bound p.2.2 (T p)
    have b2 : npNorm (H0 + p.1 • ta) ≤ npNorm H0 + |τ| * npNorm ta := by
      refine (npNorm_add3 _ _).trans (add_le_add le_rfl ?_)
      rw [npNorm_smul]
      exact mul_le_mul_of_nonneg_right (hp.trans (le_abs_self τ)) (npNorm_nonneg _)
    have b3 : npNorm (T p) ≤ npNorm law + j * npNorm p.2.2 * (npNorm H0 + |τ| * npNorm ta) := by
      refine (npNorm_sub3 _ _).trans (add_le_add le_rfl ?_)
      rw [← npCross_eq_crossProduct]
      exact (cross_norm_le _ _).trans (mul_le_mul (hj _) b2 (npNorm_nonneg _) (mul_nonneg hj0 (npNorm_nonneg _)))
    have hL := npNorm_nonneg p.2.2
    have hl := npNorm_nonneg law
    have b4 : npNorm p.2.2 ≤ 1 + npNorm p.2.2 ^ 2 := by nlinarith [sq_nonneg (npNorm p.2.2 - 1)]
    have b5 : 0 ≤ j * (npNorm H0 + |τ| * npNorm ta) := by
      have := npNorm_nonneg H0; have := npNorm_nonneg ta
      positivity
    calc _ ≤ npNorm p.2.2 * npNorm (T p) := b1
      _ ≤ npNorm p.2.2 * (npNorm law + j * npNorm p.2.2 * (npNorm H0 + |τ| * npNorm ta)) :=
        mul_le_mul_of_nonneg_left b3 hL
      _ = npNorm law * npNorm p.2.2 + j * (npNorm H0 + |τ| * npNorm ta) * npNorm p.2.2 ^ 2 := by ring
      _ ≤ npNorm law * (1 + npNorm p.2.2 ^ 2) + j * (npNorm H0 + |τ| * npNorm ta) * (1 + npNorm p.2.2 ^ 2) :=
        add_le_add (mul_le_mul_of_nonneg_left b4 hl) (mul_le_mul_of_nonneg_left (by linarith) b5)
      _ = _ := by ring) hu (c.sat.totalMoment *ᵥ x.attrs.bodyAngVel)
  set st : ℝ → SatState c.sat.rw.n := fun t =>
    withSpin x (y t).2.1 (Ji *ᵥ (y t).2.2) (x.attrs.wheelVel + t • a) with hst
  have hst0 : st 0 = x := by
    simp only [hst, hy0, hJi, hb.cancel, zero_smul, add_zero]
    rfl
  refine ⟨st, ⟨s, objs, law, c', a, hst0 ▸ hs, ho, .inl hav, ht, htr, ha, fun t _ => ?_⟩, hst0, fun t => (hy t).2.2⟩
  obtain ⟨d, hd, -, hwh, hatt, hrate⟩ := derivative_rate hb hm (st t) law 0 0 a hta
  obtain ⟨g1, g2, -⟩ := hy t
  refine ⟨0, d, hd, ?_, ?_, ?_⟩
  · rw [hatt]
    exact g1.snd.fst
  · rw [hrate]
    refine (hasDerivAt_mulVec3 (J := Ji) g1.snd.snd).congr_deriv ?_
    show Ji *ᵥ (law - (Ji *ᵥ (y t).2.2) ⨯₃ (H0 + (y t).1 • ta) - (Ji *ᵥ (y t).2.2) ⨯₃ (y t).2.2) =
      Ji *ᵥ (0 + law - npCross (Ji *ᵥ (y t).2.2) (c.sat.totalMoment *ᵥ (Ji *ᵥ (y t).2.2)
        + c.sat.rw.momentum (x.attrs.wheelVel + t • a)))
    rw [Matrix.mulVec_mulVec (v := (y t).2.2) (M := c.sat.totalMoment), hb.inverse, Matrix.one_mulVec, momentum_line, g2,
      npCross_eq_crossProduct, zero_add]
    simp only [map_add]
    congr 1
    abel
  · rw [hwh]
    refine ((hasDerivAt_const t x.attrs.wheelVel).fun_add ((hasDerivAt_id t).smul_const a)).congr_deriv ?_
    simp

/-- Runs do not die out: they start in every state (for every controller that can find the objects around it). -/
theorem C204_exists (c : RwController) {mass : ℝ} {dims : V3} {ab cd : ℝ} (hb : Built c.sat mass dims ab cd)
    (hm : mass ≠ 0) (hw : UnlimitedWheels c.sat) (hav : c.objAvoidance = false)
    (s0 : Measurements c.sat.rw.n) (objs0 : List V3) (hobj : c.objects s0 = .ok objs0) (qc : V4) (h : ℝ) (hh : 0 ≤ h)
    (tr0 : Trigger) (st0 : SatState c.sat.rw.n) (hu : npNorm st0.attrs.attitude = 1) :
    ∃ (tr : ℕ → Trigger) (st : ℕ → ℝ → SatState c.sat.rw.n), Spec.TrackRun c qc h tr st ∧ tr 0 = tr0 ∧ st 0 0 = st0 := by
  have hstep := fun (tr : Trigger) (x : { x : SatState c.sat.rw.n // npNorm x.attrs.attitude = 1 }) =>
    hold_exists c hb hm hw hav s0 objs0 hobj qc h tr x.1 x.2
  choose f f1 f2 f3 using hstep
  set g : ℕ → Trigger × { x : SatState c.sat.rw.n // npNorm x.attrs.attitude = 1 } := fun n =>
    Nat.rec (tr0, ⟨st0, hu⟩) (fun _ p => (p.1.step (errorQuat p.2.1.attrs.attitude qc 0), ⟨f p.1 p.2 h, f3 p.1 p.2 h⟩)) n with hg
  refine ⟨fun n => (g n).1, fun n => f (g n).1 (g n).2, fun n => ⟨f1 (g n).1 (g n).2, ?_⟩, rfl, f2 tr0 ⟨st0, hu⟩⟩
  have e : f (g (n + 1)).1 (g (n + 1)).2 0 = f (g n).1 (g n).2 h := f2 (g (n + 1)).1 (g (n + 1)).2
  exact ⟨congrArg (fun x => x.attrs.attitude) e, congrArg (fun x => x.attrs.bodyAngVel) e, congrArg (fun x => x.attrs.wheelVel) e⟩

/-! ## Samples that are too far apart -/

theorem UnlimitedWheels.zero {sat : Satellite} (h : UnlimitedWheels sat) : sat.rw.accelerations 0 = .ok 0 := by
  obtain ⟨n, ax, par, orth, maxT, hp, hrw⟩ := h
  have : ∀ rw : RWSystem, RWSystem.init (mkWheels ax par orth) maxT false = .ok rw → rw.accelerations 0 = .ok 0 := by
    intro rw hrw
    obtain rfl := rwInit_eq hrw
    simp only [RWSystem.accelerations, RWSystem.wheelTorques, Bool.false_eq_true, if_false, Matrix.mulVec_zero]
    rw [pyForall_ok]
    intro i
    simp only [Wheel.acceleration, npDiv]
    rw [if_neg (show (mkWheels ax par orth i).parScalar ≠ 0 from hp i)]
    simp
  exact this _ hrw

/-- Once round in the time `h`, about the axis `u`. -/
noncomputable def stallErr (u : V3) (phi h s : ℝ) : V4 :=
  ![Real.cos (phi + Real.pi * s / h), Real.sin (phi + Real.pi * s / h) * u 0,
    Real.sin (phi + Real.pi * s / h) * u 1, Real.sin (phi + Real.pi * s / h) * u 2]

theorem stallErr_unit {u : V3} (hu : npNorm u = 1) (phi h s : ℝ) : IsUnit4 (stallErr u phi h s) := by
  have h1 := npNorm3_sq u
  rw [hu] at h1
  have h2 := Real.sin_sq_add_cos_sq (phi + Real.pi * s / h)
  unfold IsUnit4 stallErr
  simp only [Matrix.cons_val_zero, Matrix.cons_val_one, cons4_2, cons4_3]
  linear_combination h2 - Real.sin (phi + Real.pi * s / h) ^ 2 * h1

theorem stallErr_deriv {u : V3} (hu : npNorm u = 1) (phi : ℝ) {h : ℝ} (s : ℝ) :
    HasDerivAt (stallErr u phi h) ((0.5 : ℝ) • product (stallErr u phi h s) (pureQ ((2 * Real.pi / h) • u))) s := by
  have h1 := npNorm3_sq u
  rw [hu] at h1
  have hd : HasDerivAt (fun s => phi + Real.pi * s / h) (Real.pi * 1 / h) s :=
    (((hasDerivAt_id s).const_mul Real.pi).div_const h).const_add phi
  have hc := hd.cos
  have hs := hd.sin
  rw [hasDerivAt_pi]
  intro i
  fin_cases i
  · refine hc.congr_deriv ?_
    simp only [Fin.zero_eta, Pi.smul_apply, smul_eq_mul, product_0, pureQ, stallErr, Matrix.cons_val_zero, Matrix.cons_val_one,
      cons4_2, cons4_3]
    linear_combination (-Real.sin (phi + Real.pi * s / h) * Real.pi / h) * h1
  · refine (hs.mul_const (u 0)).congr_deriv ?_
    simp only [Fin.mk_one, Pi.smul_apply, smul_eq_mul, product_1, pureQ, stallErr, Matrix.cons_val_zero, Matrix.cons_val_one,
      cons4_2, cons4_3]
    ring
  · refine (hs.mul_const (u 1)).congr_deriv ?_
    simp only [Fin.reduceFinMk, Pi.smul_apply, smul_eq_mul, product_2, pureQ, stallErr, Matrix.cons_val_zero, Matrix.cons_val_one,
      cons4_2, cons4_3]
    ring
  · refine (hs.mul_const (u 2)).congr_deriv ?_
    simp only [Fin.reduceFinMk, Pi.smul_apply, smul_eq_mul, product_3, pureQ, stallErr, Matrix.cons_val_zero, Matrix.cons_val_one,
      cons4_2, cons4_3]
    ring

/-- The trigger flips at every sample but the first. -/
def stallTrigger (hyst : ℝ) : ℕ → Trigger
  | 0 => ⟨1, hyst⟩
  | n + 1 => ⟨(-1) ^ n, hyst⟩

theorem stallTrigger_step {hyst x : ℝ} (hh : 0 < hyst) (hx : hyst ≤ x) (n : ℕ) :
    (stallTrigger hyst n).step ((-1) ^ n * x) = stallTrigger hyst (n + 1) := by
  cases n with
  | zero =>
    simp only [stallTrigger, pow_zero, one_mul, Trigger.step, mul_one]
    rw [if_neg (by linarith)]
  | succ n =>
    have e : (-1 : ℝ) ^ n * (-1) ^ n = 1 := by rw [← mul_pow]; simp
    have hle : (-1 : ℝ) ^ (n + 1) * x * (-1) ^ n ≤ -hyst := by
      have : (-1 : ℝ) ^ (n + 1) * x * (-1) ^ n = -x := by rw [pow_succ]; linear_combination -x * e
      rw [this]; linarith
    have hsg : npSign ((-1 : ℝ) ^ (n + 1) * x) = (-1) ^ (n + 1) := by
      have hxp : 0 < x := by linarith
      rcases neg_one_pow_eq_or ℝ (n + 1) with h | h <;> rw [h]
      · rw [npSign, if_neg (by linarith), if_neg (by linarith)]
      · rw [npSign, if_pos (by linarith)]
    have hle' : (-1 : ℝ) ^ (n + 1) * x * (stallTrigger hyst (n + 1)).memory ≤ -(stallTrigger hyst (n + 1)).halfWidth := hle
    rw [Trigger.step, if_pos hle', hsg]
    show Trigger.mk (if (-1 : ℝ) ^ (n + 1) ≠ 0 then (-1) ^ (n + 1) else _) _ = _
    rw [if_pos (pow_ne_zero _ (by norm_num))]
    rfl

/-- For every satellite and every principal axis of it, and every interval so long that `2 pi gamma / (h alpha)` leaves
room for the hysteresis: there is a run that turns about this axis once in an interval, for ever. At each sample the
damping term and the attitude term of the law cancel, and no torque is commanded. -/
theorem C204_stall (c : RwController) (ha : 0 < c.alpha) {mass : ℝ} {dims : V3} {ab cd : ℝ}
    (hb : Built c.sat mass dims ab cd) (hm : mass ≠ 0) (hw : UnlimitedWheels c.sat) (hav : c.objAvoidance = false)
    (s0 : Measurements c.sat.rw.n) (objs0 : List V3) (hobj : c.objects s0 = .ok objs0) (qc : V4) (hqc : npNorm qc = 1)
    {hyst : ℝ} (hh : 0 < hyst) {u : V3} {lam : ℝ} (hu : npNorm u = 1) (hp : c.sat.totalMoment *ᵥ u = lam • u) {h : ℝ}
    (h0 : 0 < h) (hk : (2 * Real.pi * c.gamma / (h * c.alpha)) ^ 2 ≤ 1 - hyst ^ 2) (x : SatState c.sat.rw.n) :
    ∃ (tr : ℕ → Trigger) (st : ℕ → ℝ → SatState c.sat.rw.n), Spec.TrackRun c qc h tr st ∧
      (tr 0).halfWidth = hyst ∧ (tr 0).memory = 1 ∧ ∀ n t, npNorm (st n t).attrs.attitude = 1 ∧
        (st n t).attrs.bodyAngVel = (2 * Real.pi / h) • u ∧ (st n t).attrs.wheelVel = 0 := by
  set kap := 2 * Real.pi * c.gamma / (h * c.alpha) with hkap
  set w := (2 * Real.pi / h) • u with hwd
  have hk1 : kap ^ 2 ≤ 1 := by nlinarith
  have hkle := abs_le.1 ((sq_le_one_iff_abs_le_one kap).1 hk1)
  set phi := -Real.arcsin kap with hphi
  have hcos : Real.cos phi = Real.sqrt (1 - kap ^ 2) := by rw [hphi, Real.cos_neg, Real.cos_arcsin]
  have hsin : Real.sin phi = -kap := by rw [hphi, Real.sin_neg, Real.sin_arcsin hkle.1 hkle.2]
  have hcosge : hyst ≤ Real.cos phi := by
    rw [hcos]
    apply Real.le_sqrt_of_sq_le
    linarith
  set st : ℕ → ℝ → SatState c.sat.rw.n := fun n t =>
    withSpin x (product qc (stallErr u phi h (n * h + t))) w 0 with hst
  have hq : ∀ n t, npNorm (st n t).attrs.attitude = 1 := fun n t =>
    (isUnit4_iff _).1 (isUnit4_product ((isUnit4_iff _).2 hqc) (stallErr_unit hu _ _ _))
  have herr : ∀ n t, errorQuat (st n t).attrs.attitude qc = stallErr u phi h (n * h + t) := by
    intro n t
    show product (conjugate qc) (product qc (stallErr u phi h (n * h + t))) = _
    rw [← product_assoc, conj_product_self ((isUnit4_iff _).2 hqc), one_product]
  have hang : ∀ n : ℕ, phi + Real.pi * (n * h + 0) / h = phi + n * Real.pi := by
    intro n; field_simp; ring
  have hH : ∀ n t, Spec.totalMomentum c.sat (st n t) = lam • w := by
    intro n t
    show c.sat.totalMoment *ᵥ w + c.sat.rw.momentum 0 = lam • w
    have : c.sat.rw.momentum 0 = 0 := by
      funext i; simp [RWSystem.momentum, Wheel.momentum]
    rw [this, add_zero, hwd, Matrix.mulVec_smul, hp, smul_comm]
  have hx : npCross w (lam • w) = 0 := by
    apply vec3_ext <;> simp [npCross_0, npCross_1, npCross_2] <;> ring
  refine ⟨stallTrigger hyst, st, fun n => ⟨?_, ?_, rfl, rfl⟩, rfl, rfl, fun n t => ⟨hq n t, rfl, rfl⟩⟩
  · obtain ⟨s, objs, law, c', a, hs, ho, ht, htr, hact, hta, hlaw⟩ :=
      commands_exist c hw hav s0 objs0 hobj qc (stallTrigger hyst n) (st n 0)
    have hstep : (stallTrigger hyst n).step (errorQuat (st n 0).attrs.attitude qc 0) = stallTrigger hyst (n + 1) := by
      rw [herr]
      show (stallTrigger hyst n).step (Real.cos (phi + Real.pi * (n * h + 0) / h)) = _
      rw [hang, Real.cos_add_nat_mul_pi]
      exact stallTrigger_step hh hcosge n
    have hv : vecPart (errorQuat (st n 0).attrs.attitude qc) = ((-1) ^ n * -kap) • u := by
      rw [herr]
      have : Real.sin (phi + Real.pi * (n * h + 0) / h) = (-1) ^ n * -kap := by
        rw [hang, Real.sin_add_nat_mul_pi, hsin]
      apply vec3_ext
      · show Real.sin (phi + Real.pi * (n * h + 0) / h) * u 0 = _
        rw [this]; rfl
      · show Real.sin (phi + Real.pi * (n * h + 0) / h) * u 1 = _
        rw [this]; rfl
      · show Real.sin (phi + Real.pi * (n * h + 0) / h) * u 2 = _
        rw [this]; rfl
    have hlaw0 : law = 0 := by
      have hbw : (st n 0).attrs.bodyAngVel = w := rfl
      rw [hlaw, hH, hbw, hx, zero_add, hstep, hv]
      have e : (-1 : ℝ) ^ n * (-1) ^ n = 1 := by rw [← mul_pow]; simp
      have e2 : kap * c.alpha = c.gamma * (2 * Real.pi / h) := by rw [hkap]; field_simp
      have : -((stallTrigger hyst (n + 1)).memory * c.alpha) • ((-1) ^ n * -kap) • u - c.gamma • w = 0 := by
        show -((-1 : ℝ) ^ n * c.alpha) • ((-1) ^ n * -kap) • u - c.gamma • (2 * Real.pi / h) • u = 0
        rw [smul_smul, smul_smul, ← sub_smul]
        have : -((-1 : ℝ) ^ n * c.alpha) * ((-1) ^ n * -kap) - c.gamma * (2 * Real.pi / h) = 0 := by
          linear_combination (c.alpha * kap) * e + e2
        rw [this, zero_smul]
      rw [this, Matrix.mulVec_zero]
    rw [hstep] at htr
    subst hlaw0
    have ha0 : a = 0 := by
      have h1 : c.sat.rw.accelerations (-0) = .ok a := hact
      rw [neg_zero, hw.zero] at h1
      exact (Except.ok.inj h1).symm
    subst ha0
    refine ⟨s, objs, 0, c', 0, hs, ho, .inl hav, ht, htr, hact, fun t _ => ?_⟩
    obtain ⟨d, hd, -, hwh, hatt, hrate⟩ := derivative_rate hb hm (st n t) 0 0 0 0 hta
    refine ⟨0, d, hd, ?_, ?_, ?_⟩
    · rw [hatt]
      have h1 : HasDerivAt (fun t : ℝ => stallErr u phi h (n * h + t))
          ((0.5 : ℝ) • product (stallErr u phi h (n * h + t)) (pureQ w)) t := by
        have := (stallErr_deriv hu phi (h := h) (n * h + t)).scomp t ((hasDerivAt_id t).const_add (n * h))
        rwa [one_smul] at this
      refine (hasDerivAt_product (hasDerivAt_const t qc) h1).congr_deriv ?_
      have z : ∀ y, product 0 y = 0 := fun y => by
        apply vec4_ext <;> simp [product_0, product_1, product_2, product_3]
      rw [z, zero_add, (C04_product_bilinear _ _ 0 _).2.2.2, ← product_assoc]
      rfl
    · rw [hrate]
      refine (hasDerivAt_const t w).congr_deriv ?_
      have : npCross (st n t).attrs.bodyAngVel (c.sat.totalMoment *ᵥ (st n t).attrs.bodyAngVel
          + c.sat.rw.momentum (st n t).attrs.wheelVel) = 0 := by
        show npCross w (Spec.totalMomentum c.sat (st n t)) = 0
        rw [hH, hx]
      rw [this, zero_add, sub_zero, Matrix.mulVec_zero]
    · rw [hwh]; exact hasDerivAt_const t 0
  · show product qc (stallErr u phi h ((n + 1 : ℕ) * h + 0)) = product qc (stallErr u phi h (n * h + h))
    congr 2
    push_cast; ring

/-- A symmetric inertia has a principal axis. -/
theorem principal_axis {J : M3} (hJ : J.IsSymm) : ∃ (u : V3) (lam : ℝ), npNorm u = 1 ∧ J *ᵥ u = lam • u := by
  have hA : J.IsHermitian := by
    rw [Matrix.IsHermitian, Matrix.conjTranspose_eq_transpose_of_trivial]; exact hJ
  refine ⟨⇑(hA.eigenvectorBasis 0), hA.eigenvalues 0, ?_, hA.mulVec_eigenvectorBasis 0⟩
  have := (orthonormal_iff_ite.1 hA.eigenvectorBasis.orthonormal) 0 0
  rw [EuclideanSpace.inner_eq_star_dotProduct] at this
  simp only [if_true, star_trivial] at this
  have h2 := dot_self3 ⇑(hA.eigenvectorBasis 0)
  rw [this] at h2
  exact (pow_left_inj₀ (npNorm_nonneg _) zero_le_one two_ne_zero).1 (by rw [one_pow]; exact h2.symm)

/-- For a controller made by the constructor with `natural_freq = f` and `damping_ratio = d`, and every satellite with a
symmetric inertia: whenever `2 pi d / (h f)` is at most 0.9, the samples are too far apart. -/
theorem C204_too_far (model : CtlModel) (damping natFreq : ℝ) (hd : 0 < damping) (hn : 0 < natFreq) (c : RwController)
    (hc : RwController.init model damping natFreq = .ok c) {mass : ℝ} {dims : V3} {ab cd : ℝ}
    (hb : Built c.sat mass dims ab cd) (hm : mass ≠ 0) (hw : UnlimitedWheels c.sat) (hs : c.sat.totalMoment.IsSymm)
    (s0 : Measurements c.sat.rw.n) (objs0 : List V3) (hobj : c.objects s0 = .ok objs0) (qc : V4) (hqc : npNorm qc = 1)
    {h : ℝ} (h0 : 0 < h) (hk : 2 * Real.pi * damping / (h * natFreq) ≤ 0.9) (x : SatState c.sat.rw.n) :
    ∃ (tr : ℕ → Trigger) (st : ℕ → ℝ → SatState c.sat.rw.n),
      Spec.TrackRun { c with objAvoidance := false } qc h tr st ∧ tr 0 = c.trigger ∧
      ∀ n t, npNorm (st n t).attrs.attitude = 1 ∧ npNorm (st n t).attrs.bodyAngVel = 2 * Real.pi / h := by
  obtain ⟨ha, hal, hga, hhw, hmem, -⟩ := C69_gains model damping natFreq c hc
  obtain ⟨u, lam, hu, hp⟩ := principal_axis hs
  have e : 2 * Real.pi * c.gamma / (h * c.alpha) = 2 * Real.pi * damping / (h * natFreq) := by
    rw [hal, hga]; field_simp
  have hp0 : 0 ≤ 2 * Real.pi * damping / (h * natFreq) := by positivity
  obtain ⟨tr, st, h1, h2, h3, h4⟩ := C204_stall { c with objAvoidance := false } ha hb hm hw rfl s0 objs0 hobj qc hqc
    (hyst := 0.3) (by norm_num) hu hp h0 (by
      show (2 * Real.pi * c.gamma / (h * c.alpha)) ^ 2 ≤ _
      rw [e]
      have := pow_le_pow_left₀ hp0 hk 2
      norm_num at this ⊢
      linarith) x
  refine ⟨tr, st, h1, ?_, fun n t => ⟨(h4 n t).1, ?_⟩⟩
  · cases htr : tr 0
    cases hct : c.trigger
    rw [htr] at h2 h3
    rw [hct] at hhw hmem
    simp only at h2 h3 hhw hmem
    rw [h2, h3, hhw, hmem]
  · rw [(h4 n t).2.1, npNorm_smul, hu, mul_one, abs_of_pos (by positivity)]

/-- The full claim: for every controller made by the constructor with positive gains, and every interval between the
samples, the errors go to zero. -/
def C204_claim : Prop :=
  ∀ (model : CtlModel) (damping natFreq : ℝ) (c : RwController), 0 < damping → 0 < natFreq →
    RwController.init model damping natFreq = .ok c →
    ∀ (mass : ℝ) (dims : V3) (ab cd : ℝ), Built c.sat mass dims ab cd → mass ≠ 0 → UnlimitedWheels c.sat →
    ∀ (qc : V4) (h : ℝ) (tr : ℕ → Trigger) (st : ℕ → ℝ → SatState c.sat.rw.n), npNorm qc = 1 → 0 < h →
      tr 0 = c.trigger → npNorm (st 0 0).attrs.attitude = 1 → Spec.TrackRun { c with objAvoidance := false } qc h tr st →
      Tendsto (fun n => npNorm (st n 0).attrs.bodyAngVel) atTop (𝓝 0)

/-- A run for the satellite of the examples. -/
theorem exTrackRun : ∃ (model : CtlModel) (c : RwController) (tr : ℕ → Trigger) (st : ℕ → ℝ → SatState c.sat.rw.n),
    RwController.init model 1 1 = .ok c ∧ Built c.sat 2 ![0.1, 0.1, 0.2] 0.8 2.2 ∧ UnlimitedWheels c.sat ∧
    tr 0 = c.trigger ∧ Spec.TrackRun { c with objAvoidance := false } ![1, 0, 0, 0] 10 tr st ∧
    ∀ n t, npNorm (st n t).attrs.attitude = 1 ∧ npNorm (st n t).attrs.bodyAngVel = 2 * Real.pi / 10 := by
  obtain ⟨sat, hb, hpd, -, hI, hins, hrw⟩ := exSat3 false []
  set model : CtlModel := ⟨sat, some exClock, some fun _ _ => .ok ![1, 0, 0]⟩ with hmodel
  have hc0 : RwController.init model 1 1 =
      .ok ⟨sat, exClock, some fun _ _ => .ok ![1, 0, 0], true, Trigger.init 1 0.3, 2 * 1 ^ 2, 2 * 1 * 1,
        sat.instruments.map fun i => setGains i Real.pi (2 * 1 ^ 2 * 1)⟩ := by
    unfold RwController.init
    simp only [hmodel]
    rw [if_neg (by norm_num)]
  have hw : UnlimitedWheels sat := ⟨3, exAxes, fun _ => 1e-5, fun _ => 2e-6, 0.002, fun _ => by norm_num, hrw⟩
  obtain ⟨-, c1, st1, -⟩ := exLoop 0 0 []
  set x : SatState sat.rw.n :=
    { arr := exRaw sat.rw.n, clock := none, attrs := { st1.attrs with wheelVel := 0 } } with hx
  obtain ⟨tr, st, h1, h2, h3⟩ := C204_too_far model 1 1 one_pos one_pos _ hc0 hb (by norm_num) hw
    (by show sat.totalMoment.IsSymm; rw [hI]; exact Matrix.isSymm_diagonal _)
    ⟨0, 0, 0, 0, 0, 0, 0⟩ _ rfl ![1, 0, 0, 0] (npNorm_vec4 (by norm_num)) (h := 10) (by norm_num)
    (by have := Real.pi_lt_d2; rw [mul_one, mul_one]; linarith) x
  exact ⟨model, _, tr, st, hc0, hb, hw, h2, h1, h3⟩

theorem C204_fails : ¬ C204_claim := by
  intro hcl
  obtain ⟨model, c, tr, st, hc, hb, hw, htr, hrun, hall⟩ := exTrackRun
  have := hcl model 1 1 c one_pos one_pos hc _ _ _ _ hb (by norm_num) hw ![1, 0, 0, 0] 10 tr st
    (npNorm_vec4 (by norm_num)) (by norm_num) htr (hall 0 0).1 hrun
  have h2 : Tendsto (fun n : ℕ => npNorm (st n 0).attrs.bodyAngVel) atTop (𝓝 (2 * Real.pi / 10)) := by
    simp only [(hall _ 0).2]
    exact tendsto_const_nhds
  have h3 := tendsto_nhds_unique this h2
  have := Real.pi_pos
  linarith

/-- For controllers made by the constructor: however large the error and the momentum at the beginning, with samples
often enough the satellite comes to rest in the commanded attitude, up to the sign of its quaternion. -/
theorem C204_limit_partial (model : CtlModel) (damping natFreq : ℝ) (hd : 0 < damping) (hn : 0 < natFreq) (c : RwController)
    (hc : RwController.init model damping natFreq = .ok c) (av : Bool) {mass : ℝ} {dims : V3} {ab cd : ℝ}
    (hb : Built c.sat mass dims ab cd) (hm : mass ≠ 0) (hw : UnlimitedWheels c.sat) (qc : V4) (hqc : npNorm qc = 1)
    (R B : ℝ) :
    ∃ h0 > 0, ∀ h, 0 < h → h ≤ h0 → ∀ (tr : ℕ → Trigger) (st : ℕ → ℝ → SatState c.sat.rw.n),
      tr 0 = c.trigger → npNorm (st 0 0).attrs.attitude = 1 → npNorm (st 0 0).attrs.bodyAngVel ≤ R →
      npNorm (Spec.totalMomentum c.sat (st 0 0)) ≤ B → Spec.TrackRun { c with objAvoidance := av } qc h tr st →
      ∀ t : ℕ → ℝ, (∀ n, t n ∈ Icc 0 h) →
      Tendsto (fun n => npNorm (st n (t n)).attrs.bodyAngVel) atTop (𝓝 0) ∧
      Tendsto (fun n => npNorm ((st n (t n)).attrs.attitude - (tr (n + 1)).memory • qc)) atTop (𝓝 0) := by
  obtain ⟨ha, hal, hga, hhw, hmem, -⟩ := C69_gains model damping natFreq c hc
  have hg : 0 < c.gamma := by rw [hga]; positivity
  obtain ⟨h0, hh0, k, hk, C, hall⟩ := C204_short_partial { c with objAvoidance := av } ha hg hb hm hw (hyst := 0.3)
    (by norm_num) (by norm_num) qc hqc (R ^ 2 / 2 + 4 * c.alpha) B
  refine ⟨h0, hh0, fun h hp hle tr st htr hu hR hB hrun t ht => ?_⟩
  have hm0 : (tr 0).memory = 1 ∨ (tr 0).memory = -1 := by rw [htr]; exact .inl hmem
  have hV : Spec.trackError c.alpha (tr 0).memory qc (st 0 0) ≤ R ^ 2 / 2 + 4 * c.alpha := by
    rw [trackError_eq hm0 hqc hu, lyap, dot_self3]
    have h1 : npNorm (st 0 0).attrs.bodyAngVel ^ 2 ≤ R ^ 2 := pow_le_pow_left₀ (npNorm_nonneg _) hR 2
    have hue : IsUnit4 (errorQuat (st 0 0).attrs.attitude qc) := errorQuat_unit ((isUnit4_iff _).2 hu) ((isUnit4_iff _).2 hqc)
    have h2 := vecPart_unit hue
    have h3 := dot_self_nonneg3 (vecPart (errorQuat (st 0 0).attrs.attitude qc))
    have h4 := abs_le.1 ((sq_le_one_iff_abs_le_one (errorQuat (st 0 0).attrs.attitude qc 0)).1 (by linarith))
    have h5 : -1 ≤ (tr 0).memory * errorQuat (st 0 0).attrs.attitude qc 0 := by
      rcases hm0 with h | h <;> rw [h] <;> linarith [h4.1, h4.2]
    have h6 : 2 * c.alpha * (1 - (tr 0).memory * errorQuat (st 0 0).attrs.attitude qc 0) ≤ 2 * c.alpha * 2 :=
      mul_le_mul_of_nonneg_left (by linarith) (by positivity)
    linarith
  have hall' := hall h hp hle tr st (by rw [htr]; exact hhw) hm0 hu hV hB hrun
  set E0 := Spec.trackError c.alpha (tr 0).memory qc (st 0 0) with hE0
  have hE : 0 ≤ E0 := by
    rw [hE0, Spec.trackError]
    have := dot_self_nonneg3 (st 0 0).attrs.bodyAngVel
    positivity
  have hC : ∀ n, Spec.trackError c.alpha (tr (n + 1)).memory qc (st n (t n)) ≤
      |C| * E0 * Real.exp (-(k * h)) ^ n := by
    intro n
    have h1 := (hall' n (t n) (ht n)).2
    have h2 : Real.exp (-k * (n * h + t n)) ≤ Real.exp (-(k * h)) ^ n := by
      rw [← Real.exp_nat_mul]
      apply Real.exp_le_exp.2
      have := mul_nonneg hk.le (ht n).1
      linarith
    refine h1.trans ?_
    have h3 : C * Real.exp (-k * (n * h + t n)) ≤ |C| * Real.exp (-(k * h)) ^ n :=
      mul_le_mul (le_abs_self C) h2 (Real.exp_pos _).le (abs_nonneg C)
    calc _ ≤ |C| * Real.exp (-(k * h)) ^ n * E0 := mul_le_mul_of_nonneg_right h3 hE
      _ = _ := by ring
  have hlim : Tendsto (fun n : ℕ => |C| * E0 * Real.exp (-(k * h)) ^ n) atTop (𝓝 0) := by
    have hlt : Real.exp (-(k * h)) < 1 := by
      rw [Real.exp_lt_one_iff]; have := mul_pos hk hp; linarith
    have := (tendsto_pow_atTop_nhds_zero_of_lt_one (Real.exp_pos _).le hlt).const_mul (|C| * E0)
    rwa [mul_zero] at this
  have hsq : ∀ f : ℕ → ℝ, (∀ n, 0 ≤ f n) → ∀ m : ℝ, 0 < m → (∀ n, m * f n ^ 2 ≤ |C| * E0 * Real.exp (-(k * h)) ^ n) →
      Tendsto f atTop (𝓝 0) := by
    intro f hf m hm hle
    have h0 : Tendsto (fun n => f n ^ 2) atTop (𝓝 0) := by
      have h2 := hlim.const_mul (1 / m)
      rw [mul_zero] at h2
      refine tendsto_of_tendsto_of_tendsto_of_le_of_le tendsto_const_nhds h2 (fun n => sq_nonneg _) fun n => ?_
      show f n ^ 2 ≤ 1 / m * (|C| * E0 * Real.exp (-(k * h)) ^ n)
      rw [one_div, ← div_eq_inv_mul, le_div_iff₀ hm, mul_comm]
      exact hle n
    have h3 := (Real.continuous_sqrt.tendsto 0).comp h0
    rw [Real.sqrt_zero] at h3
    exact h3.congr fun n => Real.sqrt_sq (hf n)
  refine ⟨hsq _ (fun n => npNorm_nonneg _) (1 / 2) (by norm_num) fun n => ?_,
    hsq _ (fun n => npNorm_nonneg _) c.alpha ha fun n => ?_⟩
  · have := hC n
    rw [Spec.trackError, dot_self3] at this
    have h2 : 0 ≤ c.alpha * npNorm ((st n (t n)).attrs.attitude - (tr (n + 1)).memory • qc) ^ 2 := by positivity
    linarith
  · have := hC n
    rw [Spec.trackError] at this
    have h2 := dot_self_nonneg3 (st n (t n)).attrs.bodyAngVel
    linarith

/-! ## Concrete cases -/

/-- The hypotheses of `C204_short_partial` and `C204_limit_partial` are met by runs that start with a rate, wheels that
turn and an attitude far from the command, for every interval. -/
example (h : ℝ) (hh : 0 < h) : ∃ (model : CtlModel) (c : RwController) (tr : ℕ → Trigger)
    (st : ℕ → ℝ → SatState c.sat.rw.n) (qc : V4),
    RwController.init model 1 1 = .ok c ∧ Built c.sat 2 ![0.1, 0.1, 0.2] 0.8 2.2 ∧ UnlimitedWheels c.sat ∧
    npNorm qc = 1 ∧ tr 0 = c.trigger ∧ npNorm (st 0 0).attrs.attitude = 1 ∧
    (st 0 0).attrs.bodyAngVel = ![0.1, 0.2, 0.3] ∧ (st 0 0).attrs.wheelVel = (fun _ => 100) ∧
    errorQuat (st 0 0).attrs.attitude qc 0 = 0.6 ∧
    Spec.TrackRun { c with objAvoidance := false } qc h tr st := by
  obtain ⟨model, c, st, s, objs, hc, hb, hw, hav, hs, hobj, hn, hrate, -, -, -, hwhl⟩ := exLoop ![0.1, 0.2, 0.3] 0 []
  have hu : npNorm st.attrs.attitude = 1 := by rw [← hs.1]; exact hn
  set E : V4 := ![0.6, 0, 0.8, 0] with hE
  have hEu : IsUnit4 E := by norm_num [IsUnit4, hE, cons4_2, cons4_3]
  set qc := product st.attrs.attitude (conjugate E) with hqc
  have hcj : conjugate (conjugate E) = E := by
    apply vec4_ext <;> simp [conjugate_0, conjugate_1, conjugate_2, conjugate_3]
  have herr : errorQuat st.attrs.attitude qc = E := by
    rw [errorQuat, hqc, conjugate_product, product_assoc, conj_product_self ((isUnit4_iff _).2 hu), product_one, hcj]
  have hqu : npNorm qc = 1 := (isUnit4_iff _).1 (isUnit4_product ((isUnit4_iff _).2 hu) (isUnit4_conjugate hEu))
  obtain ⟨tr, run, h1, h2, h3⟩ := C204_exists { c with objAvoidance := false } hb (by norm_num) hw rfl s objs hobj qc h hh.le
    c.trigger st hu
  refine ⟨model, c, tr, run, qc, hc, hb, hw, hqu, h2, by rw [h3]; exact hu, by rw [h3, ← hs.2.1]; exact hrate,
    by rw [h3, ← hs.2.2]; exact hwhl, by rw [h3, herr]; simp [hE], h1⟩

end Adcs
