import Verif.Proofs.SignRuns
import Verif.Props.SignReadings
import Verif.Props.Slew

set_option autoImplicit false

/-! # C223: what becomes of the closed loop when the sign of the attitude read is arbitrary -/

namespace Adcs

open Str Ctl Sens JDay Quat Vec Dyn
open scoped Matrix Topology

/-- One instant of the closed loop with either sign of the quaternions: the satellite is in the state `st`, the controller
remembers `tr`, reads the true rate and wheels and `ε` times the true attitude and is given `ε'` times the attitude `qc`;
then it remembers `tr'`, and `d` is the derivative which the library's dynamics give for its commands under no torque of the
environment. -/
def Spec.SignedInstant (c : RwController) (qc : V4) (ε ε' : ℝ) (tr tr' : Trigger) (st : SatState c.sat.rw.n)
    (d : Raw c.sat.rw.n) : Prop :=
  ∃ (s : Measurements c.sat.rw.n) (objs : List V3) (law : V3) (c' : RwController) (a : Fin c.sat.rw.n → ℝ) (F : V3),
    s.att = ε • st.attrs.attitude ∧ s.rate = st.attrs.bodyAngVel ∧ s.whl = st.attrs.wheelVel ∧
    ({ c with trigger := tr } : RwController).objects s = .ok objs ∧
    (c.objAvoidance = false ∨ Clear c.instruments objs) ∧
    ({ c with trigger := tr } : RwController).tracking s 0 0 (ε' • qc) = (.ok law, c') ∧ c'.trigger = tr' ∧
    c.actuatorCommands law = .ok a ∧ derivative c.sat st ⟨F, 0⟩ a = .ok d

/-- Runs of the closed loop with either sign of the quaternions, which may be another one in each piece of the motion:
time, memory, state. A piece of motion is continuous, and up to its end (exclusive) the controller holds its sign; there it
may switch. -/
inductive Spec.SignRun (c : RwController) (qc : V4) (tr0 : Trigger) (st0 : SatState c.sat.rw.n) :
    ℝ → Trigger → SatState c.sat.rw.n → Prop
  | start : SignRun c qc tr0 st0 0 tr0 st0
  | flow {t : ℝ} {tr : Trigger} (st : ℝ → SatState c.sat.rw.n) (T ε ε' : ℝ) (hT : 0 ≤ T) (hε : ε = 1 ∨ ε = -1)
      (hε' : ε' = 1 ∨ ε' = -1) :
      SignRun c qc tr0 st0 t tr (st 0) →
      ContinuousOn (fun τ => (st τ).attrs.attitude) (Set.Icc 0 T) →
      ContinuousOn (fun τ => (st τ).attrs.bodyAngVel) (Set.Icc 0 T) →
      (∀ τ ∈ Set.Ico 0 T, ∃ d, Spec.SignedInstant c qc ε ε' tr tr (st τ) d ∧
        HasDerivAt (fun τ => (st τ).attrs.attitude) d.att τ ∧ HasDerivAt (fun τ => (st τ).attrs.bodyAngVel) d.rate τ) →
      SignRun c qc tr0 st0 (t + T) tr (st T)
  | switch {t : ℝ} {tr tr' : Trigger} {st : SatState c.sat.rw.n} {d : Raw c.sat.rw.n} (ε ε' : ℝ) (hε : ε = 1 ∨ ε = -1)
      (hε' : ε' = 1 ∨ ε' = -1) :
      SignRun c qc tr0 st0 t tr st → Spec.SignedInstant c qc ε ε' tr tr' st d → SignRun c qc tr0 st0 t tr' st

/-- What C140 proves of the loop that is given the true attitude: for every bound on the initial error and every tolerance
there is a time after which the satellite is within the tolerance of rest in the commanded attitude. -/
def C223_claim : Prop :=
  ∀ (model : CtlModel) (damping natFreq : ℝ), 0 < damping → 0 < natFreq → ∀ (c : RwController),
    RwController.init model damping natFreq = .ok c → ∀ (av : Bool) (mass : ℝ) (dims : V3) (ab cd : ℝ),
    Built c.sat mass dims ab cd → mass ≠ 0 → UnlimitedWheels c.sat → ∀ V e : ℝ, 0 < e →
    ∃ T, ∀ (qc : V4), npNorm qc = 1 → ∀ (tr0 tr : Trigger) (st0 st : SatState c.sat.rw.n) (t : ℝ),
      tr0.halfWidth = 0.3 → (tr0.memory = 1 ∨ tr0.memory = -1) → npNorm st0.attrs.attitude = 1 →
      st0.attrs.bodyAngVel ⬝ᵥ st0.attrs.bodyAngVel / 2
        + c.alpha * npNorm (st0.attrs.attitude - tr0.memory • qc) ^ 2 ≤ V →
      Spec.SignRun { c with objAvoidance := av } qc tr0 st0 t tr st → T ≤ t →
      npNorm st.attrs.bodyAngVel ≤ e ∧ ∃ s : ℝ, (s = 1 ∨ s = -1) ∧ npNorm (st.attrs.attitude - s • qc) ≤ e

/-- The field with either sign has solutions for ever. -/
theorem loop_global {alpha gamma sgn : ℝ} (ha : 0 < alpha) (hg : 0 ≤ gamma) (hs : sgn = 1 ∨ sgn = -1) {qc : V4}
    (hqc : npNorm qc = 1) (x0 : V4 × V3) (hu0 : npNorm x0.1 = 1) :
    ∃ Y : ℝ → V4 × V3, Y 0 = x0 ∧ ∀ t, 0 ≤ t → HasDerivAt Y (loopField alpha gamma sgn qc (Y t)) t := by
  set V0 := lyap alpha sgn (errorQuat x0.1 qc 0) x0.2 with hV0
  set f := loopField alpha gamma sgn qc with hf
  set K : Set (V4 × V3) := {x | npNorm x.1 = 1 ∧ lyap alpha sgn (errorQuat x.1 qc 0) x.2 ≤ V0} with hK
  have hinv : ∀ (y : ℝ → V4 × V3) (T : ℝ), 0 ≤ T → y 0 ∈ K → (∀ t ∈ Set.Icc 0 T, HasDerivAt y (f (y t)) t) → y T ∈ K := by
    intro y T hT hy0 hy
    have hr : HybridRun alpha gamma 0 qc sgn (y 0).1 (y 0).2 sgn (y T).1 (y T).2 0 :=
      HybridRun.flow (fun τ => (y τ).1) (fun τ => (y τ).2) T hT .start
        (fun τ hτ => (hy τ hτ).continuousAt.fst.continuousWithinAt)
        (fun τ hτ => (hy τ hτ).continuousAt.snd.continuousWithinAt)
        (fun τ hτ => (hy τ ⟨hτ.1, hτ.2.le⟩).fst) (fun τ hτ => (hy τ ⟨hτ.1, hτ.2.le⟩).snd)
    obtain ⟨-, j2, j3, -⟩ := C69_run hg ha hqc hs hy0.1 hr
    simp only [Nat.cast_zero, mul_zero, add_zero] at j3
    exact ⟨j2, j3.trans hy0.2⟩
  set R := Real.sqrt (2 * V0)
  have hsub : K ⊆ Metric.closedBall 0 1 ×ˢ Metric.closedBall 0 R := by
    rintro ⟨q, w⟩ ⟨j2, j3⟩
    simp only at j2 j3
    refine ⟨?_, ?_⟩
    · rw [mem_closedBall_zero_iff]
      refine (pi_norm_le_iff_of_nonneg zero_le_one).2 fun i => ?_
      have hu' := (isUnit4_iff _).2 j2
      unfold IsUnit4 at hu'
      rw [Real.norm_eq_abs]
      apply abs_le_one_iff_mul_self_le_one.2
      fin_cases i <;> simp only [Fin.zero_eta, Fin.mk_one, Fin.reduceFinMk] <;>
        nlinarith [sq_nonneg (q 0), sq_nonneg (q 1), sq_nonneg (q 2), sq_nonneg (q 3)]
    · rw [mem_closedBall_zero_iff]
      refine (pi_norm_le_iff_of_nonneg (Real.sqrt_nonneg _)).2 fun i => ?_
      rw [Real.norm_eq_abs]
      apply Real.abs_le_sqrt
      have hd := quat_dist hs j2 hqc
      have hpos : 0 ≤ 2 * alpha * (1 - sgn * errorQuat q qc 0) := by
        have := sq_nonneg (npNorm (q - sgn • qc))
        have h2 : 0 ≤ 1 - sgn * errorQuat q qc 0 := by linarith
        positivity
      have hle : w ⬝ᵥ w ≤ 2 * V0 := by
        unfold lyap at j3
        linarith
      rw [Matrix.vec3_dotProduct] at hle
      fin_cases i <;> simp only [Fin.zero_eta, Fin.mk_one, Fin.reduceFinMk] <;>
        nlinarith [sq_nonneg (w 0), sq_nonneg (w 1), sq_nonneg (w 2)]
  obtain ⟨E, hE, hsol⟩ := uniform_time (loopField_contDiff alpha gamma sgn qc)
    ((isCompact_closedBall (0 : V4) 1).prod (isCompact_closedBall (0 : V3) R))
  exact global_of_local (f := f) (K := K) (ε := E / 2) (by linarith) (fun x hx => by
    obtain ⟨y, y0, hy⟩ := hsol x (hsub hx)
    have hy' : ∀ t ∈ Set.Icc (-(E / 2)) (E / 2), HasDerivAt y (f (y t)) t := fun t ht => hy t ⟨by linarith [ht.1], by linarith [ht.2]⟩
    exact ⟨y, y0, hy', hinv y (E / 2) (by linarith) (y0 ▸ hx) fun t ht => hy' t ⟨by linarith [ht.1], ht.2⟩⟩)
    x0 ⟨hu0, le_rfl⟩

/-- A solution of the field is a turn. -/
theorem loop_turn {alpha gamma sgn : ℝ} (hs : sgn = 1 ∨ sgn = -1) {qc : V4} (hqc : npNorm qc = 1) {Y : ℝ → V4 × V3}
    (hu : npNorm (Y 0).1 = 1) (hY : ∀ t, 0 ≤ t → HasDerivAt Y (loopField alpha gamma sgn qc (Y t)) t) (T : ℝ) :
    TurnFlow alpha gamma (fun τ => sgn • errorQuat (Y τ).1 qc) (fun τ => (Y τ).2) T ∧
      ∀ τ ∈ Set.Icc 0 T, npNorm (Y τ).1 = 1 := by
  have hdq : ∀ τ, 0 ≤ τ → HasDerivAt (fun τ => (Y τ).1) ((0.5 : ℝ) • product (Y τ).1 (pureQ (Y τ).2)) τ :=
    fun τ hτ => (hY τ hτ).fst
  have hcq : ContinuousOn (fun τ => (Y τ).1) (Set.Icc 0 T) :=
    fun τ hτ => (hdq τ hτ.1).continuousAt.continuousWithinAt
  have hunit : ∀ τ ∈ Set.Icc 0 T, npNorm (Y τ).1 = 1 := by
    intro τ hτ
    rw [← hu]
    exact norm_flow (q := fun τ => (Y τ).1) (w := fun τ => (Y τ).2) hτ.1
      (hcq.mono (Set.Icc_subset_Icc_right hτ.2)) fun σ hσ => hdq σ hσ.1
  refine ⟨⟨ContinuousOn.fun_const_smul ((errorQuat_continuous qc).comp_continuousOn hcq) _,
    fun τ hτ => (hY τ hτ.1).continuousAt.snd.continuousWithinAt, ?_, ?_, ?_⟩, hunit⟩
  · intro τ hτ
    have h1 := errorQuat_unit ((isUnit4_iff _).2 (hunit τ hτ)) ((isUnit4_iff _).2 hqc)
    unfold IsUnit4 at h1 ⊢
    simp only [Pi.smul_apply, smul_eq_mul]
    rcases hs with h | h <;> rw [h] <;> linarith
  · intro τ hτ
    have hp := (hasDerivAt_product (hasDerivAt_const τ (conjugate qc)) (hdq τ hτ.1)).const_smul sgn
    refine hp.congr_deriv ?_
    have z : product 0 (Y τ).1 = 0 := by
      apply vec4_ext <;> simp [product_0, product_1, product_2, product_3]
    rw [z, zero_add, (C04_product_bilinear _ _ 0 _).2.2.2, ← product_assoc, (C04_product_bilinear _ _ 0 _).2.2.1,
      smul_comm]
    rfl
  · intro τ hτ
    have hdw : HasDerivAt (fun τ => (Y τ).2) (-(sgn * alpha) • vecPart (errorQuat (Y τ).1 qc) - gamma • (Y τ).2) τ :=
      (hY τ hτ.1).snd
    refine hdw.congr_deriv ?_
    have e : vecPart (sgn • errorQuat (Y τ).1 qc) = sgn • vecPart (errorQuat (Y τ).1 qc) := by
      apply vec3_ext <;> simp only [vecPart_0, vecPart_1, vecPart_2, Pi.smul_apply]
    rw [e, smul_smul, show -alpha * sgn = -(sgn * alpha) by ring]

/-- With the attitude read as `ε` times the true one the loop obeys the field of the sign `ε` times the memory. -/
theorem read_exists (c : RwController) {mass : ℝ} {dims : V3} {ab cd : ℝ} (hb : Built c.sat mass dims ab cd)
    (hm : mass ≠ 0) (hw : UnlimitedWheels c.sat) (hav : c.objAvoidance = false)
    (s0 : Measurements c.sat.rw.n) (objs0 : List V3) (hobj : c.objects s0 = .ok objs0) (qc : V4) (tr : Trigger) {ε : ℝ}
    (hε : ε = 1 ∨ ε = -1) (st : SatState c.sat.rw.n) :
    ∃ d, Spec.SignedInstant c qc ε 1 tr (tr.step (ε * errorQuat st.attrs.attitude qc 0)) st d ∧
      (d.att, d.rate) = loopField c.alpha c.gamma (ε * (tr.step (ε * errorQuat st.attrs.attitude qc 0)).memory) qc
        (st.attrs.attitude, st.attrs.bodyAngVel) := by
  have e1 : errorQuat st.attrs.attitude (ε • qc) = ε • errorQuat st.attrs.attitude qc := by
    have := errorQuat_signs 1 ε st.attrs.attitude qc
    rwa [one_smul, one_mul] at this
  have e2 : errorQuat (ε • st.attrs.attitude) ((1 : ℝ) • qc) = ε • errorQuat st.attrs.attitude qc := by
    rw [errorQuat_signs, mul_one]
  have hz : errorQuat st.attrs.attitude (ε • qc) 0 = ε * errorQuat st.attrs.attitude qc 0 := by rw [e1]; rfl
  set s : Measurements c.sat.rw.n :=
    { s0 with att := st.attrs.attitude, rate := st.attrs.bodyAngVel, whl := st.attrs.wheelVel }
  obtain ⟨objs, ho⟩ : ∃ objs, c.objects s = .ok objs := by
    unfold RwController.objects at hobj ⊢
    split at hobj
    · cases hobj
    · next f hf =>
      split at hobj
      · cases hobj
      · next sun hsun => exact ⟨_, by rw [show s.pos = s0.pos from rfl, hsun]⟩
  have hs : Measured s st := ⟨rfl, rfl, rfl⟩
  obtain ⟨law, c', a, d, h1, h2, h3, h4, h5, h6⟩ :=
    C69_acceleration { c with trigger := tr } hb hm hw hav st s hs objs ho 0 0 (ε • qc) 0 0
  have ho' : ({ c with trigger := tr } : RwController).objects { s with att := ε • s.att } = .ok objs :=
    (objects_signs c tr s hε).trans ho
  have hst : c'.trigger = tr.step (ε * errorQuat st.attrs.attitude qc 0) := by rw [h4, ← hz]; rfl
  refine ⟨d, ⟨{ s with att := ε • s.att }, objs, law, c', a, 0, rfl, rfl, rfl, ho', .inl hav, ?_, hst, h2, h3⟩, ?_⟩
  · rw [tracking_plain (c := { c with trigger := tr }) hav ho] at h1
    rw [tracking_plain (c := { c with trigger := tr }) hav ho', ← h1]
    simp only [show s.att = st.attrs.attitude from rfl, e1, e2]
  · have z : ∀ q : V4, sandwich q 0 = 0 := fun q => by rw [sandwich_eq_dcm, Matrix.mulVec_zero]
    have e3 : vecPart (ε • errorQuat st.attrs.attitude qc) = ε • vecPart (errorQuat st.attrs.attitude qc) := by
      apply vec3_ext <;> simp only [vecPart_0, vecPart_1, vecPart_2, Pi.smul_apply]
    rw [h6, z, hst, h5, e1, e3]
    simp only [LinearMap.map_zero, add_zero, sub_zero, Matrix.mulVec_zero, zero_sub]
    rw [← neg_smul, smul_smul]
    unfold loopField
    refine Prod.ext rfl ?_
    simp only
    congr 2
    ring

/-- A run goes on along a solution of the field with the sign `sgn`, for the right sign of the attitude read, as long as the
memory is held. -/
theorem sign_flow (c : RwController) {mass : ℝ} {dims : V3} {ab cd : ℝ} (hb : Built c.sat mass dims ab cd)
    (hm : mass ≠ 0) (hw : UnlimitedWheels c.sat) (hav : c.objAvoidance = false)
    (s0 : Measurements c.sat.rw.n) (objs0 : List V3) (hobj : c.objects s0 = .ok objs0) {qc : V4} {tr : Trigger}
    (hmem : tr.memory = 1 ∨ tr.memory = -1) {st0 st : SatState c.sat.rw.n} {t sgn : ℝ} (hs : sgn = 1 ∨ sgn = -1)
    (hrun : Spec.SignRun c qc tr st0 t tr st) {Y : ℝ → V4 × V3}
    (h0 : Y 0 = (st.attrs.attitude, st.attrs.bodyAngVel)) {T : ℝ} (hT : 0 ≤ T)
    (hy : ∀ τ, 0 ≤ τ → HasDerivAt Y (loopField c.alpha c.gamma sgn qc (Y τ)) τ)
    (hh : ∀ τ ∈ Set.Ico 0 T, -tr.halfWidth < sgn * errorQuat (Y τ).1 qc 0) :
    Spec.SignRun c qc tr st0 (t + T) tr (withMotion st (Y T)) := by
  have e0 : withMotion st (Y 0) = st := by rw [h0]; rfl
  have hε : sgn * tr.memory = 1 ∨ sgn * tr.memory = -1 := by
    rcases hs with h | h <;> rcases hmem with h' | h' <;> rw [h, h'] <;> norm_num
  have hmm : tr.memory * tr.memory = 1 := by rcases hmem with h' | h' <;> rw [h'] <;> norm_num
  refine .flow (fun τ => withMotion st (Y τ)) T (sgn * tr.memory) 1 hT hε (.inl rfl) (e0.symm ▸ hrun)
    (fun τ hτ => (hy τ hτ.1).continuousAt.fst.continuousWithinAt)
    (fun τ hτ => (hy τ hτ.1).continuousAt.snd.continuousWithinAt) fun τ hτ => ?_
  obtain ⟨d, hi, hd⟩ := read_exists c hb hm hw hav s0 objs0 hobj qc tr hε (withMotion st (Y τ))
  have hst : tr.step (sgn * tr.memory * errorQuat (withMotion st (Y τ)).attrs.attitude qc 0) = tr := by
    refine step_hold ?_
    have e : sgn * tr.memory * errorQuat (withMotion st (Y τ)).attrs.attitude qc 0 * tr.memory =
        sgn * errorQuat (Y τ).1 qc 0 := by
      show sgn * tr.memory * errorQuat (Y τ).1 qc 0 * tr.memory = _
      linear_combination sgn * errorQuat (Y τ).1 qc 0 * hmm
    rw [e]
    exact hh τ hτ
  rw [hst] at hi hd
  have e2 : sgn * tr.memory * tr.memory = sgn := by rw [mul_assoc, hmm, mul_one]
  rw [e2] at hd
  have hd' := hy τ hτ.1
  have e : loopField c.alpha c.gamma sgn qc (Y τ) = (d.att, d.rate) := hd.symm
  rw [e] at hd'
  exact ⟨d, hi, hd'.fst, hd'.snd⟩

/-- The satellite passes the attitude half a turn away from the command, turning about the axis `e`. -/
structure Spec.Passing (qc : V4) (e : V3) (q : V4) (w : V3) : Prop where
  unit : npNorm q = 1
  away : errorQuat q qc 0 = 0
  axis : vecPart (errorQuat q qc) = (vecPart (errorQuat q qc) ⬝ᵥ e) • e
  turn : w = (w ⬝ᵥ e) • e

theorem across_of {e v w : V3} (he : e ⬝ᵥ e = 1) (hv : v = (v ⬝ᵥ e) • e) (hw : w = (w ⬝ᵥ e) • e) : across e v w ≤ 0 := by
  have h1 : v ⬝ᵥ v = (v ⬝ᵥ e) ^ 2 := by
    conv_lhs => rw [hv]
    rw [smul_dotProduct, dotProduct_smul, he]; simp only [smul_eq_mul]; ring
  have h2 : w ⬝ᵥ w = (w ⬝ᵥ e) ^ 2 := by
    conv_lhs => rw [hw]
    rw [smul_dotProduct, dotProduct_smul, he]; simp only [smul_eq_mul]; ring
  unfold across
  rw [h1, h2]
  linarith

theorem vecPart_smul_dot (s : ℝ) (p : V4) (e : V3) : vecPart (s • p) ⬝ᵥ e = s * (vecPart p ⬝ᵥ e) := by
  simp only [Matrix.vec3_dotProduct, vecPart_0, vecPart_1, vecPart_2, Pi.smul_apply, smul_eq_mul]; ring

/-- One swing: from a passage the run goes on to the end of the time, or to the next passage. -/
theorem sign_swing (c : RwController) (ha : 0 < c.alpha) (hg : 0 ≤ c.gamma) {mass : ℝ} {dims : V3} {ab cd : ℝ}
    (hb : Built c.sat mass dims ab cd) (hm : mass ≠ 0) (hw : UnlimitedWheels c.sat) (hav : c.objAvoidance = false)
    (s0 : Measurements c.sat.rw.n) (objs0 : List V3) (hobj : c.objects s0 = .ok objs0) {qc : V4} (hqc : npNorm qc = 1)
    {tr : Trigger} (hmem : tr.memory = 1 ∨ tr.memory = -1) {e : V3} (he : e ⬝ᵥ e = 1)
    {st0 st : SatState c.sat.rw.n} {t L B β τ : ℝ} (hrun : Spec.SignRun c qc tr st0 t tr st)
    (hp : Spec.Passing qc e st.attrs.attitude st.attrs.bodyAngVel) (hL : 0 ≤ L) (hβ0 : 0 < β)
    (hβ : β ≤ |st.attrs.bodyAngVel ⬝ᵥ e|) (hB0 : 0 ≤ B) (hB : (st.attrs.bodyAngVel ⬝ᵥ e) ^ 2 + 4 * c.alpha ≤ B ^ 2)
    (hτ : 0 < τ) (hτM : (B ^ 2 / 2 + c.alpha + c.gamma * B) * τ ≤ β)
    (hh : (st.attrs.bodyAngVel ⬝ᵥ e) ^ 2 / 2 < 2 * c.alpha * tr.halfWidth) :
    (∃ st', Spec.SignRun c qc tr st0 (t + L) tr st' ∧ npNorm st'.attrs.attitude = 1 ∧
      |errorQuat st'.attrs.attitude qc 0| < tr.halfWidth) ∨
    ∃ t1 st', t1 ∈ Set.Icc τ L ∧ Spec.SignRun c qc tr st0 (t + t1) tr st' ∧
      Spec.Passing qc e st'.attrs.attitude st'.attrs.bodyAngVel ∧
      (st'.attrs.bodyAngVel ⬝ᵥ e) ^ 2 ≤ (st.attrs.bodyAngVel ⬝ᵥ e) ^ 2 ∧
      Real.exp (-(2 * c.gamma) * t1) * (st.attrs.bodyAngVel ⬝ᵥ e) ^ 2 ≤ (st'.attrs.bodyAngVel ⬝ᵥ e) ^ 2 := by
  -- the sign that goes on to the far side
  have hunit := errorQuat_unit ((isUnit4_iff _).2 hp.unit) ((isUnit4_iff _).2 hqc)
  have ha1 : |vecPart (errorQuat st.attrs.attitude qc) ⬝ᵥ e| = 1 := by
    have h1 := vecPart_unit hunit
    have h2 : vecPart (errorQuat st.attrs.attitude qc) ⬝ᵥ vecPart (errorQuat st.attrs.attitude qc) =
        (vecPart (errorQuat st.attrs.attitude qc) ⬝ᵥ e) ^ 2 := by
      conv_lhs => rw [hp.axis]
      rw [smul_dotProduct, dotProduct_smul, he]; simp only [smul_eq_mul]; ring
    rw [hp.away, h2] at h1
    have h3 : |vecPart (errorQuat st.attrs.attitude qc) ⬝ᵥ e| ^ 2 = 1 := by rw [sq_abs]; linarith
    exact (pow_eq_one_iff_of_nonneg (abs_nonneg _) two_ne_zero).1 h3
  obtain ⟨sgn, hs, hsab⟩ : ∃ sgn : ℝ, (sgn = 1 ∨ sgn = -1) ∧
      β ≤ sgn * (vecPart (errorQuat st.attrs.attitude qc) ⬝ᵥ e) * (st.attrs.bodyAngVel ⬝ᵥ e) := by
    have hab : β ≤ |(vecPart (errorQuat st.attrs.attitude qc) ⬝ᵥ e) * (st.attrs.bodyAngVel ⬝ᵥ e)| := by
      rwa [abs_mul, ha1, one_mul]
    rcases le_abs.1 hab with h | h
    · exact ⟨1, .inl rfl, by linarith⟩
    · exact ⟨-1, .inr rfl, by linarith⟩
  obtain ⟨Y, hY0, hY⟩ := loop_global ha hg hs hqc (st.attrs.attitude, st.attrs.bodyAngVel) hp.unit
  obtain ⟨hturn, hYu⟩ := loop_turn hs hqc (hY0 ▸ hp.unit) hY L
  have h0a : across e (vecPart (sgn • errorQuat (Y 0).1 qc)) (Y 0).2 ≤ 0 := by
    rw [hY0]
    refine across_of he ?_ hp.turn
    rw [vecPart_smul_dot, mul_smul, ← hp.axis]
    apply vec3_ext <;> simp only [vecPart_0, vecPart_1, vecPart_2, Pi.smul_apply]
  have hpl := hturn.plane ha.le hg he h0a
  have hx0 : (sgn • errorQuat (Y 0).1 qc) 0 = 0 := by
    rw [hY0, Pi.smul_apply, hp.away, smul_zero]
  have hb0 : (Y 0).2 = st.attrs.bodyAngVel := by rw [hY0]
  have habs : ∀ r, |errorQuat (Y r).1 qc 0| = |(sgn • errorQuat (Y r).1 qc) 0| := by
    intro r
    rw [Pi.smul_apply, smul_eq_mul, abs_mul]
    rcases hs with h | h <;> rw [h] <;> simp
  have hband : ∀ S ∈ Set.Icc 0 L, (∀ r ∈ Set.Icc 0 S, (sgn • errorQuat (Y r).1 qc) 0 ≤ 0) → ∀ r ∈ Set.Icc 0 S,
      |errorQuat (Y r).1 qc 0| < tr.halfWidth := by
    intro S hS hneg r hr
    rw [habs, abs_of_nonpos (hneg r hr)]
    have h1 := hpl.below hg (t := r) ⟨hr.1, hr.2.trans hS.2⟩
    simp only [hx0, hb0, mul_zero, sub_zero] at h1
    have h2 := sq_nonneg ((Y r).2 ⬝ᵥ e)
    by_contra hcon
    have := mul_le_mul_of_nonneg_left (not_lt.1 hcon) ha.le
    linarith
  have hside : ∀ r, |errorQuat (Y r).1 qc 0| < tr.halfWidth → -tr.halfWidth < sgn * errorQuat (Y r).1 qc 0 := by
    intro r hr
    have h1 := abs_lt.1 hr
    rcases hs with h | h <;> rw [h] <;> linarith [h1.1, h1.2]
  rcases hpl.next ha hg hL hx0 hβ0 (by
      simp only [hY0]
      rw [vecPart_smul_dot]
      exact hsab) hB0 (by simpa only [hb0] using hB) hτ hτM with hall | ⟨t1, ht1, hxt, hall⟩
  · left
    have hbd := hband L ⟨hL, le_rfl⟩ hall
    exact ⟨_, sign_flow c hb hm hw hav s0 objs0 hobj hmem hs hrun hY0 hL hY fun r hr => hside r (hbd r ⟨hr.1, hr.2.le⟩),
      hYu L ⟨hL, le_rfl⟩, hbd L ⟨hL, le_rfl⟩⟩
  · right
    have ht10 : 0 ≤ t1 := hτ.le.trans ht1.1
    have hbd := hband t1 ⟨ht10, ht1.2⟩ hall
    have hz := across_zero he (axis_flow ha.le hg hturn he h0a (t := t1) ⟨ht10, ht1.2⟩)
    have hx1 : errorQuat (Y t1).1 qc 0 = 0 := by rw [← abs_eq_zero, habs, hxt, abs_zero]
    have hlow := (hpl.mono ht1.2).above ha hg hall (t := t1) ⟨ht10, le_rfl⟩
    have hup := hpl.below hg (t := t1) ⟨ht10, ht1.2⟩
    simp only [hx0, hxt, hb0, mul_zero, sub_zero] at hlow hup
    refine ⟨t1, withMotion st (Y t1), ht1, sign_flow c hb hm hw hav s0 objs0 hobj hmem hs hrun hY0 ht10 hY
      fun r hr => hside r (hbd r ⟨hr.1, hr.2.le⟩), ⟨hYu t1 ⟨ht10, ht1.2⟩, hx1, ?_, hz.2⟩, ?_, ?_⟩
    · have h1 := hz.1
      rw [vecPart_smul_dot, mul_smul] at h1
      have h2 : vecPart (sgn • errorQuat (Y t1).1 qc) = sgn • vecPart (errorQuat (Y t1).1 qc) := by
        apply vec3_ext <;> simp only [vecPart_0, vecPart_1, vecPart_2, Pi.smul_apply]
      rw [h2] at h1
      exact smul_right_injective V3 (r := sgn) (by rcases hs with h | h <;> rw [h] <;> norm_num) h1
    · show ((Y t1).2 ⬝ᵥ e) ^ 2 ≤ _
      linarith
    · show _ ≤ ((Y t1).2 ⬝ᵥ e) ^ 2
      linarith

/-- Signs that are chosen badly keep the satellite away for ever: it passes the attitude half a turn away from the command
with little energy, and for every time there is a run of that duration that is still inside the hysteresis, more than
2 arccos `halfWidth` from the command. -/
theorem C223_away (c : RwController) (ha : 0 < c.alpha) (hg : 0 ≤ c.gamma) {mass : ℝ} {dims : V3} {ab cd : ℝ}
    (hb : Built c.sat mass dims ab cd) (hm : mass ≠ 0) (hw : UnlimitedWheels c.sat) (hav : c.objAvoidance = false)
    (s0 : Measurements c.sat.rw.n) (objs0 : List V3) (hobj : c.objects s0 = .ok objs0) (qc : V4) (hqc : npNorm qc = 1)
    (tr : Trigger) (hmem : tr.memory = 1 ∨ tr.memory = -1) (e : V3) (he : e ⬝ᵥ e = 1) (st0 : SatState c.sat.rw.n)
    (hp : Spec.Passing qc e st0.attrs.attitude st0.attrs.bodyAngVel) (hne : st0.attrs.bodyAngVel ⬝ᵥ e ≠ 0)
    (hE : (st0.attrs.bodyAngVel ⬝ᵥ e) ^ 2 / 2 < 2 * c.alpha * tr.halfWidth) (T : ℝ) (hT : 0 ≤ T) :
    ∃ st, Spec.SignRun c qc tr st0 T tr st ∧ npNorm st.attrs.attitude = 1 ∧
      |errorQuat st.attrs.attitude qc 0| < tr.halfWidth := by
  obtain ⟨b0, hb0⟩ : ∃ b0, b0 = st0.attrs.bodyAngVel ⬝ᵥ e := ⟨_, rfl⟩
  rw [← hb0] at hne hE
  have hb2 : 0 < b0 ^ 2 := by positivity
  have hhw : 0 < tr.halfWidth := by
    by_contra hle
    have := mul_le_mul_of_nonneg_left (not_lt.1 hle) ha.le
    linarith
  obtain ⟨β, hβ⟩ : ∃ β, β = Real.exp (-c.gamma * T) * |b0| := ⟨_, rfl⟩
  have hβ0 : 0 < β := by rw [hβ]; exact mul_pos (Real.exp_pos _) (abs_pos.2 hne)
  have hβ2 : β ^ 2 = Real.exp (-(2 * c.gamma) * T) * b0 ^ 2 := by
    rw [hβ, mul_pow, sq_abs, ← Real.exp_nat_mul]
    congr 2
    push_cast
    ring
  obtain ⟨B, hB⟩ : ∃ B, B = Real.sqrt (b0 ^ 2 + 4 * c.alpha) := ⟨_, rfl⟩
  have hB0 : 0 ≤ B := hB ▸ Real.sqrt_nonneg _
  have hB2 : B ^ 2 = b0 ^ 2 + 4 * c.alpha := by rw [hB, Real.sq_sqrt (by positivity)]
  obtain ⟨M, hM⟩ : ∃ M, M = B ^ 2 / 2 + c.alpha + c.gamma * B := ⟨_, rfl⟩
  have hM0 : 0 < M := by rw [hM]; positivity
  obtain ⟨τ, hτ⟩ : ∃ τ, τ = β / M := ⟨_, rfl⟩
  have hτ0 : 0 < τ := hτ ▸ div_pos hβ0 hM0
  have hτM : M * τ ≤ β := by rw [hτ, mul_div_cancel₀ _ hM0.ne']
  have key : ∀ (N : ℕ) (t : ℝ) (st : SatState c.sat.rw.n), 0 ≤ t → t ≤ T → T - t ≤ N * τ → Spec.SignRun c qc tr st0 t tr st →
      Spec.Passing qc e st.attrs.attitude st.attrs.bodyAngVel → (st.attrs.bodyAngVel ⬝ᵥ e) ^ 2 ≤ b0 ^ 2 →
      Real.exp (-(2 * c.gamma) * t) * b0 ^ 2 ≤ (st.attrs.bodyAngVel ⬝ᵥ e) ^ 2 →
      ∃ st, Spec.SignRun c qc tr st0 T tr st ∧ npNorm st.attrs.attitude = 1 ∧
        |errorQuat st.attrs.attitude qc 0| < tr.halfWidth := by
    intro N
    induction N with
    | zero =>
      intro t st ht0 htT hN hr hps _ _
      have : t = T := by simp at hN; linarith
      exact ⟨st, this ▸ hr, hps.unit, by rw [hps.away, abs_zero]; exact hhw⟩
    | succ N ih =>
      intro t st ht0 htT hN hr hps hup hlow
      have hβb : β ≤ |st.attrs.bodyAngVel ⬝ᵥ e| := by
        refine (sq_le_sq₀ hβ0.le (abs_nonneg _)).1 ?_
        rw [sq_abs]
        refine le_trans ?_ hlow
        rw [hβ2]
        gcongr ?_ * _
        refine Real.exp_le_exp.2 ?_
        have := mul_le_mul_of_nonneg_left htT hg
        linarith
      rcases sign_swing c ha hg hb hm hw hav s0 objs0 hobj hqc hmem he hr hps (L := T - t) (by linarith) hβ0 hβb hB0
        (by rw [hB2]; linarith) hτ0 (hM ▸ hτM) (by linarith) with ⟨st', h1, h2, h3⟩ | ⟨t1, st', ht1, h1, h2, h3, h4⟩
      · rw [add_sub_cancel] at h1
        exact ⟨st', h1, h2, h3⟩
      · refine ih (t + t1) st' (by linarith [ht1.1]) (by linarith [ht1.2]) ?_ h1 h2 (h3.trans hup) ?_
        · push_cast at hN
          linarith [ht1.1]
        · refine le_trans (le_of_eq ?_) ((mul_le_mul_of_nonneg_left hlow (Real.exp_pos _).le).trans h4)
          rw [← mul_assoc, ← Real.exp_add]
          congr 2
          ring
  obtain ⟨N, hN⟩ := exists_nat_ge (T / τ)
  rw [div_le_iff₀ hτ0] at hN
  refine key N 0 st0 le_rfl hT (by linarith) .start hp (by rw [hb0]) ?_
  rw [mul_zero, Real.exp_zero, one_mul, hb0]

/-- So the claim is false. -/
theorem C223_fails : ¬ C223_claim := by
  intro H
  obtain ⟨model, c, st, s, objs, hc, hb, hw, hav, hs, hobj, hn, hrate, -⟩ := exLoop ![1, 0, 0] 0 []
  obtain ⟨ha, hal, hga, hhw, hmem, -⟩ := C69_gains model 1 1 c hc
  have hu : npNorm st.attrs.attitude = 1 := by rw [← hs.1]; exact hn
  have hr : st.attrs.bodyAngVel = ![1, 0, 0] := by rw [← hs.2.1]; exact hrate
  set E : V4 := ![0, 1, 0, 0] with hE
  have hcj : conjugate (conjugate E) = E := by
    apply vec4_ext <;> simp [conjugate_0, conjugate_1, conjugate_2, conjugate_3]
  have hcu : IsUnit4 (conjugate E) := by
    norm_num [IsUnit4, hE, cons4_2, cons4_3, conjugate_0, conjugate_1, conjugate_2, conjugate_3]
  set qc := product st.attrs.attitude (conjugate E) with hqc
  have herr : errorQuat st.attrs.attitude qc = E := by
    rw [errorQuat, hqc, conjugate_product, product_assoc, conj_product_self ((isUnit4_iff _).2 hu), product_one, hcj]
  have hq : npNorm qc = 1 := (isUnit4_iff _).1 (isUnit4_product ((isUnit4_iff _).2 hu) hcu)
  obtain ⟨T, hT⟩ := H model 1 1 one_pos one_pos c hc false 2 _ _ _ hb two_ne_zero hw 5 0.5 (by norm_num)
  have hwe : st.attrs.bodyAngVel ⬝ᵥ (![1, 0, 0] : V3) = 1 := by
    rw [hr, Matrix.vec3_dotProduct]; norm_num
  have hp : Spec.Passing qc ![1, 0, 0] st.attrs.attitude st.attrs.bodyAngVel := by
    refine ⟨hu, ?_, ?_, ?_⟩
    · rw [herr, hE]; rfl
    · have hv : vecPart E = ![1, 0, 0] := rfl
      have h1 : (![1, 0, 0] : V3) ⬝ᵥ ![1, 0, 0] = 1 := by rw [Matrix.vec3_dotProduct]; norm_num
      rw [herr, hv, h1, one_smul]
    · rw [hwe, one_smul, hr]
  obtain ⟨st', hrun, hu', hx'⟩ := C223_away { c with objAvoidance := false } ha (by rw [hga]; norm_num) hb two_ne_zero hw
    rfl s objs hobj qc hq ⟨1, 0.3⟩ (.inl rfl) ![1, 0, 0] (by rw [Matrix.vec3_dotProduct]; norm_num) st hp
    (by rw [hwe]; norm_num) (by rw [hwe]; simp only [hal]; norm_num) (max T 0) (le_max_right _ _)
  obtain ⟨-, s', hs', hd⟩ := hT qc hq ⟨1, 0.3⟩ ⟨1, 0.3⟩ st st' (max T 0) rfl (.inl rfl) hu (by
    rw [quat_dist (.inl rfl) hu hq, herr, hr, Matrix.vec3_dotProduct, hal, hE]
    norm_num) hrun (le_max_left _ _)
  have h1 := quat_dist hs' hu' hq
  have h2 : npNorm (st'.attrs.attitude - s' • qc) ^ 2 ≤ 0.5 ^ 2 := by
    have : 0 ≤ npNorm (st'.attrs.attitude - s' • qc) := npNorm_nonneg _
    gcongr
  have h3 := abs_lt.1 hx'
  simp only at h3
  rcases hs' with h | h <;> rw [h] at h1 h2 <;> linarith [h3.1, h3.2]

/-- Runs that start with little enough energy never reach the hysteresis, whatever the signs and the memory: they are runs
of the loop that is given the true attitude and never switches. -/
theorem C223_refines_partial (c : RwController) (ha : 0 < c.alpha) (hg : 0 ≤ c.gamma) {mass : ℝ} {dims : V3} {ab cd : ℝ}
    (hb : Built c.sat mass dims ab cd) (hm : mass ≠ 0) (hw : UnlimitedWheels c.sat) (qc : V4) (hqc : npNorm qc = 1)
    (tr0 : Trigger) (hh : 0 < tr0.halfWidth) (hm0 : tr0.memory = 1 ∨ tr0.memory = -1) (st0 : SatState c.sat.rw.n)
    (hu : npNorm st0.attrs.attitude = 1) (σ : ℝ) (hσ : σ = 1 ∨ σ = -1)
    (hE : st0.attrs.bodyAngVel ⬝ᵥ st0.attrs.bodyAngVel / 2 + 2 * c.alpha * (1 - σ * errorQuat st0.attrs.attitude qc 0)
      < 2 * c.alpha * (1 - tr0.halfWidth))
    (t : ℝ) (tr : Trigger) (st : SatState c.sat.rw.n) (hrun : Spec.SignRun c qc tr0 st0 t tr st) :
    tr.halfWidth = tr0.halfWidth ∧ (tr.memory = 1 ∨ tr.memory = -1) ∧
      tr0.halfWidth < σ * errorQuat st.attrs.attitude qc 0 ∧
      Spec.LoopRun c qc 0 ⟨σ, tr0.halfWidth⟩ st0 t ⟨σ, tr0.halfWidth⟩ st 0 := by
  have hfar : ∀ t st, Spec.LoopRun c qc 0 ⟨σ, tr0.halfWidth⟩ st0 t ⟨σ, tr0.halfWidth⟩ st 0 →
      tr0.halfWidth < σ * errorQuat st.attrs.attitude qc 0 := by
    intro t st hr
    have hl := (C69_run hg ha hqc hσ hu (LoopRun.hybrid hb hm hw (tr0 := ⟨σ, tr0.halfWidth⟩) hh hσ hr).2.2).2.2.1
    simp only [Nat.cast_zero, mul_zero, add_zero, lyap] at hl
    have hpos := dot_self_nonneg3 st.attrs.bodyAngVel
    by_contra hle
    have := mul_le_mul_of_nonneg_left (not_lt.1 hle) ha.le
    linarith
  induction hrun with
  | start => exact ⟨rfl, hm0, hfar _ _ .start, .start⟩
  | @flow t tr st T ε ε' hT hε hε' _ hcq hcw hstep ih =>
    obtain ⟨i1, i2, i3, i4⟩ := ih
    have hup : ∀ r ∈ Set.Icc 0 T, (∀ τ ∈ Set.Ico 0 r, tr0.halfWidth ≤ σ * errorQuat (st τ).attrs.attitude qc 0) →
        Spec.LoopRun c qc 0 ⟨σ, tr0.halfWidth⟩ st0 (t + r) ⟨σ, tr0.halfWidth⟩ (st r) 0 := by
      intro r hr hx
      refine .flow st r hr.1 i4 (hcq.mono (Set.Icc_subset_Icc_right hr.2)) (hcw.mono (Set.Icc_subset_Icc_right hr.2))
        fun τ hτ => ?_
      obtain ⟨d, ⟨s, objs, law, c', a, F, k1, k2, k3, k4, k5, k6, -, k8, k9⟩, h5⟩ := hstep τ ⟨hτ.1, hτ.2.trans_le hr.2⟩
      have etr : tr = ⟨tr.memory, tr0.halfWidth⟩ := by rw [← i1]
      refine ⟨d, signInstant_exact hh hε hε' i2 hσ (hx τ hτ) ⟨s, objs, law, c', a, F, 0, k1, k2, k3, ?_, k5, ?_, k8, ?_, k9⟩, h5⟩
      · rw [← etr]; exact k4
      · rw [← etr]; exact k6
      · rw [Matrix.mulVec_zero]; simp [npNorm]
    have hc : ContinuousOn (fun τ => σ * errorQuat (st τ).attrs.attitude qc 0) (Set.Icc 0 T) :=
      continuousOn_const.mul (continuousOn_pi.1 ((errorQuat_continuous qc).comp_continuousOn hcq) 0)
    have hall : ∀ r ∈ Set.Icc 0 T, tr0.halfWidth < σ * errorQuat (st r).attrs.attitude qc 0 := by
      by_contra hcon
      push Not at hcon
      obtain ⟨t1, ht1, hx1⟩ := hcon
      set S := Set.Icc 0 T ∩ (fun τ => σ * errorQuat (st τ).attrs.attitude qc 0) ⁻¹' Set.Iic tr0.halfWidth with hS
      have hcl : IsClosed S := hc.preimage_isClosed_of_isClosed isClosed_Icc isClosed_Iic
      have hbd : BddBelow S := ⟨0, fun x hx => hx.1.1⟩
      have hmem := hcl.csInf_mem ⟨t1, ht1, hx1⟩ hbd
      refine absurd (hfar _ _ (hup _ hmem.1 fun τ hτ => ?_)) (not_lt.2 hmem.2)
      by_contra hlt
      have : τ ∈ S := ⟨⟨hτ.1, hτ.2.le.trans hmem.1.2⟩, (not_le.1 hlt).le⟩
      exact absurd (csInf_le hbd this) (not_le.2 hτ.2)
    exact ⟨i1, i2, hall T ⟨hT, le_rfl⟩, hup T ⟨hT, le_rfl⟩ fun τ hτ => (hall τ ⟨hτ.1, hτ.2.le⟩).le⟩
  | @switch t tr tr' st d ε ε' _ _ _ hi ih =>
    obtain ⟨i1, i2, i3, i4⟩ := ih
    obtain ⟨s, objs, law, c', a, F, -, -, -, k4, k5, k6, k7, -⟩ := hi
    rw [tracking_clear (c := { c with trigger := tr }) k4 k5] at k6
    have e : tr' = tr.step (errorQuat s.att (ε' • qc) 0) := by rw [← k7, ← (Prod.mk.inj k6).2]; rfl
    rw [e]
    exact ⟨(trigger_step_width _ _).trans i1, trigger_step_pm i2 _, i3, i4⟩

/-- So from there the satellite settles as C140 says, in a time that does not depend on the signs. What is missing to the
claim is the start with more energy, for which it is false. -/
theorem C223_settles_partial (model : CtlModel) (damping natFreq : ℝ) (hd : 0 < damping) (hn : 0 < natFreq)
    (c : RwController) (hc : RwController.init model damping natFreq = .ok c) (av : Bool) {mass : ℝ} {dims : V3}
    {ab cd : ℝ} (hb : Built c.sat mass dims ab cd) (hm : mass ≠ 0) (hw : UnlimitedWheels c.sat) (e : ℝ) (he : 0 < e) :
    ∃ T, ∀ (qc : V4), npNorm qc = 1 → ∀ (tr0 tr : Trigger) (st0 st : SatState c.sat.rw.n) (t : ℝ),
      tr0.halfWidth = 0.3 → (tr0.memory = 1 ∨ tr0.memory = -1) → npNorm st0.attrs.attitude = 1 →
      (∃ σ : ℝ, (σ = 1 ∨ σ = -1) ∧ st0.attrs.bodyAngVel ⬝ᵥ st0.attrs.bodyAngVel / 2
        + c.alpha * npNorm (st0.attrs.attitude - σ • qc) ^ 2 < 1.4 * c.alpha) →
      Spec.SignRun { c with objAvoidance := av } qc tr0 st0 t tr st → T ≤ t →
      npNorm st.attrs.bodyAngVel ≤ e ∧ ∃ s : ℝ, (s = 1 ∨ s = -1) ∧ npNorm (st.attrs.attitude - s • qc) ≤ e := by
  obtain ⟨ha, hal, hga, -⟩ := C69_gains model damping natFreq c hc
  have hg : 0 ≤ c.gamma := by rw [hga]; positivity
  obtain ⟨T, hT⟩ := C140_attracts model damping natFreq hd hn c hc av hb hm hw (1.4 * c.alpha) e he
  refine ⟨T, ?_⟩
  rintro qc hqc tr0 tr st0 st t hh0 hm0 hu ⟨σ, hσ, hE⟩ hrun ht
  have hr := (C223_refines_partial { c with objAvoidance := av } ha hg hb hm hw qc hqc tr0 (by rw [hh0]; norm_num) hm0 st0
    hu σ hσ (by
      rw [quat_dist hσ hu hqc] at hE
      rw [hh0]
      simp only
      linarith) t tr st hrun).2.2.2
  exact hT qc hqc ⟨σ, tr0.halfWidth⟩ ⟨σ, tr0.halfWidth⟩ st0 st t 0 hh0 hσ hu hE.le hr ht

/-- There are such runs of every duration, with the right and with the wrong sign of the attitude read. -/
theorem C223_exists (c : RwController) (ha : 0 < c.alpha) (hg : 0 ≤ c.gamma) {mass : ℝ} {dims : V3} {ab cd : ℝ}
    (hb : Built c.sat mass dims ab cd) (hm : mass ≠ 0) (hw : UnlimitedWheels c.sat) (hav : c.objAvoidance = false)
    (s0 : Measurements c.sat.rw.n) (objs0 : List V3) (hobj : c.objects s0 = .ok objs0) (qc : V4) (hqc : npNorm qc = 1)
    (tr : Trigger) (hh : 0 < tr.halfWidth) (hmem : tr.memory = 1 ∨ tr.memory = -1) (st0 : SatState c.sat.rw.n)
    (hu : npNorm st0.attrs.attitude = 1) (σ : ℝ) (hσ : σ = 1 ∨ σ = -1)
    (hE : st0.attrs.bodyAngVel ⬝ᵥ st0.attrs.bodyAngVel / 2 + 2 * c.alpha * (1 - σ * errorQuat st0.attrs.attitude qc 0)
      < 2 * c.alpha * (1 - tr.halfWidth)) (T : ℝ) (hT : 0 ≤ T) :
    ∃ st, Spec.SignRun c qc tr st0 T tr st := by
  obtain ⟨Y, hY0, hY⟩ := loop_global ha hg hσ hqc (st0.attrs.attitude, st0.attrs.bodyAngVel) hu
  have hfar : ∀ r, 0 ≤ r → -tr.halfWidth < σ * errorQuat (Y r).1 qc 0 := by
    intro r hr
    have hrun : HybridRun c.alpha c.gamma 0 qc σ (Y 0).1 (Y 0).2 σ (Y r).1 (Y r).2 0 :=
      HybridRun.flow (fun τ => (Y τ).1) (fun τ => (Y τ).2) r hr .start
        (fun τ hτ => (hY τ hτ.1).continuousAt.fst.continuousWithinAt)
        (fun τ hτ => (hY τ hτ.1).continuousAt.snd.continuousWithinAt)
        (fun τ hτ => (hY τ hτ.1).fst) (fun τ hτ => (hY τ hτ.1).snd)
    have hl := (C69_run hg ha hqc hσ (by rw [hY0]; exact hu) hrun).2.2.1
    rw [hY0] at hl
    simp only [Nat.cast_zero, mul_zero, add_zero, lyap] at hl
    have hpos := dot_self_nonneg3 (Y r).2
    by_contra hle
    have h1 := mul_le_mul_of_nonneg_left (not_lt.1 hle) ha.le
    have h2 := mul_pos ha hh
    linarith
  have := sign_flow c hb hm hw hav s0 objs0 hobj hmem hσ .start hY0 hT hY fun r hr => hfar r hr.1
  rw [zero_add] at this
  exact ⟨_, this⟩

/-- The hypotheses of the partial theorems are met: a controller of the constructor and a satellite that is away from the
command and turning, for either memory (so for either sign of the attitude read) and for every duration. -/
example : ∃ (model : CtlModel) (c : RwController) (qc : V4) (st0 : SatState c.sat.rw.n),
    RwController.init model 1 1 = .ok c ∧ Built c.sat 2 ![0.1, 0.1, 0.2] 0.8 2.2 ∧ UnlimitedWheels c.sat ∧
    npNorm qc = 1 ∧ npNorm st0.attrs.attitude = 1 ∧ st0.attrs.bodyAngVel = ![0.1, 0.2, 0.3] ∧
    errorQuat st0.attrs.attitude qc 0 = -0.6 ∧
    (∃ σ : ℝ, (σ = 1 ∨ σ = -1) ∧ st0.attrs.bodyAngVel ⬝ᵥ st0.attrs.bodyAngVel / 2
        + c.alpha * npNorm (st0.attrs.attitude - σ • qc) ^ 2 < 1.4 * c.alpha) ∧
    ∀ m : ℝ, (m = 1 ∨ m = -1) → ∀ T, 0 ≤ T →
      ∃ st, Spec.SignRun { c with objAvoidance := false } qc ⟨m, 0.3⟩ st0 T ⟨m, 0.3⟩ st := by
  obtain ⟨model, c, st, s, objs, hc, hb, hw, hav, hs, hobj, hn, hrate, -⟩ := exLoop ![0.1, 0.2, 0.3] 0 []
  obtain ⟨ha, hal, hga, hhw, hmem, -⟩ := C69_gains model 1 1 c hc
  have hu : npNorm st.attrs.attitude = 1 := by rw [← hs.1]; exact hn
  have hr : st.attrs.bodyAngVel = ![0.1, 0.2, 0.3] := by rw [← hs.2.1]; exact hrate
  set E : V4 := ![-0.6, 0.8, 0, 0] with hE
  have hcj : conjugate (conjugate E) = E := by
    apply vec4_ext <;> simp [conjugate_0, conjugate_1, conjugate_2, conjugate_3]
  have hcu : IsUnit4 (conjugate E) := by
    norm_num [IsUnit4, hE, cons4_2, cons4_3, conjugate_0, conjugate_1, conjugate_2, conjugate_3]
  set qc := product st.attrs.attitude (conjugate E) with hqc
  have herr : errorQuat st.attrs.attitude qc = E := by
    rw [errorQuat, hqc, conjugate_product, product_assoc, conj_product_self ((isUnit4_iff _).2 hu), product_one, hcj]
  have hq : npNorm qc = 1 := (isUnit4_iff _).1 (isUnit4_product ((isUnit4_iff _).2 hu) hcu)
  have h0 : errorQuat st.attrs.attitude qc 0 = -0.6 := by rw [herr, hE]; rfl
  have hww : st.attrs.bodyAngVel ⬝ᵥ st.attrs.bodyAngVel = 0.14 := by
    rw [hr, Matrix.vec3_dotProduct]
    simp only [Matrix.cons_val_zero, Matrix.cons_val_one, Matrix.cons_val]
    norm_num
  refine ⟨model, c, qc, st, hc, hb, hw, hq, hu, hr, h0, ⟨-1, .inr rfl, ?_⟩, fun m hm T hT => ?_⟩
  · rw [quat_dist (.inr rfl) hu hq, h0, hww, hal]; norm_num
  · exact C223_exists { c with objAvoidance := false } ha (by rw [hga]; norm_num) hb two_ne_zero hw rfl s objs hobj qc hq
      ⟨m, 0.3⟩ (by norm_num) hm st hu (-1) (.inr rfl) (by simp only [h0, hww, hal]; norm_num) T hT

end Adcs
