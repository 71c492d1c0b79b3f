import Verif.Props.Convergence

set_option autoImplicit false

/-! # C221: a quaternion and its negative are the same attitude, and tracking treats them alike outside the hysteresis

The attitudes `q` and `-q` turn every vector alike, and an attitude determination is free to give either. -/

namespace Adcs

open Str Ctl Sens JDay Quat Vec Dyn
open scoped Matrix Topology

/-- The full claim: the law of a controller made by the constructor is the same for `q` and for `-q`. -/
def C221_claim : Prop :=
  ∀ (model : CtlModel) (damping natFreq : ℝ) (c : RwController), RwController.init model damping natFreq = .ok c →
    ∀ (s : Measurements c.sat.rw.n) (wc wcd : V3) (qc : V4), npNorm s.att = 1 → npNorm qc = 1 →
      (c.tracking { s with att := -s.att } wc wcd qc).1 = (c.tracking s wc wcd qc).1

theorem pm_smul {ε : ℝ} (h : ε = 1 ∨ ε = -1) (q : V4) : ε • q = q ∨ ε • q = -q := by
  rcases h with rfl | rfl
  · exact .inl (one_smul _ _)
  · exact .inr (by rw [neg_smul, one_smul])

theorem sandwich_sign {ε : ℝ} (h : ε = 1 ∨ ε = -1) (q : V4) (v : V3) : sandwich (ε • q) v = sandwich q v := by
  rcases pm_smul h q with e | e <;> rw [e]
  exact sandwich_neg q v

theorem errorQuat_signs (ε ε' : ℝ) (q qc : V4) : errorQuat (ε • q) (ε' • qc) = (ε * ε') • errorQuat q qc := by
  apply vec4_ext <;>
  simp only [errorQuat, product_0, product_1, product_2, product_3, conjugate_0, conjugate_1, conjugate_2, conjugate_3,
    Pi.smul_apply, smul_eq_mul] <;> ring

/-- Outside the hysteresis the answer of the trigger is the sign, whatever it remembers. -/
theorem trigger_outside {tr : Trigger} (hm : tr.memory = 1 ∨ tr.memory = -1) (hh : 0 < tr.halfWidth) {x : ℝ}
    (hx : tr.halfWidth ≤ |x|) : tr.step x = ⟨npSign x, tr.halfWidth⟩ := by
  obtain ⟨m, h⟩ := tr
  simp only at hm hh hx
  rcases le_or_gt 0 x with h0 | h0
  · rw [abs_of_nonneg h0] at hx
    have hp : 0 < x := hh.trans_le hx
    have hs : npSign x = 1 := by simp [npSign, not_lt.2 h0, hp.ne']
    rcases hm with rfl | rfl
    · rw [Trigger.step, if_neg (by simp only; linarith), hs]
    · rw [Trigger.step, if_pos (by simp only; linarith)]; simp [hs]
  · rw [abs_of_neg h0] at hx
    have hs : npSign x = -1 := by simp [npSign, h0]
    rcases hm with rfl | rfl
    · rw [Trigger.step, if_pos (by simp only; linarith)]; simp [hs]
    · rw [Trigger.step, if_neg (by simp only; linarith), hs]

theorem npSign_mul_pm {σ : ℝ} (h : σ = 1 ∨ σ = -1) (x : ℝ) : npSign (σ * x) = σ * npSign x := by
  rcases h with rfl | rfl
  · simp
  · simp only [npSign, neg_mul, one_mul]
    rcases lt_trichotomy x 0 with h | h | h
    · simp [h, not_lt.2 h.le, h.ne]
    · simp [h]
    · simp [h, not_lt.2 h.le, h.ne']

theorem zoneStep_signs (i : Instrument) (s σ : ℝ) (h : σ = 1 ∨ σ = -1) (dq dw : V3) (j : ℕ) (o : V3) (z : Zone) :
    zoneStep i (σ * s) (σ • dq) dw j o z = zoneStep i s dq dw j o z := by
  have e : ∀ p : V3, (σ * s) • npCross (σ • dq) p = s • npCross dq p := by
    intro p
    rcases h with rfl | rfl
    · simp
    · funext k
      fin_cases k <;> simp [npCross] <;> ring
  unfold zoneStep
  simp only [e]

theorem zoneObjects_signs (i : Instrument) (s σ : ℝ) (h : σ = 1 ∨ σ = -1) (dq dw : V3) (objs : List V3) (j : ℕ) (z : Zone) :
    zoneObjects i (σ * s) (σ • dq) dw j objs z = zoneObjects i s dq dw j objs z := by
  induction objs generalizing j z with
  | nil => rfl
  | cons o l ih => simp only [zoneObjects, zoneStep_signs i s σ h, ih]

theorem zoneInstruments_signs (s σ : ℝ) (h : σ = 1 ∨ σ = -1) (dq dw : V3) (objs : List V3) (l : List Instrument) (z : Zone) :
    zoneInstruments (σ * s) (σ • dq) dw objs l z = zoneInstruments s dq dw objs l z := by
  induction l generalizing z with
  | nil => rfl
  | cons i l ih => simp only [zoneInstruments, zoneObjects_signs i s σ h, ih]

theorem objects_signs (c : RwController) (tr : Trigger) (s : Measurements c.sat.rw.n) {ε : ℝ} (h : ε = 1 ∨ ε = -1) :
    ({ c with trigger := tr } : RwController).objects { s with att := ε • s.att } = c.objects s := by
  unfold RwController.objects
  simp only [sandwich_sign h]

/-- Outside the hysteresis the law is the same for either sign of the attitude read and of the attitude commanded and for
either memory, with or without objects to be avoided, and the controller then remembers the sign of the error. -/
theorem C221_law_partial (c : RwController) (tr tr2 : Trigger) (hm : tr.memory = 1 ∨ tr.memory = -1)
    (hm2 : tr2.memory = 1 ∨ tr2.memory = -1) (hw : tr2.halfWidth = tr.halfWidth) (hh : 0 < tr.halfWidth)
    (s : Measurements c.sat.rw.n) (wc wcd : V3) (qc : V4) (hx : tr.halfWidth ≤ |errorQuat s.att qc 0|) (ε ε' : ℝ)
    (hε : ε = 1 ∨ ε = -1) (hε' : ε' = 1 ∨ ε' = -1) :
    (({ c with trigger := tr2 } : RwController).tracking { s with att := ε • s.att } wc wcd (ε' • qc)).1 =
      (({ c with trigger := tr } : RwController).tracking s wc wcd qc).1 := by
  have hσ : ε * ε' = 1 ∨ ε * ε' = -1 := by
    rcases hε with rfl | rfl <;> rcases hε' with rfl | rfl <;> norm_num
  have hσ2 : (ε * ε') * (ε * ε') = 1 := by rcases hσ with h | h <;> rw [h] <;> norm_num
  have ho1 := objects_signs c tr2 s hε
  have ho2 : ({ c with trigger := tr } : RwController).objects s = c.objects s := rfl
  have herr := errorQuat_signs ε ε' s.att qc
  have hv : ∀ a : ℝ, ∀ v : V3, (-((ε * ε') * a)) • ((ε * ε') • v) = (-a) • v := fun a v => by
    rw [smul_smul]
    congr 1
    linear_combination (-a) * hσ2
  have hvp : vecPart ((ε * ε') • errorQuat s.att qc) = (ε * ε') • vecPart (errorQuat s.att qc) := by
    funext k; fin_cases k <;> rfl
  have t1 := trigger_outside hm hh hx
  have t2 : tr2.step ((ε * ε') * errorQuat s.att qc 0) = ⟨(ε * ε') * npSign (errorQuat s.att qc 0), tr.halfWidth⟩ := by
    rw [trigger_outside hm2 (hw ▸ hh) (by
      rw [hw, abs_mul]
      rcases hσ with h | h <;> rw [h] <;> simpa using hx), npSign_mul_pm hσ, hw]
  unfold RwController.tracking
  rw [ho1, ho2]
  cases hob : c.objects s with
  | error e => rfl
  | ok objs =>
    simp only [herr, sandwich_sign hσ, Pi.smul_apply, smul_eq_mul]
    by_cases hav : c.objAvoidance = true
    · simp only [hav, if_true, RwController.allowableZone, Trigger.sign, Pi.smul_apply, smul_eq_mul, t1, t2]
      rw [hvp, zoneInstruments_signs _ _ hσ]
      cases zoneInstruments (npSign (errorQuat s.att qc 0)) (vecPart (errorQuat s.att qc))
        (s.rate - sandwich (errorQuat s.att qc) wc) objs c.instruments ⟨c.alpha, 0, 0⟩ with
      | error e => rfl
      | ok z =>
        have k1 : (-((ε * ε') * npSign (errorQuat s.att qc 0)) * z.c) • ((ε * ε') • vecPart (errorQuat s.att qc)) =
            (-npSign (errorQuat s.att qc 0) * z.c) • vecPart (errorQuat s.att qc) := by
          rw [show -((ε * ε') * npSign (errorQuat s.att qc 0)) * z.c = -((ε * ε') * (npSign (errorQuat s.att qc 0) * z.c)) by ring,
            hv, neg_mul]
        have k2 : (ε * ε') * npSign (errorQuat s.att qc 0) * ((ε * ε') * errorQuat s.att qc 0) =
            npSign (errorQuat s.att qc 0) * errorQuat s.att qc 0 := by
          linear_combination (npSign (errorQuat s.att qc 0) * errorQuat s.att qc 0) * hσ2
        simp only [k1, k2]
    · simp only [hav, Bool.false_eq_true, if_false, Trigger.sign, t1, t2, hvp]
      have k1 : (-((ε * ε') * npSign (errorQuat s.att qc 0)) * c.alpha) •
            (c.sat.totalMoment *ᵥ ((ε * ε') • vecPart (errorQuat s.att qc))) =
          (-npSign (errorQuat s.att qc 0) * c.alpha) • (c.sat.totalMoment *ᵥ vecPart (errorQuat s.att qc)) := by
        rw [Matrix.mulVec_smul,
          show -((ε * ε') * npSign (errorQuat s.att qc 0)) * c.alpha = -((ε * ε') * (npSign (errorQuat s.att qc 0) * c.alpha)) by ring,
          hv, neg_mul]
      rw [k1]

/-- Inside the hysteresis the controller holds its sign, and with `-q` in place of `q` the feedback of the attitude error is
reversed: the two laws differ by twice the feedback. -/
theorem C221_reversed (c : RwController) (hm : c.trigger.memory = 1 ∨ c.trigger.memory = -1)
    (s : Measurements c.sat.rw.n) (objs : List V3) (hobj : c.objects s = .ok objs)
    (hcl : c.objAvoidance = false ∨ Clear c.instruments objs) (wc wcd : V3) (qc : V4) (hx : |errorQuat s.att qc 0| < c.trigger.halfWidth) :
    ∃ u v : V3, (c.tracking s wc wcd qc).1 = .ok u ∧ (c.tracking { s with att := -s.att } wc wcd qc).1 = .ok v ∧
      v = u + c.sat.totalMoment *ᵥ ((2 * c.trigger.memory * c.alpha) • vecPart (errorQuat s.att qc)) := by
  have hs : ({ s with att := -s.att } : Measurements c.sat.rw.n) = { s with att := (-1 : ℝ) • s.att } := by
    rw [neg_smul, one_smul]
  have ho : c.objects { s with att := -s.att } = .ok objs := by
    rw [hs]
    exact (objects_signs c c.trigger s (.inr rfl)).trans hobj
  have he : errorQuat (-s.att) qc = (-1 : ℝ) • errorQuat s.att qc := by
    have := errorQuat_signs (-1) 1 s.att qc
    rwa [neg_smul, one_smul, one_smul, mul_one] at this
  obtain ⟨h1, h2⟩ := abs_lt.1 hx
  have t1 : c.trigger.step (errorQuat s.att qc 0) = c.trigger := step_hold (by
    rcases hm with h | h <;> rw [h] <;> linarith)
  have t2 : c.trigger.step (errorQuat (-s.att) qc 0) = c.trigger := step_hold (by
    rw [he]
    rcases hm with h | h <;> simp only [h, Pi.smul_apply, smul_eq_mul] <;> linarith)
  have hvp : vecPart ((-1 : ℝ) • errorQuat s.att qc) = (-1 : ℝ) • vecPart (errorQuat s.att qc) := by
    funext k; fin_cases k <;> rfl
  refine ⟨_, _, (congrArg Prod.fst (tracking_clear hobj hcl wc wcd qc)).trans
      (congrArg Prod.fst (tracking_plain (c := { c with objAvoidance := false }) rfl hobj wc wcd qc)),
    (congrArg Prod.fst (tracking_clear ho hcl wc wcd qc)).trans
      (congrArg Prod.fst (tracking_plain (c := { c with objAvoidance := false }) rfl ho wc wcd qc)), ?_⟩
  simp only [Trigger.sign, t1, t2]
  rw [he, hvp, sandwich_sign (.inr rfl), sandwich_sign (.inr rfl), add_assoc, ← Matrix.mulVec_add]
  congr 2
  funext k
  simp only [Pi.add_apply, Pi.sub_apply, Pi.smul_apply, smul_eq_mul]
  ring

/-- The claim fails: 147 degrees from the command the attitude feedback of a new controller changes sign with the sign of
the quaternion read. -/
theorem C221_fails : ¬ C221_claim := by
  intro H
  obtain ⟨model, c, st, s, objs, hc, hb, hw, hav, hs, hobj, hn, hrate, -, hins, -⟩ := exLoop ![0.1, 0.2, 0.3] 0 []
  obtain ⟨ha, -, -, hhw, hmem, -⟩ := C69_gains model 1 1 c hc
  set E : V4 := ![0.28, 0.96, 0, 0] with hE
  have hEu : IsUnit4 E := by norm_num [IsUnit4, hE, cons4_2, cons4_3]
  have hcj : conjugate (conjugate E) = E := by
    apply vec4_ext <;> simp [conjugate_0, conjugate_1, conjugate_2, conjugate_3]
  have hcu : IsUnit4 (conjugate E) := by
    norm_num [IsUnit4, hE, cons4_2, cons4_3, conjugate_0, conjugate_1, conjugate_2, conjugate_3]
  have herr : errorQuat s.att (product s.att (conjugate E)) = E := by
    rw [errorQuat, conjugate_product, product_assoc, conj_product_self ((isUnit4_iff _).2 hn), product_one, hcj]
  have hq : npNorm (product s.att (conjugate E)) = 1 := (isUnit4_iff _).1 (isUnit4_product ((isUnit4_iff _).2 hn) hcu)
  obtain ⟨u, v, hu, hv, huv⟩ := C221_reversed c (.inl hmem) s objs hobj (.inr (by rw [hins]; simp [Clear])) 0 0
    (product s.att (conjugate E)) (by rw [herr, hhw, hE]; norm_num [abs_lt])
  have h0 := H model 1 1 c hc s 0 0 _ hn hq
  rw [hu, hv] at h0
  have h1 : v = u := Except.ok.inj h0
  have h2 : c.sat.totalMoment *ᵥ ((2 * c.trigger.memory * c.alpha) • vecPart E) = 0 := by
    rw [herr, h1] at huv
    exact left_eq_add.1 huv
  have h3 : c.sat.invTotMoment *ᵥ (c.sat.totalMoment *ᵥ ((2 * c.trigger.memory * c.alpha) • vecPart E)) =
      (2 * c.trigger.memory * c.alpha) • vecPart E := hb.cancel _
  rw [h2, Matrix.mulVec_zero] at h3
  have h4 := congrFun h3 0
  simp only [hmem, Pi.zero_apply, Pi.smul_apply, smul_eq_mul, hE, vecPart, Matrix.cons_val_zero, Matrix.cons_val_one] at h4
  norm_num at h4
  linarith

/-- One instant of the closed loop with either sign of the quaternions: the satellite is in the state `st`, the controller
remembers `m`, reads the true rate and wheels and `ε` times the true attitude and is given `ε'` times the attitude `qc`;
`d` is the derivative which the library's dynamics give for its commands under a force of any size and a torque that
accelerates by at most `δ`. -/
def Spec.SignInstant (c : RwController) (qc : V4) (δ h ε ε' m : ℝ) (st : SatState c.sat.rw.n) (d : Raw c.sat.rw.n) : Prop :=
  ∃ (s : Measurements c.sat.rw.n) (objs : List V3) (law : V3) (c' : RwController) (a : Fin c.sat.rw.n → ℝ) (F T : V3),
    s.att = ε • st.attrs.attitude ∧ s.rate = st.attrs.bodyAngVel ∧ s.whl = st.attrs.wheelVel ∧
    ({ c with trigger := ⟨m, h⟩ } : RwController).objects s = .ok objs ∧
    (c.objAvoidance = false ∨ Clear c.instruments objs) ∧
    ({ c with trigger := ⟨m, h⟩ } : RwController).tracking s 0 0 (ε' • qc) = (.ok law, c') ∧
    c.actuatorCommands law = .ok a ∧ npNorm (c.sat.invTotMoment *ᵥ T) ≤ δ ∧ derivative c.sat st ⟨F, T⟩ a = .ok d

/-- Outside the hysteresis an instant with any signs and any memory is an instant of the exact loop. -/
theorem signInstant_exact {c : RwController} {qc : V4} {δ h ε ε' m σ : ℝ} {st : SatState c.sat.rw.n} {d : Raw c.sat.rw.n}
    (hh : 0 < h) (hε : ε = 1 ∨ ε = -1) (hε' : ε' = 1 ∨ ε' = -1) (hm : m = 1 ∨ m = -1) (hσ : σ = 1 ∨ σ = -1)
    (hx : h ≤ σ * errorQuat st.attrs.attitude qc 0) (hi : Spec.SignInstant c qc δ h ε ε' m st d) :
    Spec.Instant c qc δ ⟨σ, h⟩ ⟨σ, h⟩ st d := by
  obtain ⟨s, objs, law, c', a, F, T, h1, h2, h3, hobj, hcl, ht, ha, hT, hd⟩ := hi
  have hε2 : ε * ε = 1 := by rcases hε with rfl | rfl <;> norm_num
  have e1 : ε • s.att = st.attrs.attitude := by rw [h1, smul_smul, hε2, one_smul]
  have e2 : ε • (ε • s.att) = s.att := by rw [smul_smul, hε2, one_smul]
  have es : s = { ({ s with att := ε • s.att } : Measurements c.sat.rw.n) with
      att := ε • ({ s with att := ε • s.att } : Measurements c.sat.rw.n).att } := by
    simp only [e2]
  have hax : h ≤ |errorQuat st.attrs.attitude qc 0| := by
    refine hx.trans ((le_abs_self _).trans ?_)
    rw [abs_mul]
    rcases hσ with rfl | rfl <;> simp
  have hlaw := C221_law_partial c ⟨σ, h⟩ ⟨m, h⟩ hσ hm rfl hh { s with att := ε • s.att } 0 0 qc
    (by simpa only [e1] using hax) ε ε' hε hε'
  rw [← es] at hlaw
  have hobj' : ({ c with trigger := ⟨σ, h⟩ } : RwController).objects { s with att := ε • s.att } = .ok objs :=
    (objects_signs c ⟨σ, h⟩ s hε).trans hobj
  have ht' := tracking_clear (c := { c with trigger := ⟨σ, h⟩ }) hobj' hcl 0 0 qc
  have hst : (⟨σ, h⟩ : Trigger).step (errorQuat (ε • s.att) qc 0) = ⟨σ, h⟩ := step_hold (by
    simp only [e1]
    rw [mul_comm]
    linarith)
  have hp : (({ c with trigger := ⟨m, h⟩ } : RwController).tracking s 0 0 (ε' • qc)).1 = .ok law := by rw [ht]
  refine ⟨{ s with att := ε • s.att }, objs, law, _, a, F, T, ⟨e1, h2, h3⟩, hobj', hcl, Prod.ext ?_ rfl, ?_, ha, hT, hd⟩
  · exact hlaw.symm.trans hp
  · rw [ht']
    exact hst

/-- The converse: outside the hysteresis an instant of the exact loop is one with any signs and any memory. -/
theorem exact_signInstant {c : RwController} {qc : V4} {δ h ε ε' m σ : ℝ} {st : SatState c.sat.rw.n} {d : Raw c.sat.rw.n}
    (hh : 0 < h) (hε : ε = 1 ∨ ε = -1) (hε' : ε' = 1 ∨ ε' = -1) (hm : m = 1 ∨ m = -1) (hσ : σ = 1 ∨ σ = -1)
    (hx : h ≤ σ * errorQuat st.attrs.attitude qc 0) (hi : Spec.Instant c qc δ ⟨σ, h⟩ ⟨σ, h⟩ st d) :
    Spec.SignInstant c qc δ h ε ε' m st d := by
  obtain ⟨s, objs, law, c', a, F, T, ⟨h1, h2, h3⟩, hobj, hcl, ht, -, ha, hT, hd⟩ := hi
  have hax : h ≤ |errorQuat s.att qc 0| := by
    rw [h1]
    refine hx.trans ((le_abs_self _).trans ?_)
    rw [abs_mul]
    rcases hσ with rfl | rfl <;> simp
  have hlaw := C221_law_partial c ⟨σ, h⟩ ⟨m, h⟩ hσ hm rfl hh s 0 0 qc hax ε ε' hε hε'
  have hp : (({ c with trigger := ⟨σ, h⟩ } : RwController).tracking s 0 0 qc).1 = .ok law := by rw [ht]
  exact ⟨{ s with att := ε • s.att }, objs, law, _, a, F, T, by rw [← h1], h2, h3,
    (objects_signs c ⟨m, h⟩ s hε).trans hobj, hcl, Prod.ext (hlaw.trans hp) rfl, ha, hT, hd⟩

/-- Motions with arbitrary signs: whatever sign the attitude read has at each instant, and whatever the controller then
remembers, a motion that starts with little enough energy never reaches the hysteresis, and is a motion of the loop that is
given the true attitude and never switches its sign. -/
theorem C221_refines_partial (c : RwController) (ha : 0 < c.alpha) (hg : 0 ≤ c.gamma) {mass : ℝ} {dims : V3} {ab cd : ℝ}
    (hb : Built c.sat mass dims ab cd) (hm : mass ≠ 0) (hw : UnlimitedWheels c.sat) (qc : V4) (hqc : npNorm qc = 1) (h : ℝ)
    (hh : 0 < h) (st : ℝ → SatState c.sat.rw.n) (hu : npNorm (st 0).attrs.attitude = 1) (T : ℝ) (hT : 0 ≤ T)
    (hcq : ContinuousOn (fun τ => (st τ).attrs.attitude) (Set.Icc 0 T))
    (hcw : ContinuousOn (fun τ => (st τ).attrs.bodyAngVel) (Set.Icc 0 T))
    (hstep : ∀ τ ∈ Set.Ico 0 T, ∃ ε ε' m d, (ε = 1 ∨ ε = -1) ∧ (ε' = 1 ∨ ε' = -1) ∧ (m = 1 ∨ m = -1) ∧
      Spec.SignInstant c qc 0 h ε ε' m (st τ) d ∧ HasDerivAt (fun τ => (st τ).attrs.attitude) d.att τ ∧
      HasDerivAt (fun τ => (st τ).attrs.bodyAngVel) d.rate τ)
    (hE : (st 0).attrs.bodyAngVel ⬝ᵥ (st 0).attrs.bodyAngVel / 2
      + 2 * c.alpha * (1 - |errorQuat (st 0).attrs.attitude qc 0|) < 2 * c.alpha * (1 - h)) :
    ∃ σ : ℝ, (σ = 1 ∨ σ = -1) ∧ σ * errorQuat (st 0).attrs.attitude qc 0 = |errorQuat (st 0).attrs.attitude qc 0| ∧
      ∀ t ∈ Set.Icc 0 T, h < σ * errorQuat (st t).attrs.attitude qc 0 ∧
        Spec.LoopRun c qc 0 ⟨σ, h⟩ (st 0) t ⟨σ, h⟩ (st t) 0 := by
  obtain ⟨σ, hσ, hσ0⟩ : ∃ σ : ℝ, (σ = 1 ∨ σ = -1) ∧
      σ * errorQuat (st 0).attrs.attitude qc 0 = |errorQuat (st 0).attrs.attitude qc 0| := by
    rcases le_total 0 (errorQuat (st 0).attrs.attitude qc 0) with h0 | h0
    · exact ⟨1, .inl rfl, by rw [abs_of_nonneg h0, one_mul]⟩
    · exact ⟨-1, .inr rfl, by rw [abs_of_nonpos h0, neg_one_mul]⟩
  have hup : ∀ t ∈ Set.Icc 0 T, (∀ τ ∈ Set.Ico 0 t, h ≤ σ * errorQuat (st τ).attrs.attitude qc 0) →
      h < σ * errorQuat (st t).attrs.attitude qc 0 ∧ Spec.LoopRun c qc 0 ⟨σ, h⟩ (st 0) t ⟨σ, h⟩ (st t) 0 := by
    intro t ht hx
    have hr : Spec.LoopRun c qc 0 ⟨σ, h⟩ (st 0) (0 + t) ⟨σ, h⟩ (st t) 0 :=
      .flow st t ht.1 .start (hcq.mono (Set.Icc_subset_Icc_right ht.2)) (hcw.mono (Set.Icc_subset_Icc_right ht.2))
        fun τ hτ => by
          obtain ⟨ε, ε', m, d, h1, h2, h3, h4, h5⟩ := hstep τ ⟨hτ.1, hτ.2.trans_le ht.2⟩
          exact ⟨d, signInstant_exact hh h1 h2 h3 hσ (hx τ hτ) h4, h5⟩
    rw [zero_add] at hr
    refine ⟨?_, hr⟩
    have hl := (C69_run hg ha hqc hσ hu (LoopRun.hybrid hb hm hw (tr0 := ⟨σ, h⟩) hh hσ hr).2.2).2.2.1
    simp only [Nat.cast_zero, mul_zero, add_zero, lyap] at hl
    have hpos : 0 ≤ (st t).attrs.bodyAngVel ⬝ᵥ (st t).attrs.bodyAngVel := by
      rw [Matrix.vec3_dotProduct]
      nlinarith [sq_nonneg ((st t).attrs.bodyAngVel 0), sq_nonneg ((st t).attrs.bodyAngVel 1),
        sq_nonneg ((st t).attrs.bodyAngVel 2)]
    rw [hσ0] at hl
    by_contra hle
    have := mul_le_mul_of_nonneg_left (not_lt.1 hle) ha.le
    nlinarith
  have hc : ContinuousOn (fun τ => σ * errorQuat (st τ).attrs.attitude qc 0) (Set.Icc 0 T) := by
    have hi : ∀ i, ContinuousOn (fun τ => (st τ).attrs.attitude i) (Set.Icc 0 T) := fun i =>
      (continuous_apply i).comp_continuousOn hcq
    have h0 := hi 0; have h1 := hi 1; have h2 := hi 2; have h3 := hi 3
    simp only [errorQuat, product_0]
    fun_prop
  have hall : ∀ t ∈ Set.Icc 0 T, h < σ * errorQuat (st t).attrs.attitude qc 0 := by
    by_contra hcon
    push Not at hcon
    obtain ⟨t1, ht1, hx1⟩ := hcon
    set B := Set.Icc 0 T ∩ (fun τ => σ * errorQuat (st τ).attrs.attitude qc 0) ⁻¹' Set.Iic h with hB
    have hcl : IsClosed B := hc.preimage_isClosed_of_isClosed isClosed_Icc isClosed_Iic
    have hbd : BddBelow B := ⟨0, fun x hx => hx.1.1⟩
    have hmem := hcl.csInf_mem ⟨t1, ht1, hx1⟩ hbd
    refine absurd (hup _ hmem.1 fun τ hτ => ?_).1 (not_lt.2 hmem.2)
    by_contra hlt
    have : τ ∈ B := ⟨⟨hτ.1, hτ.2.le.trans hmem.1.2⟩, (not_le.1 hlt).le⟩
    exact absurd (csInf_le hbd this) (not_le.2 hτ.2)
  exact ⟨σ, hσ, hσ0, fun t ht => hup t ht fun τ hτ => (hall τ ⟨hτ.1, hτ.2.le.trans ht.2⟩).le⟩

/-- So they converge to the commanded attitude as if the signs were right: rate and distance from the command (as a
quaternion, the nearer of `qc` and `-qc`) fall off exponentially, with a rate that depends on the gains and the hysteresis. -/
theorem C221_converges_partial {alpha gamma h : ℝ} (ha : 0 < alpha) (hg : 0 < gamma) (hh1 : h < 1) (hh : 0 < h) :
    ∃ k : ℝ, 0 < k ∧ ∀ (c : RwController), c.alpha = alpha → c.gamma = gamma →
      ∀ (mass : ℝ) (dims : V3) (ab cd : ℝ), Built c.sat mass dims ab cd → mass ≠ 0 → UnlimitedWheels c.sat →
      ∀ (qc : V4), npNorm qc = 1 → ∀ (st : ℝ → SatState c.sat.rw.n) (T : ℝ), npNorm (st 0).attrs.attitude = 1 → 0 ≤ T →
      ContinuousOn (fun τ => (st τ).attrs.attitude) (Set.Icc 0 T) →
      ContinuousOn (fun τ => (st τ).attrs.bodyAngVel) (Set.Icc 0 T) →
      (∀ τ ∈ Set.Ico 0 T, ∃ ε ε' m d, (ε = 1 ∨ ε = -1) ∧ (ε' = 1 ∨ ε' = -1) ∧ (m = 1 ∨ m = -1) ∧
        Spec.SignInstant c qc 0 h ε ε' m (st τ) d ∧ HasDerivAt (fun τ => (st τ).attrs.attitude) d.att τ ∧
        HasDerivAt (fun τ => (st τ).attrs.bodyAngVel) d.rate τ) →
      (st 0).attrs.bodyAngVel ⬝ᵥ (st 0).attrs.bodyAngVel / 2
        + 2 * alpha * (1 - |errorQuat (st 0).attrs.attitude qc 0|) < 2 * alpha * (1 - h) →
      ∃ σ : ℝ, (σ = 1 ∨ σ = -1) ∧
        (st T).attrs.bodyAngVel ⬝ᵥ (st T).attrs.bodyAngVel / 2 + alpha * npNorm ((st T).attrs.attitude - σ • qc) ^ 2 ≤
          6 * alpha * (1 - h) * Real.exp (-k * T) := by
  obtain ⟨k, C, hk, -, H⟩ := C140_converges ha hg hh1 hh
  refine ⟨k, hk, ?_⟩
  rintro c rfl rfl mass dims ab cd hb hm hw qc hqc st T hu hT hcq hcw hstep hE
  obtain ⟨σ, hσ, hσ0, hall⟩ := C221_refines_partial c ha hg.le hb hm hw qc hqc h hh st hu T hT hcq hcw hstep hE
  refine ⟨σ, hσ, ?_⟩
  have h1 := (H c rfl rfl mass dims ab cd hb hm hw qc hqc 0 ⟨σ, h⟩ ⟨σ, h⟩ (st 0) (st T) T 0 rfl hσ hu
    (hall T ⟨hT, le_rfl⟩).2).2
  simp only [zero_add, pow_one, ne_eq, OfNat.ofNat_ne_zero, not_false_eq_true, zero_pow, mul_zero, add_zero] at h1
  rw [quat_dist hσ hu hqc, hσ0] at h1
  refine h1.trans ?_
  have e := Real.exp_pos (-k * T)
  have := mul_le_mul_of_nonneg_left hE.le e.le
  nlinarith

/-- The hypotheses are met: a controller of the constructor and a satellite that is away from the command and turning, with
the signs of the attitude read, of the command and of the memory chosen at will at each instant. -/
example : ∃ (model : CtlModel) (c : RwController) (qc : V4) (st : ℝ → SatState c.sat.rw.n) (T : ℝ),
    RwController.init model 1 1 = .ok c ∧ Built c.sat 2 ![0.1, 0.1, 0.2] 0.8 2.2 ∧ UnlimitedWheels c.sat ∧
    npNorm qc = 1 ∧ npNorm (st 0).attrs.attitude = 1 ∧ 0 < T ∧ (st 0).attrs.bodyAngVel = ![0.1, 0.2, 0.3] ∧
    |errorQuat (st 0).attrs.attitude qc 0| = 0.6 ∧
    ContinuousOn (fun τ => (st τ).attrs.attitude) (Set.Icc 0 T) ∧
    ContinuousOn (fun τ => (st τ).attrs.bodyAngVel) (Set.Icc 0 T) ∧
    (st 0).attrs.bodyAngVel ⬝ᵥ (st 0).attrs.bodyAngVel / 2
      + 2 * c.alpha * (1 - |errorQuat (st 0).attrs.attitude qc 0|) < 2 * c.alpha * (1 - 0.3) ∧
    ∀ ε ε' m : ℝ → ℝ, (∀ τ, ε τ = 1 ∨ ε τ = -1) → (∀ τ, ε' τ = 1 ∨ ε' τ = -1) → (∀ τ, m τ = 1 ∨ m τ = -1) →
      ∀ τ ∈ Set.Ico 0 T, ∃ d, Spec.SignInstant { c with objAvoidance := false } qc 0 0.3 (ε τ) (ε' τ) (m τ) (st τ) d ∧
        HasDerivAt (fun τ => (st τ).attrs.attitude) d.att τ ∧ HasDerivAt (fun τ => (st τ).attrs.bodyAngVel) d.rate τ := by
  obtain ⟨model, c, st, s, objs, hc, hb, hw, hav, hs, hobj, hn, hrate, -⟩ := exLoop ![0.1, 0.2, 0.3] 0 []
  obtain ⟨ha, hal, hga, hhw, hmem, -⟩ := C69_gains model 1 1 c hc
  have hu : npNorm st.attrs.attitude = 1 := by rw [← hs.1]; exact hn
  set E : V4 := ![-0.6, 0.8, 0, 0] with hE
  have hcj : conjugate (conjugate E) = E := by
    apply vec4_ext <;> simp [conjugate_0, conjugate_1, conjugate_2, conjugate_3]
  have hcu : IsUnit4 (conjugate E) := by
    norm_num [IsUnit4, hE, cons4_2, cons4_3, conjugate_0, conjugate_1, conjugate_2, conjugate_3]
  set qc := product st.attrs.attitude (conjugate E) with hqc
  have herr : errorQuat st.attrs.attitude qc = E := by
    rw [errorQuat, hqc, conjugate_product, product_assoc, conj_product_self ((isUnit4_iff _).2 hu), product_one, hcj]
  have hq : npNorm qc = 1 := (isUnit4_iff _).1 (isUnit4_product ((isUnit4_iff _).2 hu) hcu)
  obtain ⟨y, hy0, r, hr, hy⟩ :=
    ((loopField_contDiff c.alpha c.gamma (-1) qc).contDiffAt
      (x := (st.attrs.attitude, st.attrs.bodyAngVel))).exists_forall_mem_closedBall_exists_eq_forall_mem_Ioo_hasDerivAt₀ 0
  have hx0 : errorQuat (y 0).1 qc 0 = -0.6 := by rw [hy0]; simp only [herr, hE, Matrix.cons_val_zero]
  have hcx : ContinuousAt (fun τ => errorQuat (y τ).1 qc 0) 0 := by
    have h1 := (hy 0 ⟨by linarith, by linarith⟩).continuousAt.fst
    have hi : ∀ i, ContinuousAt (fun τ => (y τ).1 i) 0 := fun i => (continuous_apply i).continuousAt.comp h1
    have h0 := hi 0; have h1 := hi 1; have h2 := hi 2; have h3 := hi 3
    simp only [errorQuat, product_0]
    fun_prop
  have hev := hcx.eventually (gt_mem_nhds (show errorQuat (y 0).1 qc 0 < -0.3 by rw [hx0]; norm_num))
  obtain ⟨r', hr', hball⟩ := Metric.eventually_nhds_iff.1 hev
  have hTp : 0 < min (r / 2) (r' / 2) := lt_min (by linarith) (by linarith)
  have hT1 : min (r / 2) (r' / 2) < r := (min_le_left _ _).trans_lt (by linarith)
  have hT2 : min (r / 2) (r' / 2) < r' := (min_le_right _ _).trans_lt (by linarith)
  obtain ⟨T, hT⟩ : ∃ T, T = min (r / 2) (r' / 2) := ⟨_, rfl⟩
  rw [← hT] at hTp hT1 hT2
  have e0 : withMotion st (y 0) = st := by rw [hy0]; rfl
  have hda : ∀ τ ∈ Set.Icc 0 T, HasDerivAt y (loopField c.alpha c.gamma (-1) qc (y τ)) τ := fun τ hτ =>
    hy τ ⟨by linarith [hτ.1], by linarith [hτ.2]⟩
  have hrt : st.attrs.bodyAngVel = ![0.1, 0.2, 0.3] := by rw [← hs.2.1]; exact hrate
  refine ⟨model, c, qc, fun τ => withMotion st (y τ), T, hc, hb, hw, hq, by simp only [e0]; exact hu, hTp,
    by simp only [e0]; exact hrt, by simp only [e0]; rw [herr, hE]; norm_num,
    fun τ hτ => (hda τ hτ).continuousAt.fst.continuousWithinAt,
    fun τ hτ => (hda τ hτ).continuousAt.snd.continuousWithinAt, ?_, ?_⟩
  · simp only [e0]
    rw [herr, hrt, hal, Matrix.vec3_dotProduct, hE]
    norm_num
  · intro ε ε' m h1 h2 h3 τ hτ
    have hlt : errorQuat (y τ).1 qc 0 < -0.3 := hball (by rw [Real.dist_eq, sub_zero, abs_of_nonneg hτ.1]; linarith [hτ.2])
    obtain ⟨d, hi, hd⟩ := instant_exists { c with objAvoidance := false } hb (by norm_num) hw rfl s objs hobj qc ⟨-1, 0.3⟩
      (withMotion st (y τ))
    have hst : (⟨-1, 0.3⟩ : Trigger).step (errorQuat (withMotion st (y τ)).attrs.attitude qc 0) = ⟨-1, 0.3⟩ :=
      step_hold (by
        show -0.3 < errorQuat (y τ).1 qc 0 * -1
        linarith)
    rw [hst] at hi hd
    have hd' := hda τ ⟨hτ.1, hτ.2.le⟩
    have e : loopField c.alpha c.gamma (-1) qc (y τ) = (d.att, d.rate) := hd.symm
    rw [e] at hd'
    refine ⟨d, exact_signInstant (by norm_num) (h1 τ) (h2 τ) (h3 τ) (.inr rfl) ?_ hi, hd'.fst, hd'.snd⟩
    show (0.3 : ℝ) ≤ -1 * errorQuat (y τ).1 qc 0
    linarith

end Adcs
