import Verif.Props.Tracking

set_option autoImplicit false

/-! # C70, C71, C96, C103, C105: the avoidance law -/

namespace Adcs

open Str Ctl Sens JDay Quat Vec Dyn
open scoped Matrix Topology

/-! ## C71: the law is defined, and reduces to plain feedback -/

/-- How far inside its allowed cone an instrument is from object number `k`: half the difference of cosines,
negative when the constraint is violated. -/
def margin (i : Instrument) (k : Fin i.nBounds) (obj : V3) : ℝ :=
  0.5 * i.sign k * (npDot i.boresight obj - i.cosPsi k)

theorem zoneStep_ok (i : Instrument) (s : ℝ) (dq dw : V3) {j : ℕ} (hj : j < i.nBounds) (o : V3) (z : Zone) :
    ∃ z', zoneStep i s dq dw j o z = .ok z' := by
  unfold zoneStep
  rw [dif_pos hj]
  simp only [Instrument.caresAbout, dif_pos hj]
  by_cases hmem : j ∈ i.objIds
  · rw [if_pos hmem]
    by_cases hlt : 0.5 * i.sign ⟨j, hj⟩ * (npDot i.boresight o - i.cosPsi ⟨j, hj⟩) < i.sigma ⟨j, hj⟩
    · simp only [hlt, decide_true]
      set psi := 0.5 * i.sign ⟨j, hj⟩ * (npDot i.boresight o - i.cosPsi ⟨j, hj⟩) with hpsi
      have hp : 0 < if psi ≤ 0 then (1e-4 : ℝ) else psi := by
        split_ifs with h
        · norm_num
        · exact not_le.1 h
      simp only [npLog, if_pos hp, npDiv, if_neg hp.ne']
      exact ⟨_, rfl⟩
    · simp only [hlt, decide_false]
      exact ⟨_, rfl⟩
  · rw [if_neg hmem]
    exact ⟨_, rfl⟩

theorem zoneObjects_ok (i : Instrument) (s : ℝ) (dq dw : V3) (objs : List V3) (j : ℕ)
    (h : j + objs.length ≤ i.nBounds) (z : Zone) : ∃ z', zoneObjects i s dq dw j objs z = .ok z' := by
  induction objs generalizing j z with
  | nil => exact ⟨z, rfl⟩
  | cons o l ih =>
    rw [List.length_cons] at h
    obtain ⟨z1, h1⟩ := zoneStep_ok i s dq dw (j := j) (by omega) o z
    obtain ⟨z2, h2⟩ := ih (j + 1) (by omega) z1
    exact ⟨z2, by rw [zoneObjects, h1]; exact h2⟩

theorem zoneInstruments_ok (s : ℝ) (dq dw : V3) (objs : List V3) (ins : List Instrument)
    (h : ∀ i ∈ ins, objs.length ≤ i.nBounds) (z : Zone) :
    ∃ z', zoneInstruments s dq dw objs ins z = .ok z' := by
  induction ins generalizing z with
  | nil => exact ⟨z, rfl⟩
  | cons i l ih =>
    obtain ⟨z1, h1⟩ := zoneObjects_ok i s dq dw objs 0 (by have := h i List.mem_cons_self; omega) z
    obtain ⟨z2, h2⟩ := ih (fun k hk => h k (List.mem_cons_of_mem _ hk)) z1
    exact ⟨z2, by rw [zoneInstruments, h1]; exact h2⟩

/-- With a bound for every object, the law has a value at every attitude, rate and direction of the objects,
also in violation of the constraints: the logarithm and the quotient are defined. -/
theorem C71_defined (c : RwController) (objs : List V3) (h : ∀ i ∈ c.instruments, objs.length ≤ i.nBounds)
    (delQ : V4) (delOmega : V3) : ∃ v c', c.allowableZone delQ delOmega objs = (.ok v, c') := by
  obtain ⟨z, hz⟩ := zoneInstruments_ok (c.trigger.sign (delQ 0)).1 (vecPart delQ) delOmega objs c.instruments h
    ⟨c.alpha, 0, 0⟩
  unfold RwController.allowableZone
  simp only [hz]
  exact ⟨_, _, rfl⟩

theorem zoneStep_err {i : Instrument} {s : ℝ} {dq dw : V3} {j : ℕ} {o : V3} {z : Zone} {e : Exc}
    (h : zoneStep i s dq dw j o z = .error e) : e = .indexError := by
  by_cases hj : j < i.nBounds
  · obtain ⟨z', hz⟩ := zoneStep_ok i s dq dw hj o z
    rw [hz] at h; cases h
  · rw [zoneStep, dif_neg hj] at h
    exact (Except.error.inj h).symm

/-- The only way to fail, for any instruments and objects, is an instrument with too few bounds. -/
theorem C71_errors (c : RwController) (objs : List V3) (delQ : V4) (delOmega : V3) (e : Exc) (c' : RwController)
    (h : c.allowableZone delQ delOmega objs = (.error e, c')) : e = .indexError := by
  have ho : ∀ (i : Instrument) (s : ℝ) (dq dw : V3) (l : List V3) (j : ℕ) (z : Zone),
      zoneObjects i s dq dw j l z = .error e → e = .indexError := by
    intro i s dq dw l
    induction l with
    | nil => intro j z h; cases h
    | cons o l ih =>
      intro j z h
      rw [zoneObjects] at h
      cases h1 : zoneStep i s dq dw j o z with
      | error e' => rw [h1] at h; rw [← Except.error.inj h]; exact zoneStep_err h1
      | ok z' => rw [h1] at h; exact ih _ _ h
  have hi : ∀ (ins : List Instrument) (s : ℝ) (dq dw : V3) (z : Zone),
      zoneInstruments s dq dw objs ins z = .error e → e = .indexError := by
    intro ins s dq dw
    induction ins with
    | nil => intro z h; cases h
    | cons i l ih =>
      intro z h
      rw [zoneInstruments] at h
      cases h1 : zoneObjects i s dq dw 0 objs z with
      | error e' =>
        rw [h1] at h
        obtain rfl := Except.error.inj h
        exact ho _ _ _ _ _ _ _ h1
      | ok z' => rw [h1] at h; exact ih _ h
  unfold RwController.allowableZone at h
  simp only at h
  split at h
  · rename_i e' h1
    obtain rfl := Except.error.inj (Prod.mk.inj h).1
    exact hi _ _ _ _ _ h1
  · cases (Prod.mk.inj h).1

/-- No instrument cares about an object near it. -/
def Clear (ins : List Instrument) (objs : List V3) : Prop :=
  ∀ i ∈ ins, ∀ (j : ℕ) (o : V3), objs[j]? = some o →
    ∃ hj : j < i.nBounds, j ∉ i.objIds ∨ i.sigma ⟨j, hj⟩ ≤ margin i ⟨j, hj⟩ o

theorem zoneObjects_clear {i : Instrument} {s : ℝ} {dq dw : V3} (objs : List V3) (j : ℕ) (z : Zone)
    (h : ∀ (k : ℕ) (o : V3), objs[k]? = some o →
      ∃ hj : j + k < i.nBounds, j + k ∉ i.objIds ∨ i.sigma ⟨j + k, hj⟩ ≤ margin i ⟨j + k, hj⟩ o) :
    zoneObjects i s dq dw j objs z = .ok z := by
  induction objs generalizing j with
  | nil => rfl
  | cons o l ih =>
    obtain ⟨hj, hc⟩ := h 0 o rfl
    have h1 : zoneStep i s dq dw j o z = .ok z := by
      unfold zoneStep
      have hj' : j < i.nBounds := hj
      rw [dif_pos hj']
      simp only [Instrument.caresAbout, dif_pos hj']
      rcases hc with hc | hc
      · rw [if_neg (by exact hc)]
      · by_cases hm : j ∈ i.objIds
        · rw [if_pos hm]
          have : ¬ (0.5 * i.sign ⟨j, hj'⟩ * (npDot i.boresight o - i.cosPsi ⟨j, hj'⟩) < i.sigma ⟨j, hj'⟩) := not_lt.2 hc
          simp only [this, decide_false]
        · rw [if_neg hm]
    rw [zoneObjects, h1]
    refine ih (j + 1) fun k o' hk => ?_
    obtain ⟨a, b⟩ := h (k + 1) o' (by simpa using hk)
    have e : j + 1 + k = j + (k + 1) := by omega
    refine ⟨by omega, ?_⟩
    simp only [e]
    exact b

/-- With no object near, the law is plain feedback of the attitude error. -/
theorem C71_plain (c : RwController) (objs : List V3) (h : Clear c.instruments objs) (delQ : V4) (delOmega : V3) :
    c.allowableZone delQ delOmega objs =
      (.ok ((-(c.trigger.sign (delQ 0)).1 * c.alpha) • vecPart delQ), { c with trigger := (c.trigger.sign (delQ 0)).2 }) := by
  have hz : ∀ (ins : List Instrument), Clear ins objs → ∀ s dq dw z, zoneInstruments s dq dw objs ins z = .ok z := by
    intro ins
    induction ins with
    | nil => intros; rfl
    | cons i l ih =>
      intro hcl s dq dw z
      have h1 : zoneObjects i s dq dw 0 objs z = .ok z := by
        refine zoneObjects_clear objs 0 z fun k o hk => ?_
        obtain ⟨a, b⟩ := hcl i List.mem_cons_self k o hk
        refine ⟨by omega, ?_⟩
        simp only [zero_add]
        exact b
      rw [zoneInstruments, h1]
      exact ih (fun i hi => hcl i (List.mem_cons_of_mem _ hi)) s dq dw z
  unfold RwController.allowableZone
  simp only [hz _ h, smul_zero, add_zero]

/-- So `tracking` with avoidance gives the same torque as without. -/
theorem C71_tracking (c : RwController) (s : Measurements c.sat.rw.n) (objs : List V3)
    (hobj : c.objects s = .ok objs) (h : Clear c.instruments objs) (wc wcd : V3) (qc : V4) :
    (c.tracking s wc wcd qc).1 = (({ c with objAvoidance := false } : RwController).tracking s wc wcd qc).1 := by
  rw [tracking_plain (c := { c with objAvoidance := false }) rfl hobj]
  unfold RwController.tracking
  rw [hobj]
  simp only [C71_plain c objs h]
  split_ifs
  all_goals
    simp only [Except.ok.injEq]
    simp only [Matrix.mulVec_sub, Matrix.mulVec_smul, Matrix.mulVec_add, neg_smul]
    abel

/-- An instrument with exclusion cones of 60 degrees about both objects. -/
noncomputable def exInstrument : Instrument :=
  Instrument.mk' ![1, 0, 0] 2 (fun _ => 60) (fun _ => true) [0, 1] Real.pi (fun _ => 1)

theorem exInstrument_cos (k : Fin exInstrument.nBounds) : exInstrument.cosPsi k = 1 / 2 := by
  have : npRadians 60 = Real.pi / 3 := by unfold npRadians; ring
  simp only [exInstrument, Instrument.mk', this, Real.cos_pi_div_three]

theorem exInstrument_sigma (k : Fin exInstrument.nBounds) : exInstrument.sigma k = 1 / 2 := by
  have : npRadians 60 = Real.pi / 3 := by unfold npRadians; ring
  simp only [exInstrument, Instrument.mk', this, if_true]
  rw [show Real.pi / 3 - -1 * Real.pi = Real.pi / 3 + Real.pi by ring, Real.cos_add_pi, Real.cos_pi_div_three]
  norm_num

theorem exInstrument_sign (k : Fin exInstrument.nBounds) : exInstrument.sign k = -1 := rfl

theorem exInstrument_margin (k : Fin exInstrument.nBounds) (o : V3) :
    margin exInstrument k o = 1 / 4 - o 0 / 2 := by
  rw [margin, exInstrument_cos, exInstrument_sign]
  have : exInstrument.boresight = ![1, 0, 0] := rfl
  rw [this, npDot3]
  simp; ring

/-- Objects behind the instrument are clear. -/
example : Clear [exInstrument] [![-1, 0, 0], ![-0.6, 0.8, 0]] := by
  intro i hi j o ho
  obtain rfl := List.mem_singleton.1 hi
  match j, ho with
  | 0, ho =>
    simp only [List.getElem?_cons_zero, Option.some.injEq] at ho
    subst ho
    refine ⟨(by decide : _ < 2), Or.inr ?_⟩
    rw [exInstrument_sigma, exInstrument_margin]
    norm_num
  | 1, ho =>
    simp only [List.getElem?_cons_succ, List.getElem?_cons_zero, Option.some.injEq] at ho
    subst ho
    refine ⟨(by decide : _ < 2), Or.inr ?_⟩
    rw [exInstrument_sigma, exInstrument_margin]
    norm_num
  | n + 2, ho => simp at ho

/-! ## C70: use with the library's own model -/

/-- The claim: for every satellite and gains, the controller of the library's `Dynamics` can be made, and
tracks at every state. -/
def TrackingWorks : Prop :=
  ∀ (sat : Satellite) (damping natFreq : ℝ), 0 < damping → 0 < natFreq →
    ∃ c, RwController.init (ofDynamics sat) damping natFreq = .ok c ∧
      ∀ (s : Measurements c.sat.rw.n) (wc wcd : V3) (qc : V4), ∃ law, (c.tracking s wc wcd qc).1 = .ok law

/-- The constructor always raises, because a `Dynamics` has no clock. -/
theorem C70_constructor (sat : Satellite) (damping natFreq : ℝ) :
    RwController.init (ofDynamics sat) damping natFreq = .error .attributeError := rfl

/-- With a clock supplied, every call of `tracking` raises, with or without avoidance, because no environment
of the library has a `sun_vector`. -/
theorem C70_no_sun (model : CtlModel) (h : model.sunVector = none) (damping natFreq : ℝ) (c : RwController)
    (hc : RwController.init model damping natFreq = .ok c) (av : Bool) (s : Measurements c.sat.rw.n) (wc wcd : V3) (qc : V4) :
    (({ c with objAvoidance := av } : RwController).tracking s wc wcd qc).1 = .error .attributeError := by
  have hs : c.sunVector = none := by
    unfold RwController.init at hc
    split at hc
    · cases hc
    · simp only at hc
      split_ifs at hc
      rw [← Except.ok.inj hc]; exact h
  unfold RwController.tracking
  simp only [RwController.objects, hs]

/-- C70 fails: the constructor already raises, because the model has no clock of its own and no sun vector. -/
theorem C70_fails : ¬ TrackingWorks := by
  intro H
  obtain ⟨sat, -⟩ := exSat3 false []
  obtain ⟨c, hc, -⟩ := H sat 1 1 one_pos one_pos
  rw [C70_constructor] at hc
  cases hc

/-- What holds: with a clock and a sun vector supplied, and instruments with bounds for both objects, `tracking`
returns a torque at every state. Missing: the library supplies neither. -/
theorem C70_partial (model : CtlModel) (damping natFreq : ℝ) (hd : 0 < damping) (hn : 0 < natFreq) (clock : JClock)
    (hclk : model.clock = some clock) (f : JClock → V3 → Py V3) (hf : model.sunVector = some f)
    (hdef : ∀ k x, ∃ v, f k x = .ok v) (hins : ∀ i ∈ model.sat.instruments, 2 ≤ i.nBounds) :
    ∃ c, RwController.init model damping natFreq = .ok c ∧
      ∀ (s : Measurements c.sat.rw.n) (wc wcd : V3) (qc : V4), ∃ law, (c.tracking s wc wcd qc).1 = .ok law := by
  have hc : RwController.init model damping natFreq = .ok
      { sat := model.sat, clock := clock, sunVector := model.sunVector, objAvoidance := true,
        trigger := Trigger.init 1 0.3, alpha := 2 * natFreq ^ 2, gamma := 2 * damping * natFreq,
        instruments := model.sat.instruments.map fun i => setGains i Real.pi (2 * natFreq ^ 2 * 1) } := by
    unfold RwController.init
    rw [hclk]
    simp only
    rw [if_neg (mul_pos hd hn).ne']
  refine ⟨_, hc, fun s wc wcd qc => ?_⟩
  obtain ⟨sun, hsun⟩ := hdef clock s.pos
  unfold RwController.tracking
  simp only [RwController.objects, hf, hsun]
  obtain ⟨v, c', hv⟩ := C71_defined
    { sat := model.sat, clock := clock, sunVector := some f, objAvoidance := true,
      trigger := Trigger.init 1 0.3, alpha := 2 * natFreq ^ 2, gamma := 2 * damping * natFreq,
      instruments := model.sat.instruments.map fun i => setGains i Real.pi (2 * natFreq ^ 2 * 1) }
    [sandwich s.att sun, -normalizeV s.pos]
    (by
      intro i hi
      obtain ⟨i0, h0, rfl⟩ := List.mem_map.1 hi
      exact hins i0 h0)
    (errorQuat s.att qc) (s.rate - sandwich (errorQuat s.att qc) wc)
  simp only [hv, if_true]
  exact ⟨_, rfl⟩

example : ∃ (model : CtlModel) (clock : JClock) (f : JClock → V3 → Py V3), model.clock = some clock ∧
    model.sunVector = some f ∧ (∀ k x, ∃ v, f k x = .ok v) ∧ model.sat.instruments ≠ [] ∧
    ∀ i ∈ model.sat.instruments, 2 ≤ i.nBounds := by
  obtain ⟨sat, -, -, -, -, h, -⟩ := exSat3 false [exInstrument]
  refine ⟨⟨sat, some exClock, some fun _ _ => .ok ![1, 0, 0]⟩, _, _, rfl, rfl, fun _ _ => ⟨_, rfl⟩, ?_, ?_⟩
  · rw [h]; simp
  · intro i hi
    simp only [h, List.mem_singleton] at hi
    subst hi
    exact le_rfl

/-! ## C96: the directions of the objects -/

/-- The claim: the objects handed to the avoidance law are the directions of the sun and of the earth in body
coordinates, like the boresights they are compared with. -/
def ObjectsInBodyFrame : Prop :=
  ∀ (c : RwController) (s : Measurements c.sat.rw.n) (f : JClock → V3 → Py V3) (sun : V3),
    c.sunVector = some f → f c.clock s.pos = .ok sun → s.pos ≠ 0 → npNorm s.att = 1 →
    c.objects s = .ok [sandwich s.att sun, sandwich s.att (-normalizeV s.pos)]

/-- The direction of the earth is left in inertial coordinates. -/
theorem C96_frame_fails : ¬ ObjectsInBodyFrame := by
  intro H
  obtain ⟨sat, -⟩ := exSat3 false []
  have h := H ⟨sat, exClock, some fun _ _ => .ok ![1, 0, 0], true, Trigger.init 1 0.3, 1, 1, []⟩
    ⟨![6800000, 0, 0], 0, ![0, 0, 1, 0], 0, 0, 0, 0⟩ (fun _ _ => .ok ![1, 0, 0]) ![1, 0, 0] rfl rfl
    (fun h => by have := congrFun h 0; norm_num at this) (npNorm_vec4 (by norm_num))
  simp only [RwController.objects, Except.ok.injEq, List.cons.injEq, and_true, true_and] at h
  have hn : normalizeV (![6800000, 0, 0] : V3) = ![1, 0, 0] := by
    have e : (![6800000, 0, 0] : V3) = (6800000 : ℝ) • ![1, 0, 0] := by apply vec3_ext <;> simp
    have h1 : npNorm (![1, 0, 0] : V3) = 1 := npNorm_vec3 (by norm_num)
    have h2 : npNorm (![6800000, 0, 0] : V3) = 6800000 := by rw [e, npNorm_smul, h1]; norm_num
    rw [normalize_eq (fun h => by have := congrFun h 0; norm_num at this), h2]
    apply vec3_ext <;> norm_num
  rw [hn] at h
  have := congrFun h 0
  rw [sandwich_0] at this
  norm_num at this

/-- What holds: the sun is in body coordinates, and the second object is the direction of the earth turned by
the inverse attitude, so it is right only for attitudes that leave it fixed. Missing: all other attitudes. -/
theorem C96_frame_partial (c : RwController) (s : Measurements c.sat.rw.n) (f : JClock → V3 → Py V3) (sun : V3)
    (hf : c.sunVector = some f) (hsun : f c.clock s.pos = .ok sun) :
    ∃ earth, c.objects s = .ok [sandwich s.att sun, earth] ∧ earth = -normalizeV s.pos ∧
      (earth = sandwich s.att (-normalizeV s.pos) ↔ sandwich s.att (normalizeV s.pos) = normalizeV s.pos) := by
  refine ⟨-normalizeV s.pos, by simp only [RwController.objects, hf, hsun], rfl, ?_⟩
  have : sandwich s.att (-normalizeV s.pos) = -sandwich s.att (normalizeV s.pos) := by
    rw [sandwich_eq_dcm, sandwich_eq_dcm, Matrix.mulVec_neg]
  rw [this, neg_inj]
  exact eq_comm

example : ∃ (c : RwController) (s : Measurements c.sat.rw.n) (f : JClock → V3 → Py V3),
    c.sunVector = some f ∧ f c.clock s.pos = .ok ![1, 0, 0] ∧ s.pos ≠ 0 := by
  obtain ⟨sat, -⟩ := exSat3 false []
  exact ⟨⟨sat, exClock, some fun _ _ => .ok ![1, 0, 0], true, Trigger.init 1 0.3, 1, 1, []⟩,
    ⟨![6800000, 0, 0], 0, ![0, 0, 1, 0], 0, 0, 0, 0⟩, _, rfl, rfl,
    (fun h => by have := congrFun h 0; norm_num at this)⟩

/-! ## C103: work of the avoidance law -/

/-- What the objects from number `j` on add to the logarithmic barrier of an instrument. -/
noncomputable def barrierFrom (i : Instrument) : ℕ → List V3 → ℝ
  | _, [] => 0
  | j, o :: l =>
    (if h : j < i.nBounds then
      if j ∈ i.objIds ∧ margin i ⟨j, h⟩ o < i.sigma ⟨j, h⟩ then i.gains ⟨j, h⟩ * Real.log (margin i ⟨j, h⟩ o) else 0
    else 0) + barrierFrom i (j + 1) l

/-- The sum over the instruments. -/
noncomputable def barrier (objs : List V3) : List Instrument → ℝ
  | [] => 0
  | i :: l => barrierFrom i 0 objs + barrier objs l

/-- The potential of Lee and Mesbahi: the attractive potential of the attitude error times the barrier. -/
noncomputable def potential (c : RwController) (sgn : ℝ) (delQ : V4) (objs : List V3) : ℝ :=
  2 * (1 - sgn * delQ 0) * (c.alpha - barrier objs c.instruments)

/-- Object number `j` is well inside the region where it counts, or well outside of it. -/
def Inside (i : Instrument) (j : ℕ) (o : V3) : Prop :=
  ∃ hj : j < i.nBounds, j ∉ i.objIds ∨ i.sigma ⟨j, hj⟩ < margin i ⟨j, hj⟩ o ∨
    (0 < margin i ⟨j, hj⟩ o ∧ i.iota ⟨j, hj⟩ < margin i ⟨j, hj⟩ o ∧ margin i ⟨j, hj⟩ o < i.sigma ⟨j, hj⟩)

theorem zoneStep_outside {i : Instrument} {s : ℝ} {dq dw : V3} {j : ℕ} {o : V3} (hj : j < i.nBounds)
    (h : j ∉ i.objIds ∨ i.sigma ⟨j, hj⟩ ≤ margin i ⟨j, hj⟩ o) (z : Zone) : zoneStep i s dq dw j o z = .ok z := by
  have := zoneObjects_clear (i := i) (s := s) (dq := dq) (dw := dw) [o] j z (by
    intro k o' hk
    match k, hk with
    | 0, hk =>
      simp only [List.getElem?_cons_zero, Option.some.injEq] at hk
      subst hk
      exact ⟨hj, h⟩
    | n + 1, hk => simp at hk)
  rw [zoneObjects] at this
  cases h1 : zoneStep i s dq dw j o z with
  | error e => rw [h1] at this; cases this
  | ok z' => rw [h1] at this; exact this

theorem zoneStep_inside {i : Instrument} {s : ℝ} {dq dw : V3} {j : ℕ} {o : V3} (hj : j < i.nBounds)
    (hm : j ∈ i.objIds) (h0 : 0 < margin i ⟨j, hj⟩ o) (h1 : i.iota ⟨j, hj⟩ < margin i ⟨j, hj⟩ o)
    (h2 : margin i ⟨j, hj⟩ o < i.sigma ⟨j, hj⟩) (z : Zone) :
    zoneStep i s dq dw j o z = .ok ⟨z.c - i.gains ⟨j, hj⟩ * Real.log (margin i ⟨j, hj⟩ o),
      z.axis + (i.gains ⟨j, hj⟩ * i.sign ⟨j, hj⟩ / margin i ⟨j, hj⟩ o) • npCross i.boresight o, z.nudge⟩ := by
  unfold zoneStep
  rw [dif_pos hj]
  have e : 0.5 * i.sign ⟨j, hj⟩ * (npDot i.boresight o - i.cosPsi ⟨j, hj⟩) = margin i ⟨j, hj⟩ o := rfl
  simp only [Instrument.caresAbout, dif_pos hj, if_pos hm, e, h2, decide_true, if_neg (not_le.2 h0), npLog, if_pos h0,
    npDiv, if_neg h0.ne', if_neg (not_lt.2 h1.le)]

theorem margin_deriv {i : Instrument} (k : Fin i.nBounds) {o : ℝ → V3} {w : V3} {t : ℝ}
    (ho : HasDerivAt o (-npCross w (o t)) t) :
    HasDerivAt (fun τ => margin i k (o τ)) (0.5 * i.sign k * (npCross i.boresight (o t) ⬝ᵥ w)) t := by
  have k0 := hasDerivAt_pi.1 ho
  have e : (fun τ => margin i k (o τ)) = fun τ => 0.5 * i.sign k *
      (i.boresight 0 * o τ 0 + i.boresight 1 * o τ 1 + i.boresight 2 * o τ 2 - i.cosPsi k) := by
    funext τ; rw [margin, npDot3]
  rw [e]
  refine ((((((k0 0).const_mul (i.boresight 0)).fun_add ((k0 1).const_mul (i.boresight 1))).fun_add
    ((k0 2).const_mul (i.boresight 2))).sub_const (i.cosPsi k)).const_mul (0.5 * i.sign k)).congr_deriv ?_
  simp only [Pi.neg_apply, npCross_0, npCross_1, npCross_2, Matrix.vec3_dotProduct]
  ring

theorem barrierFrom_work (i : Instrument) (s : ℝ) (dq dw w : V3) (t : ℝ) (O : List (ℝ → V3))
    (hO : ∀ o ∈ O, HasDerivAt o (-npCross w (o t)) t) (j : ℕ)
    (hin : ∀ (k : ℕ) (o : V3), (O.map (· t))[k]? = some o → Inside i (j + k) o) (z : Zone) :
    ∃ A : V3, zoneObjects i s dq dw j (O.map (· t)) z =
        .ok ⟨z.c - barrierFrom i j (O.map (· t)), z.axis + A, z.nudge⟩ ∧
      HasDerivAt (fun τ => barrierFrom i j (O.map (· τ))) (0.5 * (A ⬝ᵥ w)) t := by
  induction O generalizing j z with
  | nil =>
    refine ⟨0, by simp [zoneObjects, barrierFrom], ?_⟩
    simp only [List.map_nil, barrierFrom, zero_dotProduct, mul_zero]
    exact hasDerivAt_const _ _
  | cons o l ih =>
    have ho := hO o List.mem_cons_self
    obtain ⟨hj, hc⟩ := hin 0 (o t) rfl
    have hj' : j < i.nBounds := hj
    have hrest : ∀ (k : ℕ) (o : V3), (l.map (· t))[k]? = some o → Inside i (j + 1 + k) o := by
      intro k o' hk
      have := hin (k + 1) o' (by simpa using hk)
      rwa [show j + (k + 1) = j + 1 + k by omega] at this
    have hcont : ContinuousAt (fun τ => margin i ⟨j, hj'⟩ (o τ)) t := (margin_deriv _ ho).continuousAt
    have hout : (j ∉ i.objIds ∨ i.sigma ⟨j, hj'⟩ < margin i ⟨j, hj'⟩ (o t)) →
        ∃ A : V3, zoneObjects i s dq dw j ((o :: l).map (· t)) z =
          .ok ⟨z.c - barrierFrom i j ((o :: l).map (· t)), z.axis + A, z.nudge⟩ ∧
        HasDerivAt (fun τ => barrierFrom i j ((o :: l).map (· τ))) (0.5 * (A ⬝ᵥ w)) t := by
      intro hc
      obtain ⟨A, h1, h2⟩ := ih (fun o' h' => hO o' (List.mem_cons_of_mem _ h')) (j + 1) hrest z
      have hev : ∀ᶠ τ in 𝓝 t, ¬ (j ∈ i.objIds ∧ margin i ⟨j, hj'⟩ (o τ) < i.sigma ⟨j, hj'⟩) := by
        rcases hc with hc | hc
        · exact Filter.Eventually.of_forall fun τ h => hc h.1
        · filter_upwards [hcont.eventually (lt_mem_nhds hc)] with τ h h'
          exact absurd h'.2 (not_lt.2 h.le)
      have hev' : (fun τ => barrierFrom i j ((o :: l).map (· τ))) =ᶠ[𝓝 t] fun τ => barrierFrom i (j + 1) (l.map (· τ)) := by
        filter_upwards [hev] with τ h
        simp only [List.map_cons, barrierFrom, dif_pos hj', if_neg h, zero_add]
      refine ⟨A, ?_, h2.congr_of_eventuallyEq hev'⟩
      have e0 : barrierFrom i j ((o :: l).map (· t)) = barrierFrom i (j + 1) (l.map (· t)) := hev'.self_of_nhds
      rw [e0, List.map_cons, zoneObjects, zoneStep_outside hj' (hc.imp_right le_of_lt)]
      exact h1
    rcases hc with hc | hc | ⟨c0, c1, c2⟩
    · exact hout (.inl hc)
    · exact hout (.inr hc)
    · by_cases hm : j ∈ i.objIds
      · change 0 < margin i ⟨j, hj'⟩ (o t) at c0
        have hs := zoneStep_inside (s := s) (dq := dq) (dw := dw) hj' hm c0 c1 c2 z
        obtain ⟨A, h1, h2⟩ := ih (fun o' h' => hO o' (List.mem_cons_of_mem _ h')) (j + 1) hrest
          ⟨z.c - i.gains ⟨j, hj'⟩ * Real.log (margin i ⟨j, hj'⟩ (o t)),
           z.axis + (i.gains ⟨j, hj'⟩ * i.sign ⟨j, hj'⟩ / margin i ⟨j, hj'⟩ (o t)) • npCross i.boresight (o t), z.nudge⟩
        have hev' : (fun τ => barrierFrom i j ((o :: l).map (· τ))) =ᶠ[𝓝 t] fun τ =>
            i.gains ⟨j, hj'⟩ * Real.log (margin i ⟨j, hj'⟩ (o τ)) + barrierFrom i (j + 1) (l.map (· τ)) := by
          filter_upwards [hcont.eventually (gt_mem_nhds c2)] with τ h
          simp only [List.map_cons, barrierFrom, dif_pos hj']
          rw [if_pos ⟨hm, h⟩]
        refine ⟨(i.gains ⟨j, hj'⟩ * i.sign ⟨j, hj'⟩ / margin i ⟨j, hj'⟩ (o t)) • npCross i.boresight (o t) + A, ?_, ?_⟩
        · have e0 : barrierFrom i j ((o :: l).map (· t)) = i.gains ⟨j, hj'⟩ * Real.log (margin i ⟨j, hj'⟩ (o t)) +
              barrierFrom i (j + 1) (l.map (· t)) := hev'.self_of_nhds
          rw [e0, List.map_cons, zoneObjects, hs]
          simp only [h1]
          rw [sub_sub, add_assoc]
        · refine HasDerivAt.congr_of_eventuallyEq ?_ hev'
          refine ((((margin_deriv ⟨j, hj'⟩ ho).log c0.ne').const_mul (i.gains ⟨j, hj'⟩)).fun_add h2).congr_deriv ?_
          rw [add_dotProduct, smul_dotProduct, smul_eq_mul]
          ring
      · exact hout (.inl hm)

theorem barrier_work (s : ℝ) (dq dw w : V3) (t : ℝ) (O : List (ℝ → V3))
    (hO : ∀ o ∈ O, HasDerivAt o (-npCross w (o t)) t) (ins : List Instrument)
    (hin : ∀ i ∈ ins, ∀ (k : ℕ) (o : V3), (O.map (· t))[k]? = some o → Inside i k o) (z : Zone) :
    ∃ A : V3, zoneInstruments s dq dw (O.map (· t)) ins z =
        .ok ⟨z.c - barrier (O.map (· t)) ins, z.axis + A, z.nudge⟩ ∧
      HasDerivAt (fun τ => barrier (O.map (· τ)) ins) (0.5 * (A ⬝ᵥ w)) t := by
  induction ins generalizing z with
  | nil =>
    refine ⟨0, by simp [zoneInstruments, barrier], ?_⟩
    simp only [barrier, zero_dotProduct, mul_zero]
    exact hasDerivAt_const _ _
  | cons i l ih =>
    obtain ⟨A, h1, h2⟩ := barrierFrom_work i s dq dw w t O hO 0
      (fun k o hk => by rw [zero_add]; exact hin i List.mem_cons_self k o hk) z
    obtain ⟨B, h3, h4⟩ := ih (fun i' hi' => hin i' (List.mem_cons_of_mem _ hi'))
      ⟨z.c - barrierFrom i 0 (O.map (· t)), z.axis + A, z.nudge⟩
    refine ⟨A + B, ?_, ?_⟩
    · rw [zoneInstruments, h1]
      simp only [h3, barrier]
      rw [sub_sub, add_assoc]
    · refine (h2.fun_add h4).congr_deriv ?_
      rw [add_dotProduct]; ring

/-- The claim: away from the edges of the regions, the power of the avoidance law is minus the rate of change
of the potential, so that the closed loop loses energy only by the damping. -/
def AvoidanceIsGradient : Prop :=
  ∀ (c : RwController) (q : ℝ → V4) (qc : V4) (w : V3) (t : ℝ) (O : List V3) (v : V3) (c' : RwController),
    HasDerivAt q ((0.5 : ℝ) • product (q t) (pureQ w)) t →
    (∀ i ∈ c.instruments, ∀ (k : ℕ) (o : V3), (O.map (sandwich (q t)))[k]? = some o → Inside i k o) →
    c.allowableZone (errorQuat (q t) qc) w (O.map (sandwich (q t))) = (.ok v, c') →
    HasDerivAt (fun τ => potential c c'.trigger.memory (errorQuat (q τ) qc) (O.map (sandwich (q τ)))) (-(v ⬝ᵥ w)) t

/-- What holds: the law is an attractive term along the attitude error plus a repulsive term; the potential
changes by minus the work of the attractive term and minus twice the work of the repulsive term. Missing: the
repulsive term is half of what the claim needs. -/
theorem C103_gradient_partial (c : RwController) (q : ℝ → V4) (qc : V4) (w : V3) (t : ℝ) (O : List V3)
    (hq : HasDerivAt q ((0.5 : ℝ) • product (q t) (pureQ w)) t)
    (hin : ∀ i ∈ c.instruments, ∀ (k : ℕ) (o : V3), (O.map (sandwich (q t)))[k]? = some o → Inside i k o) :
    ∃ r c', c.allowableZone (errorQuat (q t) qc) w (O.map (sandwich (q t))) =
      (.ok ((-c'.trigger.memory * (c.alpha - barrier (O.map (sandwich (q t))) c.instruments)) •
        vecPart (errorQuat (q t) qc) + r), c') ∧
    HasDerivAt (fun τ => potential c c'.trigger.memory (errorQuat (q τ) qc) (O.map (sandwich (q τ))))
      (c'.trigger.memory * (c.alpha - barrier (O.map (sandwich (q t))) c.instruments) *
        (vecPart (errorQuat (q t) qc) ⬝ᵥ w) - 2 * (r ⬝ᵥ w)) t := by
  have hO : ∀ o ∈ O.map (fun o => fun τ => sandwich (q τ) o), HasDerivAt o (-npCross w (o t)) t := by
    intro o ho
    obtain ⟨o', -, rfl⟩ := List.mem_map.1 ho
    have h := hasDerivAt_sandwich2 hq (hasDerivAt_const t o')
    unfold pureQ at h
    rw [sandwich_kinematics] at h
    refine h.congr_deriv ?_
    have : sandwich (q t) (0 : V3) = 0 := by rw [sandwich_eq_dcm, Matrix.mulVec_zero]
    rw [this, zero_sub]
  have hmap : ∀ τ, (O.map (fun o => fun τ => sandwich (q τ) o)).map (· τ) = O.map (sandwich (q τ)) := by
    intro τ; rw [List.map_map]; rfl
  have hw := fun s dq => barrier_work s dq w w t (O.map fun o => fun τ => sandwich (q τ) o) hO c.instruments
    (by rw [hmap]; exact hin) ⟨c.alpha, 0, 0⟩
  obtain ⟨A, h1, h2⟩ := hw (c.trigger.sign (errorQuat (q t) qc 0)).1 (vecPart (errorQuat (q t) qc))
  simp only [hmap, zero_add] at h1 h2
  set sg := (c.trigger.sign (errorQuat (q t) qc 0)).1 with hsg
  refine ⟨(0.5 * (1 - sg * errorQuat (q t) qc 0)) • A, { c with trigger := (c.trigger.sign (errorQuat (q t) qc 0)).2 }, ?_, ?_⟩
  · unfold RwController.allowableZone
    simp only [← hsg, h1, add_zero]
    rfl
  · change HasDerivAt (fun τ => 2 * (1 - sg * errorQuat (q τ) qc 0) *
      (c.alpha - barrier (O.map (sandwich (q τ))) c.instruments)) (sg * _ * _ - _) t
    refine ((((error_scalar_deriv qc hq).const_mul sg).const_sub 1).const_mul 2 |>.fun_mul (h2.const_sub c.alpha)).congr_deriv ?_
    rw [smul_dotProduct, smul_eq_mul]
    ring

/-- The claim is false: turning across the direction of the sun. -/
theorem C103_gradient_fails : ¬ AvoidanceIsGradient := by
  intro H
  obtain ⟨sat, -⟩ := exSat3 false []
  set c : RwController := ⟨sat, exClock, none, true, Trigger.init 1 0.3, 1, 1, [exInstrument]⟩ with hc
  set q : ℝ → V4 := fun τ => ![1, 0, 0, 0] + τ • ((0.5 : ℝ) • product ![1, 0, 0, 0] (pureQ ![0, 0, 1])) with hqdef
  have q0 : q 0 = ![1, 0, 0, 0] := by simp [hqdef]
  have hq : HasDerivAt q ((0.5 : ℝ) • product (q 0) (pureQ ![0, 0, 1])) 0 := by
    rw [q0]
    have := ((hasDerivAt_id (0 : ℝ)).smul_const ((0.5 : ℝ) • product ![1, 0, 0, 0] (pureQ ![0, 0, 1]))).const_add
      (![1, 0, 0, 0] : V4)
    exact this.congr_deriv (one_smul _ _)
  have hobj : [(![0, 1, 0] : V3)].map (sandwich (q 0)) = [![0, 1, 0]] := by
    rw [q0, List.map_singleton, sandwich_one]
  have hm : ∀ k, margin exInstrument k ![0, 1, 0] = 1 / 4 := by
    intro k; rw [exInstrument_margin]; norm_num
  have hi : ∀ k, exInstrument.iota k = 1 / 8 := by
    intro k
    have : exInstrument.iota k = 0.25 * exInstrument.sigma k := rfl
    rw [this, exInstrument_sigma]; norm_num
  have hin : ∀ i ∈ c.instruments, ∀ (k : ℕ) (o : V3), ([(![0, 1, 0] : V3)].map (sandwich (q 0)))[k]? = some o → Inside i k o := by
    intro i hii k o hk
    obtain rfl := List.mem_singleton.1 hii
    rw [hobj] at hk
    match k, hk with
    | 0, hk =>
      simp only [List.getElem?_cons_zero, Option.some.injEq] at hk
      subst hk
      refine ⟨(by decide : 0 < 2), Or.inr (Or.inr ?_)⟩
      rw [hm, hi, exInstrument_sigma]
      norm_num
    | n + 1, hk => simp at hk
  have herr : errorQuat (q 0) ![0.6, -0.8, 0, 0] = ![0.6, 0.8, 0, 0] := by
    rw [q0]
    apply vec4_ext <;> norm_num [errorQuat, product_0, product_1, product_2, product_3, conjugate_0, conjugate_1, conjugate_2, conjugate_3]
  obtain ⟨r, c', h1, h2⟩ := C103_gradient_partial c q ![0.6, -0.8, 0, 0] ![0, 0, 1] 0 [![0, 1, 0]] hq hin
  have h3 := H c q ![0.6, -0.8, 0, 0] ![0, 0, 1] 0 [![0, 1, 0]] _ c' hq hin h1
  have h4 := h3.unique h2
  have hr : r ⬝ᵥ ![0, 0, 1] = 0 := by
    rw [add_dotProduct, smul_dotProduct, smul_eq_mul] at h4
    linarith
  -- but the repulsive term turns the instrument away
  have hs : (c.trigger.sign (errorQuat (q 0) ![0.6, -0.8, 0, 0] 0)) = (1, Trigger.init 1 0.3) := by
    rw [herr]
    have hmem : (Trigger.init 1 0.3).memory = 1 := by simp [Trigger.init, npSign]
    have hstep : (Trigger.init 1 0.3).step 0.6 = Trigger.init 1 0.3 := by
      unfold Trigger.step
      rw [if_neg]
      rw [hmem]; simp only [Trigger.init]; norm_num
    have e6 : (![0.6, 0.8, 0, 0] : V4) 0 = 0.6 := rfl
    rw [e6]
    change (((Trigger.init 1 0.3).step 0.6).memory, (Trigger.init 1 0.3).step 0.6) = _
    rw [hstep, hmem]
  have hz := zoneStep_inside (s := 1) (dq := vecPart ![0.6, 0.8, 0, 0]) (dw := ![0, 0, 1]) (i := exInstrument) (j := 0)
    (o := ![0, 1, 0]) (by decide : 0 < 2) (by simp [exInstrument, Instrument.mk'])
    (by rw [hm]; norm_num) (by rw [hm, hi]; norm_num) (by rw [hm, exInstrument_sigma]; norm_num) ⟨1, 0, 0⟩
  unfold RwController.allowableZone at h1
  rw [hs, hobj, herr] at h1
  simp only [hc, zoneInstruments, zoneObjects, hz, hm] at h1
  have h5 := congrFun (Except.ok.inj (Prod.mk.inj h1).1) 2
  rw [Matrix.vec3_dotProduct] at hr
  have hg : ∀ k, exInstrument.gains k = 1 := fun _ => rfl
  have hbo : exInstrument.boresight = ![1, 0, 0] := rfl
  simp at hr
  simp [hg, exInstrument_sign, hbo, npCross_2, hr, vecPart_2] at h5
  norm_num at h5

/-! ## C105: how avoidance sets in -/

/-- The claim: as an object comes near enough for an instrument to care about it, the law changes
continuously. -/
def SetsInContinuously : Prop :=
  ∀ (c : RwController) (i : Instrument), c.instruments = [i] → ∀ (h0 : 0 < i.nBounds) (delQ : V4) (w o : V3),
    npNorm o = 1 → margin i ⟨0, h0⟩ o = i.sigma ⟨0, h0⟩ → 0 < i.sigma ⟨0, h0⟩ →
    ∀ (v : V3) (c' : RwController), c.allowableZone delQ w [o] = (.ok v, c') →
    ∀ (o' v' : ℕ → V3), (∀ n, npNorm (o' n) = 1) → Filter.Tendsto o' Filter.atTop (𝓝 o) →
    (∀ n, (c.allowableZone delQ w [o' n]).1 = .ok (v' n)) → Filter.Tendsto v' Filter.atTop (𝓝 v)

/-- A zone that depends continuously on a parameter. -/
structure Zone.ContAt {X : Type} [TopologicalSpace X] (z : X → Zone) (x : X) : Prop where
  c : ContinuousAt (fun y => (z y).c) x
  axis : ContinuousAt (fun y => (z y).axis) x
  nudge : ContinuousAt (fun y => (z y).nudge) x

theorem margin_cont {X : Type} [TopologicalSpace X] {i : Instrument} (k : Fin i.nBounds) {o : X → V3} {x : X}
    (ho : ContinuousAt o x) : ContinuousAt (fun y => margin i k (o y)) x := by
  have k0 := continuousAt_pi.1 ho
  have e : (fun y => margin i k (o y)) = fun y => 0.5 * i.sign k *
      (i.boresight 0 * o y 0 + i.boresight 1 * o y 1 + i.boresight 2 * o y 2 - i.cosPsi k) := by
    funext y; rw [margin, npDot3]
  rw [e]
  exact ((((k0 0).const_mul _).add ((k0 1).const_mul _)).add ((k0 2).const_mul _)).sub continuousAt_const
    |>.const_mul _

theorem cross_cont {X : Type} [TopologicalSpace X] (b : V3) {o : X → V3} {x : X} (ho : ContinuousAt o x) :
    ContinuousAt (fun y => npCross b (o y)) x := by
  have k0 := continuousAt_pi.1 ho
  rw [continuousAt_pi]
  intro m
  fin_cases m
  · simp only [npCross_0, Fin.zero_eta]; exact ((k0 2).const_mul _).sub ((k0 1).const_mul _)
  · simp only [npCross_1, Fin.mk_one]; exact ((k0 0).const_mul _).sub ((k0 2).const_mul _)
  · have : ∀ y, npCross b (o y) 2 = b 0 * o y 1 - b 1 * o y 0 := fun y => npCross_2 _ _
    change ContinuousAt (fun y => npCross b (o y) 2) x
    simp only [this]; exact ((k0 1).const_mul _).sub ((k0 0).const_mul _)

theorem zoneStep_cont {X : Type} [TopologicalSpace X] (i : Instrument) (s : ℝ) (dq dw : V3) (x : X) {o : X → V3}
    (ho : ContinuousAt o x) {j : ℕ} (hin : Inside i j (o x)) {z : X → Zone} (hz : Zone.ContAt z x) :
    ∃ z', (∀ᶠ y in 𝓝 x, zoneStep i s dq dw j (o y) (z y) = .ok (z' y)) ∧ Zone.ContAt z' x := by
  obtain ⟨hj, hc⟩ := hin
  have hcont := margin_cont ⟨j, hj⟩ ho
  by_cases hout : j ∉ i.objIds ∨ i.sigma ⟨j, hj⟩ < margin i ⟨j, hj⟩ (o x)
  · refine ⟨z, ?_, hz⟩
    rcases hout with h | h
    · exact Filter.Eventually.of_forall fun y => zoneStep_outside hj (.inl h) _
    · filter_upwards [hcont.eventually (lt_mem_nhds h)] with y hy
      exact zoneStep_outside hj (.inr hy.le) _
  · push Not at hout
    obtain ⟨hm, hle⟩ := hout
    obtain ⟨c0, c1, c2⟩ : 0 < margin i ⟨j, hj⟩ (o x) ∧ i.iota ⟨j, hj⟩ < margin i ⟨j, hj⟩ (o x) ∧
        margin i ⟨j, hj⟩ (o x) < i.sigma ⟨j, hj⟩ := by
      rcases hc with h | h | h
      · exact absurd hm h
      · exact absurd h (not_lt.2 hle)
      · exact h
    refine ⟨fun y => ⟨(z y).c - i.gains ⟨j, hj⟩ * Real.log (margin i ⟨j, hj⟩ (o y)),
      (z y).axis + (i.gains ⟨j, hj⟩ * i.sign ⟨j, hj⟩ / margin i ⟨j, hj⟩ (o y)) • npCross i.boresight (o y),
      (z y).nudge⟩, ?_, ?_, ?_, ?_⟩
    · filter_upwards [hcont.eventually (lt_mem_nhds c0), hcont.eventually (lt_mem_nhds c1),
        hcont.eventually (gt_mem_nhds c2)] with y h0 h1 h2
      exact zoneStep_inside hj hm h0 h1 h2 _
    · exact hz.c.sub ((hcont.log c0.ne').const_mul _)
    · exact hz.axis.add ((continuousAt_const.div hcont c0.ne').smul (cross_cont _ ho))
    · exact hz.nudge

theorem zoneObjects_cont {X : Type} [TopologicalSpace X] (i : Instrument) (s : ℝ) (dq dw : V3) (x : X)
    (O : List (X → V3)) (hO : ∀ o ∈ O, ContinuousAt o x) (j : ℕ)
    (hin : ∀ (k : ℕ) (o : V3), (O.map (· x))[k]? = some o → Inside i (j + k) o) {z : X → Zone} (hz : Zone.ContAt z x) :
    ∃ z', (∀ᶠ y in 𝓝 x, zoneObjects i s dq dw j (O.map (· y)) (z y) = .ok (z' y)) ∧ Zone.ContAt z' x := by
  induction O generalizing j z with
  | nil => exact ⟨z, Filter.Eventually.of_forall fun _ => rfl, hz⟩
  | cons o l ih =>
    obtain ⟨z1, h1, hz1⟩ := zoneStep_cont i s dq dw x (hO o List.mem_cons_self) (hin 0 (o x) rfl) hz
    obtain ⟨z2, h2, hz2⟩ := ih (fun o' h' => hO o' (List.mem_cons_of_mem _ h')) (j + 1) (by
      intro k o' hk
      have := hin (k + 1) o' (by simpa using hk)
      rwa [show j + (k + 1) = j + 1 + k by omega] at this) hz1
    refine ⟨z2, ?_, hz2⟩
    filter_upwards [h1, h2] with y e1 e2
    have e1' : zoneStep i s dq dw j (o y) (z y) = .ok (z1 y) := e1
    rw [List.map_cons, zoneObjects, e1']
    exact e2

theorem zoneInstruments_cont {X : Type} [TopologicalSpace X] (s : ℝ) (dq dw : V3) (x : X)
    (O : List (X → V3)) (hO : ∀ o ∈ O, ContinuousAt o x) (ins : List Instrument)
    (hin : ∀ i ∈ ins, ∀ (k : ℕ) (o : V3), (O.map (· x))[k]? = some o → Inside i k o) {z : X → Zone} (hz : Zone.ContAt z x) :
    ∃ z', (∀ᶠ y in 𝓝 x, zoneInstruments s dq dw (O.map (· y)) ins (z y) = .ok (z' y)) ∧ Zone.ContAt z' x := by
  induction ins generalizing z with
  | nil => exact ⟨z, Filter.Eventually.of_forall fun _ => rfl, hz⟩
  | cons i l ih =>
    obtain ⟨z1, h1, hz1⟩ := zoneObjects_cont i s dq dw x O hO 0
      (fun k o hk => by rw [zero_add]; exact hin i List.mem_cons_self k o hk) hz
    obtain ⟨z2, h2, hz2⟩ := ih (fun i' hi' => hin i' (List.mem_cons_of_mem _ hi')) hz1
    refine ⟨z2, ?_, hz2⟩
    filter_upwards [h1, h2] with y e1 e2
    rw [zoneInstruments, e1]
    exact e2

/-- What holds: the law depends continuously on the directions of any number of objects, at all directions
away from the edges of the regions. Missing: the edge where avoidance sets in. -/
theorem C105_onset_partial {X : Type} [TopologicalSpace X] (c : RwController) (delQ : V4) (w : V3) (x : X)
    (O : List (X → V3)) (hO : ∀ o ∈ O, ContinuousAt o x)
    (hin : ∀ i ∈ c.instruments, ∀ (k : ℕ) (o : V3), (O.map (· x))[k]? = some o → Inside i k o) :
    ∃ v : X → V3, ContinuousAt v x ∧ ∀ᶠ y in 𝓝 x, (c.allowableZone delQ w (O.map (· y))).1 = .ok (v y) := by
  obtain ⟨z, h1, h2⟩ := zoneInstruments_cont (c.trigger.sign (delQ 0)).1 (vecPart delQ) w x O hO c.instruments hin
    (z := fun _ => ⟨c.alpha, 0, 0⟩) ⟨continuousAt_const, continuousAt_const, continuousAt_const⟩
  refine ⟨fun y => (-(c.trigger.sign (delQ 0)).1 * (z y).c) • vecPart delQ +
    (0.5 * (1 - (c.trigger.sign (delQ 0)).1 * delQ 0)) • (z y).axis + (z y).nudge, ?_, ?_⟩
  · exact (((h2.c.const_mul _).smul continuousAt_const).add (h2.axis.const_smul (0.5 * (1 - (c.trigger.sign (delQ 0)).1 * delQ 0)))).add h2.nudge
  · filter_upwards [h1] with y hy
    unfold RwController.allowableZone
    simp only [hy]

/-- The claim is false: the barrier does not start from zero. -/
theorem C105_onset_fails : ¬ SetsInContinuously := by
  intro H
  obtain ⟨sat, -⟩ := exSat3 false []
  set c : RwController := ⟨sat, exClock, none, true, Trigger.init 1 0.3, 1, 1, [exInstrument]⟩ with hc
  have hmem : (Trigger.init 1 0.3).memory = 1 := by simp [Trigger.init, npSign]
  have hstep : (Trigger.init 1 0.3).step 0.6 = Trigger.init 1 0.3 := by
    unfold Trigger.step
    rw [if_neg]
    rw [hmem]; simp only [Trigger.init]; norm_num
  have hs : c.trigger.sign ((![0.6, 0.8, 0, 0] : V4) 0) = (1, Trigger.init 1 0.3) := by
    have e6 : (![0.6, 0.8, 0, 0] : V4) 0 = 0.6 := rfl
    rw [e6]
    change (((Trigger.init 1 0.3).step 0.6).memory, (Trigger.init 1 0.3).step 0.6) = _
    rw [hstep, hmem]
  have hj : 0 < exInstrument.nBounds := (by decide : 0 < 2)
  have hi : ∀ k, exInstrument.iota k = 1 / 8 := by
    intro k
    have : exInstrument.iota k = 0.25 * exInstrument.sigma k := rfl
    rw [this, exInstrument_sigma]; norm_num
  set th : ℕ → ℝ := fun n => 2 * Real.pi / 3 - 1 / ((n : ℝ) + 4) with hth
  set dir : ℝ → V3 := fun a => ![Real.cos a, Real.sin a, 0] with hdir
  have hunit : ∀ a, npNorm (dir a) = 1 := fun a => npNorm_vec3 (by have := Real.sin_sq_add_cos_sq a; linarith)
  have hpi := Real.pi_gt_three
  have hcos0 : Real.cos (2 * Real.pi / 3) = -1 / 2 := by
    rw [show 2 * Real.pi / 3 = Real.pi - Real.pi / 3 by ring, Real.cos_pi_sub, Real.cos_pi_div_three]; ring
  have hx : ∀ n : ℕ, 0 < 1 / ((n : ℝ) + 4) ∧ 1 / ((n : ℝ) + 4) ≤ 1 / 4 := by
    intro n
    have hn : (0 : ℝ) ≤ n := Nat.cast_nonneg n
    exact ⟨by positivity, one_div_le_one_div_of_le (by norm_num) (by linarith)⟩
  have hth1 : ∀ n, -1 / 2 < Real.cos (th n) := by
    intro n
    rw [← hcos0]
    exact Real.cos_lt_cos_of_nonneg_of_le_pi (by simp only [hth]; linarith [hx n]) (by linarith) (by simp only [hth]; linarith [hx n])
  have hth2 : ∀ n, Real.cos (th n) ≤ 0 := by
    intro n
    exact Real.cos_nonpos_of_pi_div_two_le_of_le (by simp only [hth]; linarith [hx n]) (by simp only [hth]; linarith [hx n])
  have hm : ∀ (k : Fin exInstrument.nBounds) a, margin exInstrument k (dir a) = 1 / 4 - Real.cos a / 2 := by
    intro k a; rw [exInstrument_margin]; rfl
  have hlim : Filter.Tendsto (fun n => dir (th n)) Filter.atTop (𝓝 (dir (2 * Real.pi / 3))) := by
    have h1 : Filter.Tendsto th Filter.atTop (𝓝 (2 * Real.pi / 3)) := by
      have h2 : Filter.Tendsto (fun n : ℕ => 1 / ((n : ℝ) + 4)) Filter.atTop (𝓝 0) := by
        have := tendsto_one_div_add_atTop_nhds_zero_nat (𝕜 := ℝ)
        have h3 := this.comp (Filter.tendsto_add_atTop_nat 3)
        refine h3.congr fun n => ?_
        simp only [Function.comp_apply]
        push_cast
        congr 1; ring
      have h3 := h2.const_sub (2 * Real.pi / 3)
      rwa [sub_zero] at h3
    have hd : Continuous dir := by
      rw [continuous_pi_iff]
      intro m
      fin_cases m
      · exact Real.continuous_cos
      · exact Real.continuous_sin
      · exact continuous_const
    exact (hd.tendsto _).comp h1
  have hval : ∀ n, ∃ v, (c.allowableZone ![0.6, 0.8, 0, 0] 0 [dir (th n)]).1 = .ok v ∧
      v 0 = -(1 - Real.log (1 / 4 - Real.cos (th n) / 2)) * 0.8 := by
    intro n
    have hz := zoneStep_inside (s := 1) (dq := vecPart ![0.6, 0.8, 0, 0]) (dw := 0) (i := exInstrument) (j := 0)
      (o := dir (th n)) hj (by simp [exInstrument, Instrument.mk'])
      (by rw [hm]; linarith [hth2 n]) (by rw [hm, hi]; linarith [hth2 n])
      (by rw [hm, exInstrument_sigma]; linarith [hth1 n]) ⟨1, 0, 0⟩
    unfold RwController.allowableZone
    rw [hs]
    simp only [hc, zoneInstruments, zoneObjects, hz, hm]
    refine ⟨_, rfl, ?_⟩
    have hg : ∀ k, exInstrument.gains k = 1 := fun _ => rfl
    have hbo : exInstrument.boresight = ![1, 0, 0] := rfl
    simp [hg, exInstrument_sign, hbo, npCross_0]
  have hv0 : (c.allowableZone ![0.6, 0.8, 0, 0] 0 [dir (2 * Real.pi / 3)]) =
      (.ok ((-1 : ℝ) • vecPart ![0.6, 0.8, 0, 0]), c) := by
    have := C71_plain c [dir (2 * Real.pi / 3)] (by
      intro i hii k o hk
      obtain rfl := List.mem_singleton.1 hii
      match k, hk with
      | 0, hk =>
        simp only [List.getElem?_cons_zero, Option.some.injEq] at hk
        subst hk
        refine ⟨hj, Or.inr ?_⟩
        rw [hm, hcos0, exInstrument_sigma]; norm_num
      | n + 1, hk => simp at hk) ![0.6, 0.8, 0, 0] 0
    rw [this, hs]
    simp only [hc, mul_one]
  choose v' hv' hv'0 using hval
  have ht := H c exInstrument rfl hj ![0.6, 0.8, 0, 0] 0 (dir (2 * Real.pi / 3)) (hunit _)
    (by rw [hm, hcos0, exInstrument_sigma]; norm_num) (by rw [exInstrument_sigma]; norm_num) _ _ hv0
    (fun n => dir (th n)) v' (fun n => hunit _) hlim hv'
  have ht0 := (tendsto_pi_nhds.1 ht) 0
  have hle : ∀ n, v' n 0 ≤ -(1 + Real.log 2) * 0.8 := by
    intro n
    rw [hv'0]
    have h1 : Real.log (1 / 4 - Real.cos (th n) / 2) ≤ Real.log (2⁻¹) :=
      Real.log_le_log (by linarith [hth2 n]) (by linarith [hth1 n])
    rw [Real.log_inv] at h1
    linarith
  have := le_of_tendsto' ht0 hle
  have h2 : 0 < Real.log 2 := Real.log_pos (by norm_num)
  simp at this
  linarith

end Adcs
