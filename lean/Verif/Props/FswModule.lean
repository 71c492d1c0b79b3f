import Verif.Model.FswModule
import Verif.Props.FlightSoftware

set_option autoImplicit false

/-! # C165: the flight software as a module with messages -/

namespace Adcs

open Sim
open scoped Matrix

/-- Specification: a module that can compute: the wheels have inertia, time passes, there is a target. -/
structure Spec.Usable (m : FswModule) : Prop where
  inertia : m.fsw.rwInertia ≠ 0
  time : m.fsw.updateTime ≠ 0
  target : m.fsw.qTarget ≠ 0

/-- Specification: the reading of the star tracker, if there is one, is not zero. -/
def Spec.Sound (msgs : FswMsgs) : Prop := ∀ r, msgs.star = some r → r ≠ 0

/-- The claim: whichever messages have come, a call returns. -/
def C165_claim : Prop :=
  ∀ (m : FswModule) (t : ℕ) (msgs : FswMsgs), Spec.Usable m → Spec.Sound msgs → (m.updateState t msgs).1 = .ok ()

theorem FswModule.updateState_none (m : FswModule) (t : ℕ) (msgs : FswMsgs) (h : msgs.star = none) :
    m.updateState t msgs = (.error .unboundLocal, m) := by
  unfold FswModule.updateState
  rw [h]

/-- What a call does up to the controller. -/
theorem updateState_module {m : FswModule} (hm : Spec.Usable m) {r : V4} (hr : r ≠ 0) (t : ℕ) (imu : Option V3)
    (wheels : Option (Fin 4 → ℝ)) :
    ∃ err, quatError m.fsw.qTarget (toScalarLast r) = .ok err ∧ npNorm err = 1 ∧
      ∃ f1 m1 : FswModule,
        f1 = { m with fsw := (m.fsw.checkHemi err).2, error := m.error ++ [(m.fsw.checkHemi err).1] } ∧
        ((m1 = f1 ∧ ¬ (errorAngle err = .ok 0 ∧ imu = some 0)) ∨
          (errorAngle err = .ok 0 ∧ imu = some 0 ∧ m1 = { f1 with fsw := { f1.fsw with qTarget := secondTarget } })) ∧
        (errorAngle err = .ok 0 ∧ imu = none → m.updateState t ⟨some r, imu, wheels⟩ = (.error .unboundLocal, f1)) ∧
        (¬ (errorAngle err = .ok 0 ∧ imu = none) →
          (t * 1e-9 < m.startTime →
            m.updateState t ⟨some r, imu, wheels⟩ = (if m.outputStates then .error .unboundLocal else .ok (), m1)) ∧
          (m.startTime ≤ t * 1e-9 →
            (imu = none ∨ wheels = none → m.updateState t ⟨some r, imu, wheels⟩ = (.error .unboundLocal, m1)) ∧
            ∀ ω v, imu = some ω → wheels = some v → m.updateState t ⟨some r, imu, wheels⟩
              = m1.command t (m.fsw.convertTorque (errorTorque m.fsw err ω)) v)) := by
  have hl : toScalarLast r ≠ 0 := by
    intro h; apply hr
    exact vec4_ext (by simpa [toScalarLast] using congrFun h 3) (by simpa [toScalarLast] using congrFun h 0)
      (by simpa [toScalarLast] using congrFun h 1) (by simpa [toScalarLast] using congrFun h 2)
  have hq := hm.target
  set q := toScalarLast r with hqd
  set Q := (npNorm q)⁻¹ • q with hQ
  have hQn : npNorm Q = 1 := npNorm_inv_smul hl
  have hcQ : quatConjugate Q = (npNorm q)⁻¹ • quatConjugate q := by
    apply vec4_ext <;> simp [quatConjugate, hQ]
  set err := (npNorm m.fsw.qTarget * npNorm (quatConjugate q))⁻¹ • rawMult m.fsw.qTarget (quatConjugate q) with herr
  have he1 : quatError m.fsw.qTarget q = .ok err := quatMult_eq hq (conj_ne_zero hl)
  have he2 : quatError m.fsw.qTarget Q = .ok err := by
    rw [quatError, quatMult_eq hq (conj_ne_zero (ne_zero_of_norm hQn)), npNorm_conj, hQn, mul_one, hcQ, herr,
      npNorm_conj]
    congr 1
    have := rawMult_smul 1 (npNorm q)⁻¹ m.fsw.qTarget (quatConjugate q)
    rw [one_smul, one_mul] at this
    rw [this, smul_smul, mul_inv]
  have hen : npNorm err = 1 := by
    have h1 := npNorm_pos hq
    have h2 := npNorm_pos (conj_ne_zero hl)
    rw [herr, npNorm_smul, npNorm_rawMult, abs_of_pos (by positivity)]
    field_simp
  obtain ⟨hc3, hcn⟩ := checkHemi_3 m.fsw hen
  have habs : |(m.fsw.checkHemi err).1 3| = |err 3| := by
    unfold Fsw.checkHemi; split <;> simp
  have hang : errorAngle (m.fsw.checkHemi err).1 = errorAngle err := by
    rw [errorAngle, errorAngle, habs]
  have hcontrol : ∀ (g : Fsw) (ω : V3), g = (m.fsw.checkHemi err).2 ∨
      g = { (m.fsw.checkHemi err).2 with qTarget := secondTarget } →
      g.convertTorque (g.quaternionController (m.fsw.checkHemi err).1 ω)
        = m.fsw.convertTorque (errorTorque m.fsw err ω) := by
    rintro g ω (rfl | rfl) <;>
    · unfold Fsw.convertTorque errorTorque Fsw.quaternionController Fsw.checkHemi
      split <;> rfl
  set a := 2 * Real.arccos |(m.fsw.checkHemi err).1 3| * 180 / Real.pi with ha
  have hea : errorAngle (m.fsw.checkHemi err).1 = .ok a := by rw [errorAngle, if_pos hc3]
  have hea0 : errorAngle err = .ok 0 ↔ a = 0 := by rw [← hang, hea]; simp only [Except.ok.injEq]
  have hQv : Sim.normalize q = .ok Q := npVDiv_norm hl
  have ht2 : quatMult (aaq ![0, 1, 0] 180) (aaq ![0, 1, 0] 90) = .ok secondTarget :=
    quatMult_unit (aaq_norm yAxis_norm _) (aaq_norm yAxis_norm _)
  classical
  set f1 : FswModule :=
    { m with fsw := (m.fsw.checkHemi err).2, error := m.error ++ [(m.fsw.checkHemi err).1] } with hf1
  set m1 := if a = 0 ∧ imu = some 0 then { f1 with fsw := { f1.fsw with qTarget := secondTarget } } else f1 with hm1
  have hm1s : m1.startTime = m.startTime ∧ m1.outputStates = m.outputStates := by
    rw [hm1]; split <;> exact ⟨rfl, rfl⟩
  have hm1f : m1.fsw = (m.fsw.checkHemi err).2 ∨ m1.fsw = { (m.fsw.checkHemi err).2 with qTarget := secondTarget } := by
    rw [hm1]; split
    · exact .inr rfl
    · exact .inl rfl
  have hcall : m.updateState t ⟨some r, imu, wheels⟩ =
      if a = 0 ∧ imu = none then (.error .unboundLocal, f1)
      else if t * 1e-9 ≥ m1.startTime then
        match imu, wheels with
        | some omega, some speeds =>
          m1.command t (m1.fsw.convertTorque (m1.fsw.quaternionController (m.fsw.checkHemi err).1 omega)) speeds
        | _, _ => (.error .unboundLocal, m1)
      else if m1.outputStates then (.error .unboundLocal, m1)
      else (.ok (), m1) := by
    unfold FswModule.updateState
    simp only [← hqd, hQv, axisAngle_unit yAxis_norm, he2, ht2, hea]
    rfl
  refine ⟨err, he1, hen, f1, m1, rfl, ?_, ?_, ?_⟩
  · rw [hea0, hm1]
    by_cases h : a = 0 ∧ imu = some 0
    · exact .inr ⟨h.1, h.2, by rw [if_pos h]⟩
    · exact .inl ⟨by rw [if_neg h], h⟩
  · rw [hea0]
    intro h
    rw [hcall, if_pos h]
  · rw [hea0]
    intro h
    rw [hcall, if_neg h, hm1s.1, hm1s.2]
    refine ⟨fun h1 => ?_, fun h1 => ⟨fun h2 => ?_, fun ω v hω hv => ?_⟩⟩
    · rw [if_neg (not_le.2 h1)]
      split <;> rfl
    · rw [if_pos h1]
      rcases h2 with h2 | h2 <;> subst h2
      · rfl
      · cases imu <;> rfl
    · subst hω hv
      rw [if_pos h1]
      show m1.command t _ v = _
      rw [hcontrol _ _ hm1f]

theorem command_ok {m : FswModule} (hI : m.fsw.rwInertia ≠ 0) (ht : m.fsw.updateTime ≠ 0) (t : ℕ)
    (τ v : Fin 4 → ℝ) : ∃ g, m.fsw.checkTorqueVals τ v = .ok g ∧
      m.command t τ v = (.ok (), { m with fsw := g, sent := m.sent ++ [(t, g.payload)] }) := by
  obtain ⟨g, hg⟩ := C88_total hI ht τ v
  exact ⟨g, hg, by rw [FswModule.command, hg]⟩

/-- C165, what holds: a call returns exactly if the star tracker has been heard, the gyro has been heard or is
not needed (before the start of the controller, off the target), and after the start the wheels have been heard;
before the start it must not be asked to print.  Otherwise it raises `UnboundLocalError`.  Missing:
`C165_returns_fails`. -/
theorem C165_returns_partial (m : FswModule) (t : ℕ) (msgs : FswMsgs) (hm : Spec.Usable m) (hs : Spec.Sound msgs) :
    ((m.updateState t msgs).1 = .ok () ↔ ∃ r err, msgs.star = some r ∧
      quatError m.fsw.qTarget (toScalarLast r) = .ok err ∧
      (m.startTime ≤ t * 1e-9 → msgs.imu ≠ none ∧ msgs.wheels ≠ none) ∧
      (t * 1e-9 < m.startTime → m.outputStates = false ∧ (errorAngle err = .ok 0 → msgs.imu ≠ none))) ∧
    ((m.updateState t msgs).1 = .ok () ∨ (m.updateState t msgs).1 = .error .unboundLocal) := by
  obtain ⟨star, imu, wheels⟩ := msgs
  cases star with
  | none =>
    rw [FswModule.updateState_none _ _ _ rfl]
    exact ⟨⟨fun h => (nomatch h), fun ⟨r, _, h, _⟩ => (nomatch h)⟩, .inr rfl⟩
  | some r =>
    obtain ⟨err, he, hen, f1, m1, hf1, hm1, h1, h2⟩ := updateState_module hm (hs r rfl) t imu wheels
    have hset : m1.fsw.rwInertia ≠ 0 ∧ m1.fsw.updateTime ≠ 0 := by
      have h0 : f1.fsw.rwInertia = m.fsw.rwInertia ∧ f1.fsw.updateTime = m.fsw.updateTime := by
        rw [hf1]; dsimp only; unfold Fsw.checkHemi; split <;> exact ⟨rfl, rfl⟩
      rcases hm1 with ⟨h, -⟩ | ⟨-, -, h⟩
      · rw [h, h0.1, h0.2]; exact ⟨hm.inertia, hm.time⟩
      · rw [h]; dsimp only; rw [h0.1, h0.2]; exact ⟨hm.inertia, hm.time⟩
    have huniq : ∀ r' err', (some r = some r') → quatError m.fsw.qTarget (toScalarLast r') = .ok err' →
        err' = err := by
      intro r' err' h h'
      cases h
      rw [he] at h'
      exact (Except.ok.inj h').symm
    by_cases hc : errorAngle err = .ok 0 ∧ imu = none
    · rw [h1 hc]
      refine ⟨⟨fun h => (nomatch h), ?_⟩, .inr rfl⟩
      rintro ⟨r', err', hr', he', h3, h4⟩
      rw [huniq r' err' hr' he'] at h4
      rcases le_or_gt m.startTime (t * 1e-9) with ht | ht
      · exact absurd hc.2 (h3 ht).1
      · exact absurd hc.2 ((h4 ht).2 hc.1)
    · obtain ⟨h3, h4⟩ := h2 hc
      rcases le_or_gt m.startTime (t * 1e-9) with ht | ht
      · obtain ⟨h5, h6⟩ := h4 ht
        by_cases hw : imu = none ∨ wheels = none
        · rw [h5 hw]
          refine ⟨⟨fun h => (nomatch h), ?_⟩, .inr rfl⟩
          rintro ⟨_, _, -, -, h7, -⟩
          rcases hw with hw | hw
          · exact absurd hw (h7 ht).1
          · exact absurd hw (h7 ht).2
        · push Not at hw
          obtain ⟨ω, hω⟩ := Option.ne_none_iff_exists'.1 hw.1
          obtain ⟨v, hv⟩ := Option.ne_none_iff_exists'.1 hw.2
          obtain ⟨g, -, hg⟩ := command_ok hset.1 hset.2 t (m.fsw.convertTorque (errorTorque m.fsw err ω)) v
          rw [h6 ω v hω hv, hg]
          exact ⟨⟨fun _ => ⟨r, err, rfl, he, fun _ => hw, fun h => absurd ht (not_le.2 h)⟩, fun _ => rfl⟩, .inl rfl⟩
      · rw [h3 ht]
        cases ho : m.outputStates with
        | true =>
          refine ⟨⟨fun h => (nomatch h), ?_⟩, .inr rfl⟩
          rintro ⟨_, _, -, -, -, h7⟩
          exact absurd (h7 ht).1 (by simp)
        | false =>
          refine ⟨⟨fun _ => ⟨r, err, rfl, he, fun h => absurd ht (not_lt.2 h), fun _ => ⟨rfl, fun h hi => hc ⟨h, hi⟩⟩⟩,
            fun _ => rfl⟩, .inl rfl⟩

/-- C165: with all messages and after the start, a call is that of `C118`, and it sends one message: the torques
of the four wheels, and zeros. -/
theorem C165_command (m : FswModule) (t : ℕ) (r : V4) (ω : V3) (v : Fin 4 → ℝ) (hm : Spec.Usable m) (hr : r ≠ 0)
    (ht : m.startTime ≤ t * 1e-9) :
    ∃ msg : Fin 36 → ℝ, (m.updateState t ⟨some r, some ω, some v⟩).1 = .ok () ∧
      (m.updateState t ⟨some r, some ω, some v⟩).2.fsw = (m.fsw.updateState r ω v).2 ∧
      (m.updateState t ⟨some r, some ω, some v⟩).2.sent = m.sent ++ [(t, msg)] ∧
      (∀ i : Fin 4, msg (i.castLE (by norm_num)) = (m.fsw.updateState r ω v).2.torqueVals i) ∧
      ∀ i : Fin 36, 4 ≤ i.val → msg i = 0 := by
  have key : ∀ p : Py Unit × Fsw, m.fsw.updateState r ω v = p → p.1 = .ok () →
      m.updateState t ⟨some r, some ω, some v⟩ = (.ok (), { m with
        fsw := p.2, error := (m.updateState t ⟨some r, some ω, some v⟩).2.error,
        sent := m.sent ++ [(t, p.2.payload)] }) := by
    intro p hp h1
    unfold Fsw.updateState at hp
    unfold FswModule.updateState
    split at hp
    · subst hp; cases h1
    rename_i q hq
    split at hp
    · subst hp; cases h1
    rename_i qi hqi
    split at hp
    · subst hp; cases h1
    rename_i err he
    dsimp only at hp
    split at hp
    · subst hp; cases h1
    rename_i qr hqr
    split at hp
    · subst hp; cases h1
    rename_i t2 ht2
    split at hp
    · subst hp; cases h1
    rename_i a ha
    simp only [hq, hqi, he, hqr, ht2, ha]
    rw [if_neg (by simp)]
    have e : ∀ c : Prop, [Decidable c] → ∀ x y : FswModule, (if c then x else y).startTime
        = if c then x.startTime else y.startTime := by intro c _ x y; split <;> rfl
    rw [if_pos (by rw [e, ite_self]; exact ht)]
    simp only [FswModule.command, Option.some.injEq]
    split at hp
    · subst hp; cases h1
    rename_i g hg
    subst hp
    split_ifs at hg ⊢ with hc <;> rw [hg]
  obtain ⟨err, g, -, -, hu, -⟩ := updateState_step hm.inertia hm.time hm.target hr ω v
  have h := key _ rfl (by rw [hu])
  refine ⟨(m.fsw.updateState r ω v).2.payload, by rw [h], by rw [h], by rw [h], fun i => ?_, fun i hi => ?_⟩
  · rw [Fsw.payload, dif_pos (by simp)]; rfl
  · rw [Fsw.payload, dif_neg (by omega)]

/-- C165: before the start of the controller nothing is sent and the torques stay as they were. -/
theorem C165_before (m : FswModule) (t : ℕ) (msgs : FswMsgs) (ht : t * 1e-9 < m.startTime) :
    (m.updateState t msgs).2.sent = m.sent ∧ (m.updateState t msgs).2.fsw.torqueVals = m.fsw.torqueVals := by
  have hh : ∀ q, (m.fsw.checkHemi q).2.torqueVals = m.fsw.torqueVals := by
    intro q; unfold Fsw.checkHemi; split <;> rfl
  unfold FswModule.updateState
  split
  · exact ⟨rfl, rfl⟩
  split
  · exact ⟨rfl, rfl⟩
  split
  · exact ⟨rfl, rfl⟩
  split
  · exact ⟨rfl, rfl⟩
  dsimp only
  split
  · exact ⟨rfl, hh _⟩
  split
  · exact ⟨rfl, hh _⟩
  split
  · exact ⟨rfl, hh _⟩
  split
  · exact ⟨rfl, hh _⟩
  have e : ∀ c : Prop, [Decidable c] → ∀ x y : FswModule, (if c then x else y).startTime
      = if c then x.startTime else y.startTime := by intro c _ x y; split <;> rfl
  rw [if_neg (by rw [e, ite_self]; exact not_le.2 ht)]
  split_ifs <;> exact ⟨rfl, hh _⟩

/-- Specification: a message for four wheels that keeps to the torque limit. -/
def Spec.WithinLimit (lim : ℝ) (msg : Fin 36 → ℝ) : Prop := (∀ i, |msg i| ≤ lim) ∧ ∀ i : Fin 36, 4 ≤ i.val → msg i = 0

/-- One call, whatever has come. -/
theorem module_step {m : FswModule} (hm : Spec.Usable m) (hlim : 0 ≤ m.fsw.maxTorque) (t : ℕ) {msgs : FswMsgs}
    (hs : Spec.Sound msgs) : ∃ m', (m.updateState t msgs).2 = m' ∧ Spec.Usable m' ∧
      m'.fsw.maxTorque = m.fsw.maxTorque ∧ m'.startTime = m.startTime ∧
      m'.error.length = m.error.length + (if msgs.star = none then 0 else 1) ∧
      (((m.updateState t msgs).1 = .ok () ∧ m.startTime ≤ t * 1e-9 ∧
          ∃ msg, m'.sent = m.sent ++ [(t, msg)] ∧ Spec.WithinLimit m.fsw.maxTorque msg) ∨
        (¬ ((m.updateState t msgs).1 = .ok () ∧ m.startTime ≤ t * 1e-9) ∧ m'.sent = m.sent)) := by
  obtain ⟨star, imu, wheels⟩ := msgs
  cases star with
  | none =>
    refine ⟨m, by rw [FswModule.updateState_none _ _ _ rfl], hm, rfl, rfl, by simp, .inr ⟨?_, rfl⟩⟩
    rw [FswModule.updateState_none _ _ _ rfl]
    exact fun h => nomatch h.1
  | some r =>
    obtain ⟨err, he, hen, f1, m1, hf1, hm1, h1, h2⟩ := updateState_module hm (hs r rfl) t imu wheels
    have hsetf : Spec.Usable f1 ∧ f1.fsw.maxTorque = m.fsw.maxTorque ∧ f1.startTime = m.startTime ∧
        f1.error.length = m.error.length + 1 ∧ f1.sent = m.sent := by
      rw [hf1]
      refine ⟨?_, ?_, rfl, by simp, rfl⟩
      · have h0 := hm
        constructor <;> (dsimp only; unfold Fsw.checkHemi; split)
        · exact h0.inertia
        · exact h0.inertia
        · exact h0.time
        · exact h0.time
        · exact h0.target
        · exact h0.target
      · dsimp only; unfold Fsw.checkHemi; split <;> rfl
    have hset : Spec.Usable m1 ∧ m1.fsw.maxTorque = m.fsw.maxTorque ∧ m1.startTime = m.startTime ∧
        m1.error.length = m.error.length + 1 ∧ m1.sent = m.sent := by
      rcases hm1 with ⟨h, -⟩ | ⟨-, -, h⟩
      · rw [h]; exact hsetf
      · rw [h]
        exact ⟨⟨hsetf.1.inertia, hsetf.1.time, ne_zero_of_norm secondTarget_norm⟩, hsetf.2⟩
    have hstar : ∀ n : ℕ, n + 1 = n + (if (some r : Option V4) = none then 0 else 1) := by simp
    by_cases hc : errorAngle err = .ok 0 ∧ imu = none
    · rw [h1 hc]
      exact ⟨f1, rfl, hsetf.1, hsetf.2.1, hsetf.2.2.1, by rw [hsetf.2.2.2.1]; exact hstar _,
        .inr ⟨fun h => (nomatch h.1), hsetf.2.2.2.2⟩⟩
    obtain ⟨h3, h4⟩ := h2 hc
    rcases le_or_gt m.startTime (t * 1e-9) with ht | ht
    · obtain ⟨h5, h6⟩ := h4 ht
      by_cases hw : imu = none ∨ wheels = none
      · rw [h5 hw]
        exact ⟨m1, rfl, hset.1, hset.2.1, hset.2.2.1, by rw [hset.2.2.2.1]; exact hstar _,
          .inr ⟨fun h => (nomatch h.1), hset.2.2.2.2⟩⟩
      · push Not at hw
        obtain ⟨ω, hω⟩ := Option.ne_none_iff_exists'.1 hw.1
        obtain ⟨v, hv⟩ := Option.ne_none_iff_exists'.1 hw.2
        obtain ⟨g, hg0, hg⟩ := command_ok hset.1.inertia hset.1.time t
          (m.fsw.convertTorque (errorTorque m.fsw err ω)) v
        rw [h6 ω v hω hv, hg]
        have hgs : g.rwInertia = m1.fsw.rwInertia ∧ g.updateTime = m1.fsw.updateTime ∧ g.qTarget = m1.fsw.qTarget ∧
            g.maxTorque = m1.fsw.maxTorque := by
          have := hg0
          rw [Fsw.checkTorqueVals] at this
          split at this
          · cases this
          · cases this; exact ⟨rfl, rfl, rfl, rfl⟩
        refine ⟨_, rfl, ⟨?_, ?_, ?_⟩, hgs.2.2.2.trans hset.2.1, hset.2.2.1, by rw [hset.2.2.2.1]; exact hstar _,
          .inl ⟨rfl, ht, g.payload, by rw [← hset.2.2.2.2], fun i => ?_, fun i hi => ?_⟩⟩
        · dsimp only; rw [hgs.1]; exact hset.1.inertia
        · dsimp only; rw [hgs.2.1]; exact hset.1.time
        · dsimp only; rw [hgs.2.2.1]; exact hset.1.target
        · rw [Fsw.payload]
          split
          · have := C88_limit (by rw [hset.2.1]; exact hlim) hg0 ⟨i.val, by assumption⟩
            rwa [hset.2.1] at this
          · rw [abs_zero]; exact hlim
        · rw [Fsw.payload, dif_neg (by omega)]
    · rw [h3 ht]
      exact ⟨m1, rfl, hset.1, hset.2.1, hset.2.2.1, by rw [hset.2.2.2.1]; exact hstar _,
        .inr ⟨fun h => absurd h.2 (not_le.2 ht), hset.2.2.2.2⟩⟩

open Classical in
/-- C165: over any history of calls, with messages that come or do not come, one message is sent for each call that
returns at or after the start, with the time of that call, and for no other; every message keeps to the torque
limit and is zero beyond the four wheels; the error is recorded for each call with a star tracker reading. -/
theorem C165_history (m : FswModule) (hm : Spec.Usable m) (hlim : 0 ≤ m.fsw.maxTorque) (l : List (ℕ × FswMsgs))
    (hl : ∀ c ∈ l, Spec.Sound c.2) : ∃ new : List (ℕ × (Fin 36 → ℝ)),
      (m.run l).2.sent = m.sent ++ new ∧
      new.map (·.1) = ((l.zip (m.run l).1).filter fun p => p.2 = .ok () ∧ m.startTime ≤ p.1.1 * 1e-9).map (·.1.1) ∧
      (∀ p ∈ new, Spec.WithinLimit m.fsw.maxTorque p.2) ∧
      (m.run l).2.error.length = m.error.length + (l.filter fun c => c.2.star ≠ none).length := by
  induction l generalizing m with
  | nil => exact ⟨[], by simp [FswModule.run], by simp, by simp, by simp [FswModule.run]⟩
  | cons c l ih =>
    obtain ⟨t, msgs⟩ := c
    obtain ⟨m', h1, h2, h3, h4, h5, h6⟩ := module_step hm hlim t (hl (t, msgs) (by simp))
    obtain ⟨new, g1, g2, g3, g4⟩ := ih m' h2 (by rw [h3]; exact hlim) fun c hc => hl c (by simp [hc])
    have hrun : m.run ((t, msgs) :: l) = ((m.updateState t msgs).1 :: (m'.run l).1, (m'.run l).2) := by
      rw [FswModule.run, h1]
    rw [hrun]
    have herr : (m'.run l).2.error.length
        = m.error.length + (((t, msgs) :: l).filter fun c => c.2.star ≠ none).length := by
      rw [g4, h5, List.filter_cons]
      by_cases hn : msgs.star = none
      · simp [hn]
      · simp [hn]; ring
    rw [h4] at g2
    rcases h6 with ⟨k1, k2, msg, k3, k4⟩ | ⟨k1, k2⟩
    · refine ⟨(t, msg) :: new, ?_, ?_, ?_, herr⟩
      · show (m'.run l).2.sent = _
        rw [g1, k3]; simp
      · rw [List.zip_cons_cons, List.filter_cons_of_pos (by simpa using ⟨k1, k2⟩)]
        simp [g2]
      · intro p hp
        rcases List.mem_cons.1 hp with hp | hp
        · rw [hp]; exact k4
        · rw [← h3]; exact g3 p hp
    · refine ⟨new, ?_, ?_, ?_, herr⟩
      · show (m'.run l).2.sent = _
        rw [g1, k2]
      · rw [List.zip_cons_cons, List.filter_cons_of_neg (by simpa using k1)]
        exact g2
      · intro p hp
        rw [← h3]; exact g3 p hp

theorem init_usable (pinv : Matrix (Fin 4) (Fin 3) ℝ) {dt I : ℝ} (hdt : dt ≠ 0) (hI : I ≠ 0)
    (K : Matrix (Fin 3) Obs.I6 ℝ) : Spec.Usable (FswModule.init pinv dt I K) :=
  ⟨hI, hdt, fun h => by simpa [FswModule.init, Fsw.init] using congrFun h 3⟩

/-- C165 fails: a new module that is called before the star tracker has written anything. -/
theorem C165_returns_fails : ¬ C165_claim := by
  intro h
  have := h (FswModule.init 0 1 1 0) 0 ⟨none, none, none⟩ (init_usable 0 one_ne_zero one_ne_zero 0)
    (fun r hr => nomatch hr)
  rw [FswModule.updateState_none _ _ _ rfl] at this
  exact nomatch this

/-- C165 fails also with all messages: a start in the future with `output_states` switched on. -/
theorem C165_print_fails : ∃ (m : FswModule) (t : ℕ) (r : V4) (ω : V3) (v : Fin 4 → ℝ), Spec.Usable m ∧ r ≠ 0 ∧
    (m.updateState t ⟨some r, some ω, some v⟩).1 = .error .unboundLocal := by
  set m : FswModule := { FswModule.init 0 1 1 0 with startTime := 1, outputStates := true } with hmd
  have hm : Spec.Usable m := ⟨(init_usable 0 one_ne_zero one_ne_zero 0).1, (init_usable 0 one_ne_zero one_ne_zero 0).2,
    (init_usable 0 one_ne_zero one_ne_zero 0).3⟩
  have hr : (![1, 0, 0, 0] : V4) ≠ 0 := fun h => by simpa using congrFun h 0
  have hs : Spec.Sound ⟨some ![1, 0, 0, 0], some 0, some 0⟩ := fun r h => by cases h; exact hr
  refine ⟨m, 0, ![1, 0, 0, 0], 0, 0, hm, hr, ?_⟩
  obtain ⟨h1, h2⟩ := C165_returns_partial m 0 _ hm hs
  rcases h2 with h2 | h2
  · obtain ⟨_, _, -, -, -, h⟩ := h1.1 h2
    have := (h (by rw [hmd]; norm_num)).1
    exact nomatch this
  · exact h2

/-- The hypotheses hold for a new module; after one call with all messages it has sent one command. -/
example : ∃ m : FswModule, Spec.Usable m ∧ 0 ≤ m.fsw.maxTorque ∧
    (m.run [(0, ⟨none, none, none⟩), (1, ⟨some ![1, 0, 0, 0], some 0, some 0⟩)]).2.sent.map (·.1) = [1] := by
  have hm := init_usable 0 one_ne_zero one_ne_zero 0
  have hr : (![1, 0, 0, 0] : V4) ≠ 0 := fun h => by simpa using congrFun h 0
  refine ⟨FswModule.init 0 1 1 0, hm, by norm_num [FswModule.init, Fsw.init], ?_⟩
  obtain ⟨msg, -, -, h, -⟩ := C165_command _ 1 ![1, 0, 0, 0] 0 0 hm hr (by norm_num [FswModule.init])
  simp only [FswModule.run, FswModule.updateState_none _ _ (⟨none, none, none⟩ : FswMsgs) rfl, h]
  simp [FswModule.init]

end Adcs
