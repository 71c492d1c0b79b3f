import Verif.Props.FswModule

set_option autoImplicit false

/-! # C224: what the flight software remembers, and `Reset` -/

namespace Adcs

open Sim
open scoped Matrix

/-- Specification: the messages that a module sends in the calls of a list. -/
noncomputable def Spec.messages (m : FswModule) (l : List (ℕ × FswMsgs)) : List (ℕ × (Fin 36 → ℝ)) :=
  (m.run l).2.sent.drop m.sent.length

/-- Specification: the readings show the satellite in the attitude `T` (a quaternion of any length and either
sign), at rest. -/
def Spec.OnTarget (T : V4) (msgs : FswMsgs) : Prop :=
  msgs.imu = some 0 ∧ ∃ (r : V4) (c : ℝ), msgs.star = some r ∧ ![r 1, r 2, r 3, r 0] = c • T

/-- Specification: what can be called. -/
inductive Spec.ModuleCall
  | reset
  | update (nanos : ℕ) (msgs : FswMsgs)

/-- Specification: the module after calls of `Reset` and `UpdateState`. -/
noncomputable def Spec.after (m : FswModule) : List Spec.ModuleCall → FswModule
  | [] => m
  | .reset :: l => Spec.after m.reset l
  | .update t msgs :: l => Spec.after (m.updateState t msgs).2 l

/-- Specification: the star tracker's readings in the calls are not zero. -/
def Spec.SoundCalls (l : List Spec.ModuleCall) : Prop := ∀ t msgs, .update t msgs ∈ l → Spec.Sound msgs

open Classical in
/-- Specification: the target after calls. It is exchanged once the satellite is there at rest; `Reset` does
not bring it back. -/
noncomputable def Spec.targetAfter (T : V4) : List Spec.ModuleCall → V4
  | [] => T
  | .reset :: l => Spec.targetAfter T l
  | .update _ msgs :: l =>
    Spec.targetAfter (if Spec.OnTarget T msgs then ![0, √2 / 2, 0, -(√2 / 2)] else T) l

/-- The claim: after `Reset` a module sends what a new one sends. -/
def C224_claim : Prop :=
  ∀ (pinv : Matrix (Fin 4) (Fin 3) ℝ) (dt I : ℝ) (K : Matrix (Fin 3) Obs.I6 ℝ), 0 < dt → 0 < I →
    ∀ (calls : List Spec.ModuleCall) (later : List (ℕ × FswMsgs)), Spec.SoundCalls calls →
      (∀ c ∈ later, Spec.Sound c.2) →
      Spec.messages (Spec.after (FswModule.init pinv dt I K) (calls ++ [.reset])) later
        = Spec.messages (FswModule.init pinv dt I K) later

/-! ## Memory -/

/-- A module that differs in what is written only. -/
def FswModule.vary (m : FswModule) (a : Fin 4 → ℝ) (b : ℕ) (c : Fsw.Mode) (e : List V4)
    (s : List (ℕ × (Fin 36 → ℝ))) : FswModule :=
  { m with fsw := { m.fsw with torqueVals := a, signFlipped := b, mode := c }, error := e, sent := s }

theorem vary_command (m : FswModule) (a : Fin 4 → ℝ) (b : ℕ) (c : Fsw.Mode) (e : List V4)
    (s : List (ℕ × (Fin 36 → ℝ))) (t : ℕ) (τ v : Fin 4 → ℝ) : ∃ a' b' c' e' new,
      (m.vary a b c e s).command t τ v = ((m.command t τ v).1, (m.command t τ v).2.vary a' b' c' e' (s ++ new)) ∧
      (m.command t τ v).2.sent = m.sent ++ new := by
  have h : ∀ i, (m.vary a b c e s).fsw.checkTorque (τ i) (v i) = m.fsw.checkTorque (τ i) (v i) := fun i => rfl
  unfold FswModule.command Fsw.checkTorqueVals
  simp only [h]
  cases hf : Str.pyForall fun i => m.fsw.checkTorque (τ i) (v i) with
  | error x => exact ⟨a, b, c, e, [], by simp [FswModule.vary], by simp⟩
  | ok w =>
    exact ⟨w, b, c, e, [(t, Fsw.payload { m.fsw with torqueVals := w })], by
      simp only [FswModule.vary]; rfl, rfl⟩

/-- The part of `UpdateState` that gives the command. -/
noncomputable def FswModule.act (m : FswModule) (t : ℕ) (msgs : FswMsgs) (err : V4) : Py Unit × FswModule :=
  if t * 1e-9 ≥ m.startTime then
    match msgs.imu, msgs.wheels with
    | some omega, some speeds =>
      m.command t (m.fsw.convertTorque (m.fsw.quaternionController err omega)) speeds
    | _, _ => (.error .unboundLocal, m)
  else if m.outputStates then (.error .unboundLocal, m)
  else (.ok (), m)

/-- The part of `UpdateState` after the error is known. -/
noncomputable def FswModule.rest (m : FswModule) (t : ℕ) (msgs : FswMsgs) (qInit err : V4) : Py Unit × FswModule :=
  match Sim.axisAngle ![0, 1, 0] 180 with
  | .error e => (.error e, m)
  | .ok qRot =>
    match Sim.quatMult qRot qInit with
    | .error e => (.error e, m)
    | .ok t2 =>
      match Sim.errorAngle err with
      | .error e => (.error e, m)
      | .ok angle =>
        if angle = 0 ∧ msgs.imu = none then (.error .unboundLocal, m)
        else FswModule.act (if angle = 0 ∧ msgs.imu = some 0 then { m with fsw := { m.fsw with qTarget := t2 } } else m)
          t msgs err

theorem updateState_rest (m : FswModule) (t : ℕ) (msgs : FswMsgs) {r q qi err : V4} (hs : msgs.star = some r)
    (hn : Sim.normalize (toScalarLast r) = .ok q) (hi : axisAngle ![0, 1, 0] 90 = .ok qi)
    (he : quatError m.fsw.qTarget q = .ok err) : m.updateState t msgs =
      FswModule.rest { m with fsw := (m.fsw.checkHemi err).2, error := m.error ++ [(m.fsw.checkHemi err).1] } t msgs qi
        (m.fsw.checkHemi err).1 := by
  unfold FswModule.updateState
  simp only [hs, hn, hi, he]
  rfl

theorem vary_step (m : FswModule) (a : Fin 4 → ℝ) (b : ℕ) (c : Fsw.Mode) (e : List V4)
    (s : List (ℕ × (Fin 36 → ℝ))) (t : ℕ) (msgs : FswMsgs) : ∃ a' b' c' e' new,
      (m.vary a b c e s).updateState t msgs
        = ((m.updateState t msgs).1, (m.updateState t msgs).2.vary a' b' c' e' (s ++ new)) ∧
      (m.updateState t msgs).2.sent = m.sent ++ new := by
  have hT : (m.vary a b c e s).fsw.qTarget = m.fsw.qTarget := rfl
  have same : ∀ (x : Py Unit) (m₁ : FswModule) (a₁ : Fin 4 → ℝ) (b₁ : ℕ) (c₁ : Fsw.Mode) (e₁ : List V4),
      m₁.sent = m.sent → ∃ a' b' c' e' new, ((x, m₁.vary a₁ b₁ c₁ e₁ s) : Py Unit × FswModule)
        = ((x, m₁).1, (x, m₁).2.vary a' b' c' e' (s ++ new)) ∧ (x, m₁).2.sent = m.sent ++ new :=
    fun x m₁ a₁ b₁ c₁ e₁ hs => ⟨a₁, b₁, c₁, e₁, [], by simp, by simp [hs]⟩
  cases hs : msgs.star with
  | none =>
    rw [FswModule.updateState_none _ _ _ hs, FswModule.updateState_none _ _ _ hs]; exact same _ m a b c e rfl
  | some r =>
  cases hn : Sim.normalize (toScalarLast r) with
  | error x => unfold FswModule.updateState; simp only [hs, hn]; exact same _ m a b c e rfl
  | ok q =>
  cases hi : axisAngle ![0, 1, 0] 90 with
  | error x => unfold FswModule.updateState; simp only [hs, hn, hi]; exact same _ m a b c e rfl
  | ok qi =>
  cases he : quatError m.fsw.qTarget q with
  | error x => unfold FswModule.updateState; simp only [hs, hn, hi, hT, he]; exact same _ m a b c e rfl
  | ok err =>
  rw [updateState_rest m t msgs hs hn hi he, updateState_rest (m.vary a b c e s) t msgs hs hn hi (hT ▸ he)]
  have h1 : ((m.vary a b c e s).fsw.checkHemi err).1 = (m.fsw.checkHemi err).1 := by
    unfold Fsw.checkHemi; split <;> rfl
  have h2 : ∃ b', ({ m.vary a b c e s with
        fsw := ((m.vary a b c e s).fsw.checkHemi err).2, error := e ++ [(m.fsw.checkHemi err).1] } : FswModule)
      = ({ m with fsw := (m.fsw.checkHemi err).2, error := m.error ++ [(m.fsw.checkHemi err).1] } : FswModule).vary
          a b' c (e ++ [(m.fsw.checkHemi err).1]) s ∧ b' = (m.fsw.checkHemi err).2.signFlipped := by
    unfold Fsw.checkHemi; split <;> exact ⟨_, rfl, rfl⟩
  obtain ⟨b', h2, hb'⟩ := h2
  have h3 : (m.vary a b c e s).error = e := rfl
  rw [h1, h3, h2]
  obtain ⟨e', he'⟩ : ∃ e', e' = e ++ [(m.fsw.checkHemi err).1] := ⟨_, rfl⟩
  obtain ⟨err', herr'⟩ : ∃ x, x = (m.fsw.checkHemi err).1 := ⟨_, rfl⟩
  obtain ⟨m₁, hm₁⟩ : ∃ m₁ : FswModule, m₁ = { m with
    fsw := (m.fsw.checkHemi err).2, error := m.error ++ [(m.fsw.checkHemi err).1] } := ⟨_, rfl⟩
  have hms : m₁.sent = m.sent := by rw [hm₁]
  have hmb : m₁.fsw.signFlipped = b' := by rw [hm₁, hb']
  rw [← hm₁, ← he', ← herr']
  unfold FswModule.rest
  cases hr : axisAngle ![0, 1, 0] 180 with
  | error x => exact same _ m₁ a b' c e' hms
  | ok qr =>
  dsimp only
  cases ht : quatMult qr qi with
  | error x => exact same _ m₁ a b' c e' hms
  | ok t2 =>
  dsimp only
  cases hang : errorAngle err' with
  | error x => exact same _ m₁ a b' c e' hms
  | ok ang =>
  dsimp only
  by_cases hc : ang = 0 ∧ msgs.imu = none
  · rw [if_pos hc, if_pos hc]; exact same _ m₁ a b' c e' hms
  rw [if_neg hc, if_neg hc]
  obtain ⟨m₂, hm₂⟩ : ∃ m₂ : FswModule, m₂ = if ang = 0 ∧ msgs.imu = some 0 then
    { m₁ with fsw := { m₁.fsw with qTarget := t2 } } else m₁ := ⟨_, rfl⟩
  have h4 : (if ang = 0 ∧ msgs.imu = some 0 then
      ({ m₁.vary a b' c e' s with fsw := { (m₁.vary a b' c e' s).fsw with qTarget := t2 } } : FswModule)
      else m₁.vary a b' c e' s) = m₂.vary a b' c e' s := by
    rw [hm₂]; split <;> rfl
  have hms2 : m₂.sent = m.sent := by rw [hm₂, ← hms]; split <;> rfl
  have hmb2 : m₂.fsw.signFlipped = b' := by rw [hm₂, ← hmb]; split <;> rfl
  rw [h4, ← hm₂]
  unfold FswModule.act
  change ∃ a' b'' c' e'' new, (if (t : ℝ) * 1e-9 ≥ m₂.startTime then _ else _) = _ ∧ _
  by_cases hst : (t : ℝ) * 1e-9 ≥ m₂.startTime
  · rw [if_pos hst, if_pos hst]
    cases hi : msgs.imu with
    | none => exact same _ m₂ a b' c e' hms2
    | some ω =>
      cases hw : msgs.wheels with
      | none => exact same _ m₂ a b' c e' hms2
      | some v =>
        dsimp only
        have hq : (m₂.vary a b' c e' s).fsw.convertTorque ((m₂.vary a b' c e' s).fsw.quaternionController err' ω)
            = m₂.fsw.convertTorque (m₂.fsw.quaternionController err' ω) := by
          unfold Fsw.convertTorque Fsw.quaternionController
          rw [hmb2]; rfl
        rw [hq, ← hms2]
        exact vary_command m₂ a b' c e' s t _ v
  · rw [if_neg hst, if_neg hst]
    change ∃ a' b'' c' e'' new, (if m₂.outputStates = true then _ else _) = _ ∧ _
    cases ho : m₂.outputStates
    · exact same _ m₂ a b' c e' hms2
    · exact same _ m₂ a b' c e' hms2

theorem vary_run (l : List (ℕ × FswMsgs)) : ∀ (m : FswModule) (a : Fin 4 → ℝ) (b : ℕ) (c : Fsw.Mode) (e : List V4)
    (s : List (ℕ × (Fin 36 → ℝ))), ((m.vary a b c e s).run l).1 = (m.run l).1 ∧
      ∃ new, (m.run l).2.sent = m.sent ++ new ∧ ((m.vary a b c e s).run l).2.sent = s ++ new := by
  induction l with
  | nil => intro m a b c e s; exact ⟨rfl, [], by simp [FswModule.run], by simp [FswModule.run, FswModule.vary]⟩
  | cons x l ih =>
    intro m a b c e s
    obtain ⟨t, msgs⟩ := x
    obtain ⟨a', b', c', e', new, h1, h2⟩ := vary_step m a b c e s t msgs
    obtain ⟨h3, new', h4, h5⟩ := ih (m.updateState t msgs).2 a' b' c' e' (s ++ new)
    refine ⟨?_, new ++ new', ?_, ?_⟩
    · simp only [FswModule.run, h1, h3]
    · simp only [FswModule.run, h4, h2, List.append_assoc]
    · simp only [FswModule.run, h1, h5, List.append_assoc]

theorem vary_messages (l : List (ℕ × FswMsgs)) (m : FswModule) (a : Fin 4 → ℝ) (b : ℕ) (c : Fsw.Mode) (e : List V4)
    (s : List (ℕ × (Fin 36 → ℝ))) : Spec.messages (m.vary a b c e s) l = Spec.messages m l := by
  obtain ⟨-, new, h1, h2⟩ := vary_run l m a b c e s
  have h3 : (m.vary a b c e s).sent = s := rfl
  rw [Spec.messages, Spec.messages, h1, h2, h3, List.drop_left, List.drop_left]

/-- C224: all that a module remembers is its target. Two modules with the same settings and the same target answer every
sequence of calls alike, return for return and message for message, whatever they did before: the torques, the sign, the
mode, the errors and the messages of earlier calls make no difference. -/
theorem C224_memory_partial (m m' : FswModule) (h1 : m'.fsw.Gpinv = m.fsw.Gpinv) (h2 : m'.fsw.rwInertia = m.fsw.rwInertia)
    (h3 : m'.fsw.updateTime = m.fsw.updateTime) (h4 : m'.fsw.qTarget = m.fsw.qTarget)
    (h5 : m'.fsw.omegaTarget = m.fsw.omegaTarget) (h6 : m'.fsw.maxTorque = m.fsw.maxTorque)
    (h7 : m'.fsw.maxSpeed = m.fsw.maxSpeed) (h8 : m'.fsw.K = m.fsw.K) (h9 : m'.startTime = m.startTime)
    (h10 : m'.outputStates = m.outputStates) (l : List (ℕ × FswMsgs)) :
    (m'.run l).1 = (m.run l).1 ∧ Spec.messages m' l = Spec.messages m l := by
  have e : m' = m.vary m'.fsw.torqueVals m'.fsw.signFlipped m'.fsw.mode m'.error m'.sent := by
    obtain ⟨⟨_, _, _, _, _, _, _, _, _, _, _⟩, _, _, _, _⟩ := m
    obtain ⟨⟨_, _, _, _, _, _, _, _, _, _, _⟩, _, _, _, _⟩ := m'
    simp only at h1 h2 h3 h4 h5 h6 h7 h8 h9 h10
    subst h1 h2 h3 h4 h5 h6 h7 h8 h9 h10
    rfl
  rw [e]
  exact ⟨(vary_run l m _ _ _ _ _).1, vary_messages l m _ _ _ _ _⟩

/-! ## The target -/

theorem secondTarget_eq : secondTarget = ![0, √2 / 2, 0, -(√2 / 2)] := by
  have h1 : npRadians 180 / 2 = Real.pi / 2 := by rw [npRadians]; ring
  have h2 : npRadians 90 / 2 = Real.pi / 4 := by rw [npRadians]; ring
  apply vec4_ext <;> simp [secondTarget, rawMult, aaq, h1, h2]

theorem six_squares {a b c d e f : ℝ} (h : a ^ 2 + b ^ 2 + c ^ 2 + d ^ 2 + e ^ 2 + f ^ 2 = 0) :
    a = 0 ∧ b = 0 ∧ c = 0 ∧ d = 0 ∧ e = 0 ∧ f = 0 := by
  have := sq_nonneg a; have := sq_nonneg b; have := sq_nonneg c
  have := sq_nonneg d; have := sq_nonneg e; have := sq_nonneg f
  refine ⟨?_, ?_, ?_, ?_, ?_, ?_⟩ <;> apply (pow_eq_zero_iff two_ne_zero).1 <;> linarith

theorem six_nonneg (a b c d e f : ℝ) : 0 ≤ a ^ 2 + b ^ 2 + c ^ 2 + d ^ 2 + e ^ 2 + f ^ 2 := by positivity

theorem errorAngle_zero {T r err : V4} (hT : T ≠ 0) (hr : r ≠ 0) (he : quatError T (toScalarLast r) = .ok err) :
    errorAngle err = .ok 0 ↔ ∃ c : ℝ, ![r 1, r 2, r 3, r 0] = c • T := by
  have hl : toScalarLast r ≠ 0 := by
    intro h; apply hr
    exact vec4_ext (by simpa [toScalarLast] using congrFun h 3) (by simpa [toScalarLast] using congrFun h 0)
      (by simpa [toScalarLast] using congrFun h 1) (by simpa [toScalarLast] using congrFun h 2)
  change _ ↔ ∃ c : ℝ, toScalarLast r = c • T
  obtain ⟨q, hq⟩ : ∃ q, q = toScalarLast r := ⟨_, rfl⟩
  rw [← hq] at he hl ⊢
  rw [quatError, quatMult_eq hT (conj_ne_zero hl), npNorm_conj] at he
  have he := (Except.ok.inj he).symm
  have p1 := npNorm_pos hT
  have p2 := npNorm_pos hl
  have n1 := npNorm_sq T
  have n2 := npNorm_sq q
  rw [Fin.sum_univ_four] at n1 n2
  obtain ⟨D, hD⟩ : ∃ D, D = T 0 * q 0 + T 1 * q 1 + T 2 * q 2 + T 3 * q 3 := ⟨_, rfl⟩
  have e3 : err 3 = D / (npNorm T * npNorm q) := by
    rw [he, hD, div_eq_inv_mul]
    simp only [Pi.smul_apply, smul_eq_mul, rawMult, quatConjugate]
    simp only [Matrix.cons_val_zero, Matrix.cons_val_one, Matrix.cons_val]
    ring
  obtain ⟨x, hx⟩ : ∃ x, x = npNorm T := ⟨_, rfl⟩
  obtain ⟨y, hy⟩ : ∃ y, y = npNorm q := ⟨_, rfl⟩
  rw [← hx] at n1 p1 e3
  rw [← hy] at n2 p2 e3
  have lag : x ^ 2 * y ^ 2 - D ^ 2 = (T 0 * q 1 - T 1 * q 0) ^ 2 + (T 0 * q 2 - T 2 * q 0) ^ 2
      + (T 0 * q 3 - T 3 * q 0) ^ 2 + (T 1 * q 2 - T 2 * q 1) ^ 2 + (T 1 * q 3 - T 3 * q 1) ^ 2
      + (T 2 * q 3 - T 3 * q 2) ^ 2 := by
    rw [n1, n2, hD]; ring
  have habs : |err 3| = |D| / (x * y) := by rw [e3, abs_div, abs_of_pos (mul_pos p1 p2)]
  have hle : |err 3| ≤ 1 := by
    rw [habs, div_le_one (mul_pos p1 p2)]
    apply abs_le_of_sq_le_sq _ (mul_pos p1 p2).le
    have h6 : 0 ≤ x ^ 2 * y ^ 2 - D ^ 2 := by rw [lag]; exact six_nonneg _ _ _ _ _ _
    rw [mul_pow]; exact sub_nonneg.1 h6
  have hz : errorAngle err = .ok 0 ↔ D ^ 2 = x ^ 2 * y ^ 2 := by
    rw [errorAngle, if_pos hle, Except.ok.injEq, div_eq_zero_iff, or_iff_left Real.pi_ne_zero, mul_eq_zero,
      or_iff_left (by norm_num), mul_eq_zero, or_iff_right two_ne_zero, Real.arccos_eq_zero]
    have : (1 ≤ |err 3|) ↔ |err 3| = 1 := ⟨fun h => le_antisymm hle h, fun h => h.ge⟩
    rw [this, habs, div_eq_one_iff_eq (mul_pos p1 p2).ne']
    constructor
    · intro h; rw [← sq_abs, h]; ring
    · intro h
      rw [← mul_pow] at h
      have := (sq_eq_sq_iff_abs_eq_abs _ _).1 h
      rwa [abs_of_pos (mul_pos p1 p2)] at this
  rw [hz]
  constructor
  · intro h
    rw [h, sub_self] at lag
    have z : T 0 * q 1 - T 1 * q 0 = 0 ∧ T 0 * q 2 - T 2 * q 0 = 0 ∧ T 0 * q 3 - T 3 * q 0 = 0 ∧
        T 1 * q 2 - T 2 * q 1 = 0 ∧ T 1 * q 3 - T 3 * q 1 = 0 ∧ T 2 * q 3 - T 3 * q 2 = 0 := by
      exact six_squares lag.symm
    obtain ⟨z1, z2, z3, z4, z5, z6⟩ := z
    have hx2 : x ^ 2 ≠ 0 := (pow_pos p1 2).ne'
    refine ⟨D / x ^ 2, vec4_ext ?_ ?_ ?_ ?_⟩ <;>
    rw [Pi.smul_apply, smul_eq_mul, div_mul_eq_mul_div, eq_div_iff hx2, n1, hD]
    · linear_combination (-T 1) * z1 + (-T 2) * z2 + (-T 3) * z3
    · linear_combination (T 0) * z1 + (-T 2) * z4 + (-T 3) * z5
    · linear_combination (T 0) * z2 + (T 1) * z4 + (-T 3) * z6
    · linear_combination (T 0) * z3 + (T 1) * z5 + (T 2) * z6
  · rintro ⟨c, hc⟩
    have c0 : q 0 = c * T 0 := congrFun hc 0
    have c1 : q 1 = c * T 1 := congrFun hc 1
    have c2 : q 2 = c * T 2 := congrFun hc 2
    have c3 : q 3 = c * T 3 := congrFun hc 3
    rw [hD, n1, n2, c0, c1, c2, c3]; ring

/-- The module with another target. -/
def FswModule.aim (m : FswModule) (T : V4) : FswModule := { m with fsw := { m.fsw with qTarget := T } }

theorem command_vary (m : FswModule) (t : ℕ) (τ v : Fin 4 → ℝ) :
    ∃ a b c e s, (m.command t τ v).2 = m.vary a b c e s := by
  unfold FswModule.command Fsw.checkTorqueVals
  cases Str.pyForall fun i => m.fsw.checkTorque (τ i) (v i) with
  | error x => exact ⟨m.fsw.torqueVals, m.fsw.signFlipped, m.fsw.mode, m.error, m.sent, rfl⟩
  | ok w => exact ⟨w, m.fsw.signFlipped, m.fsw.mode, m.error, _, rfl⟩

open Classical in
theorem target_step {m : FswModule} (hm : Spec.Usable m) (t : ℕ) {msgs : FswMsgs} (hs : Spec.Sound msgs) :
    ∃ a b c e s, (m.updateState t msgs).2 = (m.aim (if Spec.OnTarget m.fsw.qTarget msgs
      then ![0, √2 / 2, 0, -(√2 / 2)] else m.fsw.qTarget)).vary a b c e s := by
  obtain ⟨star, imu, wheels⟩ := msgs
  cases star with
  | none =>
    rw [FswModule.updateState_none _ _ _ rfl, if_neg (fun h => by obtain ⟨-, _, _, h, -⟩ := h; cases h)]
    exact ⟨m.fsw.torqueVals, m.fsw.signFlipped, m.fsw.mode, m.error, m.sent, rfl⟩
  | some r =>
    obtain ⟨err, he, hen, f1, m1, hf1, hm1, h1, h2⟩ := updateState_module hm (hs r rfl) t imu wheels
    have hz := errorAngle_zero hm.target (hs r rfl) he
    have hon : Spec.OnTarget m.fsw.qTarget ⟨some r, imu, wheels⟩ ↔ errorAngle err = .ok 0 ∧ imu = some 0 := by
      rw [hz]
      constructor
      · rintro ⟨hi, r', c, hr', hc⟩
        cases hr'
        exact ⟨⟨c, hc⟩, hi⟩
      · rintro ⟨⟨c, hc⟩, hi⟩
        exact ⟨hi, r, c, rfl, hc⟩
    have hv1 : ∃ a b c e s, f1 = m.vary a b c e s := by
      rw [hf1]; unfold Fsw.checkHemi
      split
      · exact ⟨m.fsw.torqueVals, 0, m.fsw.mode, _, m.sent, rfl⟩
      · exact ⟨m.fsw.torqueVals, 1, m.fsw.mode, _, m.sent, rfl⟩
    obtain ⟨a, b, c, e, s, hv1⟩ := hv1
    have hv2 : m1 = (m.aim (if Spec.OnTarget m.fsw.qTarget ⟨some r, imu, wheels⟩
        then ![0, √2 / 2, 0, -(√2 / 2)] else m.fsw.qTarget)).vary a b c e s := by
      rcases hm1 with ⟨h, hn⟩ | ⟨ha, hi, h⟩
      · rw [if_neg (fun h' => hn (hon.1 h')), h, hv1]; rfl
      · rw [if_pos (hon.2 ⟨ha, hi⟩), h, hv1, secondTarget_eq]; rfl
    by_cases hc : errorAngle err = .ok 0 ∧ imu = none
    · rw [h1 hc, if_neg (fun h => by rw [(hon.1 h).2] at hc; exact nomatch hc.2)]
      exact ⟨a, b, c, e, s, hv1⟩
    obtain ⟨h3, h4⟩ := h2 hc
    rcases le_or_gt m.startTime (t * 1e-9) with ht | ht
    · obtain ⟨h5, h6⟩ := h4 ht
      by_cases hw : imu = none ∨ wheels = none
      · rw [h5 hw]; exact ⟨a, b, c, e, s, hv2⟩
      · push Not at hw
        obtain ⟨ω, hω⟩ := Option.ne_none_iff_exists'.1 hw.1
        obtain ⟨v, hv⟩ := Option.ne_none_iff_exists'.1 hw.2
        rw [h6 ω v hω hv]
        obtain ⟨a', b', c', e', s', h7⟩ := command_vary m1 t (m.fsw.convertTorque (errorTorque m.fsw err ω)) v
        rw [h7, hv2]
        exact ⟨a', b', c', e', s', rfl⟩
    · rw [h3 ht]; exact ⟨a, b, c, e, s, hv2⟩

theorem aim_usable {m : FswModule} (hm : Spec.Usable m) {T : V4} (hT : T ≠ 0) (a : Fin 4 → ℝ) (b : ℕ) (c : Fsw.Mode)
    (e : List V4) (s : List (ℕ × (Fin 36 → ℝ))) : Spec.Usable ((m.aim T).vary a b c e s) :=
  ⟨hm.inertia, hm.time, hT⟩

open Classical in
theorem target_after (l : List Spec.ModuleCall) (hl : Spec.SoundCalls l) : ∀ (m : FswModule), Spec.Usable m →
    ∃ a b c e s, Spec.after m l = (m.aim (Spec.targetAfter m.fsw.qTarget l)).vary a b c e s := by
  induction l with
  | nil =>
    intro m _
    exact ⟨m.fsw.torqueVals, m.fsw.signFlipped, m.fsw.mode, m.error, m.sent, rfl⟩
  | cons x l ih =>
    have ih := ih fun t msgs h => hl t msgs (List.mem_cons_of_mem _ h)
    intro m hm
    cases x with
    | reset => exact ih m hm
    | update t msgs =>
      obtain ⟨a, b, c, e, s, h1⟩ := target_step hm t (hl t msgs (by simp))
      have hne : (if Spec.OnTarget m.fsw.qTarget msgs then ![0, √2 / 2, 0, -(√2 / 2)] else m.fsw.qTarget) ≠ 0 := by
        split
        · rw [← secondTarget_eq]; exact ne_zero_of_norm secondTarget_norm
        · exact hm.target
      obtain ⟨a', b', c', e', s', h2⟩ := ih _ (aim_usable hm hne a b c e s)
      rw [Spec.after, h1, h2]
      exact ⟨a', b', c', e', s', rfl⟩

/-- C224, what holds: after any calls, with `Reset` among them or not, the module sends what a new one sends that is given
the target of that moment. Missing: `Reset` does not bring the target back (`C224_reset_fails`). -/
theorem C224_reset_partial (pinv : Matrix (Fin 4) (Fin 3) ℝ) {dt I : ℝ} (hdt : 0 < dt) (hI : 0 < I)
    (K : Matrix (Fin 3) Obs.I6 ℝ) (calls : List Spec.ModuleCall) (hc : Spec.SoundCalls calls)
    (later : List (ℕ × FswMsgs)) :
    Spec.messages (Spec.after (FswModule.init pinv dt I K) calls) later
      = Spec.messages { FswModule.init pinv dt I K with
          fsw := { Fsw.init pinv dt I K with qTarget := Spec.targetAfter ![0, 0, 0, 1] calls } } later := by
  obtain ⟨a, b, c, e, s, h⟩ := target_after calls hc _ (init_usable pinv hdt.ne' hI.ne' K)
  rw [h, vary_messages]
  rfl

/-- C224, what holds: as long as the satellite has not been at rest in the first target attitude, the claim is true:
after `Reset`, and without it, the module sends what a new one sends. -/
theorem C224_fresh_partial (pinv : Matrix (Fin 4) (Fin 3) ℝ) {dt I : ℝ} (hdt : 0 < dt) (hI : 0 < I)
    (K : Matrix (Fin 3) Obs.I6 ℝ) (calls : List Spec.ModuleCall) (hc : Spec.SoundCalls calls)
    (hn : ∀ t msgs, .update t msgs ∈ calls → ¬ Spec.OnTarget ![0, 0, 0, 1] msgs) (later : List (ℕ × FswMsgs)) :
    Spec.messages (Spec.after (FswModule.init pinv dt I K) calls) later
      = Spec.messages (FswModule.init pinv dt I K) later := by
  have h : ∀ l : List Spec.ModuleCall, (∀ t msgs, .update t msgs ∈ l → ¬ Spec.OnTarget ![0, 0, 0, 1] msgs) →
      Spec.targetAfter ![0, 0, 0, 1] l = ![0, 0, 0, 1] := by
    intro l
    induction l with
    | nil => intro _; rfl
    | cons x l ih =>
      intro hl
      have ih := ih fun t msgs h => hl t msgs (List.mem_cons_of_mem _ h)
      cases x with
      | reset => exact ih
      | update t msgs => rw [Spec.targetAfter, if_neg (hl t msgs (by simp))]; exact ih
  rw [C224_reset_partial pinv hdt hI K calls hc, h calls hn]
  rfl

/-! ## The counterexample -/

theorem message_one {m : FswModule} (hm : Spec.Usable m) (t : ℕ) {r : V4} (hr : r ≠ 0) (ω : V3) (v : Fin 4 → ℝ)
    (ht : m.startTime ≤ t * 1e-9) {err : V4} (he : quatError m.fsw.qTarget (toScalarLast r) = .ok err) :
    ∃ msg, Spec.messages m [(t, ⟨some r, some ω, some v⟩)] = [(t, msg)] ∧
      m.fsw.checkTorque (m.fsw.convertTorque (errorTorque m.fsw err ω) 0) (v 0) = .ok (msg 0) := by
  obtain ⟨err', he', hen, f1, m1, hf1, hm1, h1, h2⟩ := updateState_module hm hr t (some ω) (some v)
  obtain rfl : err' = err := Except.ok.inj (he'.symm.trans he)
  have hset : ∃ T a b c e, m1 = (m.aim T).vary a b c e m.sent := by
    have : ∃ a b c e, f1 = m.vary a b c e m.sent := by
      rw [hf1]; unfold Fsw.checkHemi
      split
      · exact ⟨m.fsw.torqueVals, 0, m.fsw.mode, _, rfl⟩
      · exact ⟨m.fsw.torqueVals, 1, m.fsw.mode, _, rfl⟩
    obtain ⟨a, b, c, e, h⟩ := this
    rcases hm1 with ⟨h', -⟩ | ⟨-, -, h'⟩
    · exact ⟨m.fsw.qTarget, a, b, c, e, by rw [h', h]; rfl⟩
    · exact ⟨secondTarget, a, b, c, e, by rw [h', h]; rfl⟩
  obtain ⟨T, a, b, c, e, hset⟩ := hset
  have h3 := ((h2 (fun h => nomatch h.2)).2 ht).2 ω v rfl rfl
  have hI : m1.fsw.rwInertia ≠ 0 := by rw [hset]; exact hm.inertia
  have hdt : m1.fsw.updateTime ≠ 0 := by rw [hset]; exact hm.time
  obtain ⟨g, hg, hcmd⟩ := command_ok hI hdt t (m.fsw.convertTorque (errorTorque m.fsw err' ω)) v
  have hs : m1.sent = m.sent := by rw [hset]; rfl
  refine ⟨g.payload, ?_, ?_⟩
  · simp only [Spec.messages, FswModule.run, h3, hcmd, hs, List.drop_left]
  · rw [Fsw.checkTorqueVals] at hg
    split at hg
    · cases hg
    · rename_i w hw
      cases hg
      have h4 := fswForall_ok hw 0
      have h5 : m1.fsw.checkTorque (m.fsw.convertTorque (errorTorque m.fsw err' ω) 0) (v 0)
          = m.fsw.checkTorque (m.fsw.convertTorque (errorTorque m.fsw err' ω) 0) (v 0) := by rw [hset]; rfl
      rw [← h5, h4]
      rfl

/-- C224 fails: a satellite that has been at rest in the first target attitude; after `Reset` it is sent on to the
second target, while a new module lets it rest. -/
theorem C224_reset_fails : ¬ C224_claim := by
  intro h
  have hr : (![1, 0, 0, 0] : V4) ≠ 0 := fun h => by simpa using congrFun h 0
  obtain ⟨msgs, hmsgs⟩ : ∃ x : FswMsgs, x = ⟨some ![1, 0, 0, 0], some 0, some 0⟩ := ⟨_, rfl⟩
  have hs : Spec.Sound msgs := by intro r h; rw [hmsgs] at h; cases h; exact hr
  obtain ⟨pinv, hp⟩ : ∃ P : Matrix (Fin 4) (Fin 3) ℝ, P = Matrix.of fun i j => if i = 0 ∧ j = 1 then 1 else 0 := ⟨_, rfl⟩
  obtain ⟨K, hK⟩ : ∃ K : Matrix (Fin 3) Obs.I6 ℝ, K = Matrix.of fun i j => if i = 1 ∧ j = .inl 1 then 1 else 0 := ⟨_, rfl⟩
  have hc : Spec.SoundCalls [.update 0 msgs, .reset] := by
    intro t msgs' hm
    simp only [List.mem_cons, Spec.ModuleCall.update.injEq, reduceCtorEq, List.not_mem_nil, or_false] at hm
    rw [hm.2]; exact hs
  have h1 := h pinv 1 1 K one_pos one_pos [.update 0 msgs] [(1, msgs)]
    (fun t m hm => hc t m (by simp only [List.mem_cons, List.not_mem_nil, or_false] at hm; rw [hm]; simp))
    (by intro c hc; simp only [List.mem_cons, List.not_mem_nil, or_false] at hc; rw [hc]; exact hs)
  rw [List.singleton_append, C224_reset_partial pinv one_pos one_pos K _ hc] at h1
  have hT : Spec.targetAfter ![0, 0, 0, 1] [.update 0 msgs, .reset] = secondTarget := by
    rw [secondTarget_eq, Spec.targetAfter, if_pos, Spec.targetAfter, Spec.targetAfter]
    rw [hmsgs]
    exact ⟨rfl, ![1, 0, 0, 0], 1, rfl, by apply vec4_ext <;> simp⟩
  rw [hT] at h1
  have torque : ∀ T : V4, npNorm T = 1 → ∃ msg,
      Spec.messages { FswModule.init pinv 1 1 K with fsw := { Fsw.init pinv 1 1 K with qTarget := T } } [(1, msgs)]
        = [(1, msg)] ∧ msg 0 = max (-0.01) (min (T 1) 0.01) := by
    intro T hT
    have hT0 := ne_zero_of_norm hT
    have hT1 : |T 1| ≤ 1 := by
      have := (isUnit4_iff T).2 hT
      unfold IsUnit4 at this
      apply abs_le_of_sq_le_sq _ one_pos.le
      nlinarith [sq_nonneg (T 0), sq_nonneg (T 2), sq_nonneg (T 3)]
    have he : quatError T (toScalarLast ![1, 0, 0, 0]) = .ok T := by
      have hq : toScalarLast ![1, 0, 0, 0] = ![0, 0, 0, 1] := by apply vec4_ext <;> simp [toScalarLast]
      have hq' : quatConjugate ![0, 0, 0, 1] = ![0, 0, 0, 1] := by apply vec4_ext <;> simp [quatConjugate]
      have hn : npNorm (![0, 0, 0, 1] : V4) = 1 := npNorm_vec4 (by norm_num)
      rw [hq, quatError, hq', quatMult_eq hT0 (ne_zero_of_norm hn), hT, hn]
      congr 1
      apply vec4_ext <;> simp [rawMult]
    obtain ⟨m, hm⟩ : ∃ m : FswModule, m = { FswModule.init pinv 1 1 K with
      fsw := { Fsw.init pinv 1 1 K with qTarget := T } } := ⟨_, rfl⟩
    have hu : Spec.Usable m := by rw [hm]; exact ⟨one_ne_zero, one_ne_zero, hT0⟩
    have hst : m.startTime ≤ (1 : ℕ) * 1e-9 := by rw [hm]; norm_num [FswModule.init]
    have hq : m.fsw.qTarget = T := by rw [hm]
    obtain ⟨msg, h2, h3⟩ := message_one hu 1 hr 0 0 hst (by rw [hq]; exact he)
    rw [hmsgs, ← hm]
    refine ⟨msg, h2, ?_⟩
    have hτ : m.fsw.convertTorque (errorTorque m.fsw T 0) 0 = T 1 := by
      rw [errorTorque_eq, Fsw.convertTorque, hm]
      simp [Fsw.init, hp, hK, Matrix.mulVec, dotProduct, Fin.sum_univ_three]
    have hmx : m.fsw.maxSpeed = 10000 * (2 * Real.pi / 60) := by rw [hm]; rfl
    have hlim : m.fsw.maxTorque = 0.01 := by rw [hm]; rfl
    have hI : m.fsw.rwInertia = 1 := by rw [hm]; rfl
    have hdt : m.fsw.updateTime = 1 := by rw [hm]; rfl
    rw [hτ, Fsw.checkTorque, hI, hdt, npDiv, if_neg one_ne_zero] at h3
    simp only [Pi.zero_apply, zero_add, div_one, mul_one] at h3
    rw [if_neg (by rw [hmx]; have := Real.pi_gt_three; linarith), Fsw.clamp, hlim] at h3
    exact (Except.ok.inj h3).symm
  obtain ⟨a, ha, ha0⟩ := torque secondTarget secondTarget_norm
  obtain ⟨b, hb, hb0⟩ := torque ![0, 0, 0, 1] (npNorm_vec4 (by norm_num))
  have h2 : Spec.messages (FswModule.init pinv 1 1 K) [(1, msgs)] = [(1, b)] := hb
  rw [ha, h2] at h1
  have hab : a = b := by simpa using h1
  rw [hab, hb0, secondTarget_eq] at ha0
  have h2 : (1 : ℝ) ≤ √2 := Real.one_le_sqrt.2 (by norm_num)
  have e : min ((![0, √2 / 2, 0, -(√2 / 2)] : V4) 1) 0.01 = 0.01 := by
    apply min_eq_right; simp; linarith
  rw [e] at ha0
  norm_num at ha0

/-- The hypotheses of `C224_fresh_partial` hold for a satellite that was seen turning, with `Reset` in between; those of
`C224_memory_partial` for a module before and after a call that it could not answer. -/
example : ∃ calls : List Spec.ModuleCall, Spec.SoundCalls calls ∧ 3 ≤ calls.length ∧
    ∀ t msgs, .update t msgs ∈ calls → ¬ Spec.OnTarget ![0, 0, 0, 1] msgs := by
  refine ⟨[.update 0 ⟨some ![1, 0, 0, 0], some ![0.1, 0, 0], some 0⟩, .reset, .update 5 ⟨none, some 0, none⟩], ?_, by simp, ?_⟩
  · intro t msgs h
    simp only [List.mem_cons, Spec.ModuleCall.update.injEq, reduceCtorEq, List.not_mem_nil, or_false, false_or] at h
    rcases h with ⟨-, rfl⟩ | ⟨-, rfl⟩
    · intro r hr; cases hr; exact fun h => by simpa using congrFun h 0
    · intro r hr; cases hr
  · intro t msgs h
    simp only [List.mem_cons, Spec.ModuleCall.update.injEq, reduceCtorEq, List.not_mem_nil, or_false, false_or] at h
    rcases h with ⟨-, rfl⟩ | ⟨-, rfl⟩
    · rintro ⟨h, -⟩
      have := congrFun (Option.some.inj h) 0
      norm_num at this
    · rintro ⟨-, _, _, h, -⟩; cases h

end Adcs
