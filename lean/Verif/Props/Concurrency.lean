import Verif.Proofs.Concurrency
import Verif.Props.StateMachine

set_option autoImplicit false

/-! # C57-C59: the state machine called from several threads -/

namespace Adcs

open SM

/-- `C57`: in every interleaving of every number of threads, the outcomes of the calls that ended are
those of running the calls one at a time in the order in which they took the lock (each for the thread
that made it, at most one call being still in progress), and whenever the lock is free the object is
the one left by that sequential run. -/
theorem C57_linearizable {C : Config} {tr : List Event} (h : Exec C tr) :
    (∃ k, dones tr = (seqRun Machine.init (acqs tr)).1.take k) ∧
    (acqs tr).length ≤ (dones tr).length + 1 ∧
    (C.m.locked = false → (dones tr, C.m) = seqRun Machine.init (acqs tr)) := by
  rcases exec_inv h with ⟨h1, h2⟩ | ⟨t0, c0, pre, m0, h1, h2, h3, h4, h5⟩
  · refine ⟨⟨(dones tr).length, by rw [h2]; simp⟩, ?_, fun _ => h2.symm⟩
    rw [← seqRun_length Machine.init (acqs tr), h2]; simp
  · have hlen : (dones tr).length = pre.length := by
      rw [← seqRun_length Machine.init pre, h3]
    refine ⟨⟨pre.length, ?_⟩, ?_, ?_⟩
    · rw [h2, seqRun_append, h3]
      simp [← hlen]
    · rw [h2, hlen]; simp
    · intro hl; rw [phase_locked h5] at hl; cases hl

/-- `C57`, readers: a value read from `get_current_state` is the current state after the calls that had
ended before the read, possibly followed by the one that was in progress. -/
theorem C57_reads {C : Config} {tr1 tr2 : List Event} {t : ℕ} {v : PyVal}
    (h : Exec C (tr1 ++ .read t v :: tr2)) :
    ∃ k, (dones tr1).length ≤ k ∧ k ≤ (acqs tr1).length ∧
      v = (seqRun Machine.init ((acqs tr1).take k)).2.current := by
  obtain ⟨C1, C2, h1, s⟩ := exec_prefix h rfl
  cases s with
  | read _ => exact current_of_inv (exec_inv h1)

/-- `C57`: at most one thread is between taking and releasing the lock. -/
theorem C57_mutex {C : Config} {tr : List Event} (h : Exec C tr) {t t' : ℕ} (h1 : Crit (C.loc t))
    (h2 : Crit (C.loc t')) : t = t' := by
  rcases exec_inv h with ⟨h3, -⟩ | ⟨t0, c0, pre, m0, h3, -⟩
  · exact absurd h1 (h3 t)
  · have e1 : t = t0 := by by_contra hne; exact h3 t hne h1
    have e2 : t' = t0 := by by_contra hne; exact h3 t' hne h2
    rw [e1, e2]

/-- Every call passes members of the enumeration. -/
def ProperCall : Call → Prop
  | .change v => ∃ s, v = .st s
  | .setMission _ => True

theorem seqRun_proper {l : List (ℕ × Call)} (h : ∀ p ∈ l, ProperCall p.2) {m : Machine}
    (hm : Sound m) : Sound (seqRun m l).2 := by
  induction l generalizing m with
  | nil => exact hm
  | cons p l ih =>
    obtain ⟨t, c⟩ := p
    apply ih (fun p hp => h p (List.mem_cons_of_mem _ hp))
    have hc := h (t, c) List.mem_cons_self
    obtain ⟨⟨s, hs⟩, hl⟩ := hm
    cases c with
    | change v =>
      obtain ⟨v, rfl⟩ := hc
      simp only [seqCall, changeState, hl, hs, Bool.false_eq_true, if_false]
      rcases hd : decideChange (.st s) (.st v) with e | b
      · rw [decideChange_st] at hd; cases hd
      · cases b <;> simp [Sound, storeChange, hl]
    | setMission mis =>
      simp [seqCall, setNextMission, hl, Sound, hs]

/-- `C58` for threads: when every call passes a member of `State`, the lock is never held by nobody:
in every reachable configuration either the lock is free, or the thread that holds it can take its next
step. -/
theorem C58_threads_partial {C : Config} {tr : List Event} (h : Exec C tr)
    (hp : ∀ p ∈ acqs tr, ProperCall p.2) :
    C.m.locked = false ∨ ∃ t e C', Crit (C.loc t) ∧ Step C e C' ∧ C'.loc t ≠ C.loc t := by
  rcases exec_inv h with ⟨h1, h2⟩ | ⟨t, c, pre, m0, h1, h2, h3, h4, h5⟩
  · left
    have := seqRun_proper hp init_sound
    rw [h2] at this; exact this.2
  · right
    have hpre : ∀ p ∈ pre, ProperCall p.2 := fun p hp' => hp p (by rw [h2]; simp [hp'])
    have hs := seqRun_proper hpre init_sound
    rw [h3] at hs
    obtain ⟨⟨s, hs⟩, -⟩ := hs
    have hcr := phase_not h5
    rcases h5 with ⟨e1, e2⟩ | ⟨v', b', e0, e1, e3, e2⟩ | ⟨r, e1, e2, e3⟩
    · cases c with
      | change v =>
        have hc := hp (t, .change v) (by rw [h2]; simp)
        obtain ⟨v, rfl⟩ := hc
        have hd : ∃ b, decideChange C.m.current (.st v) = .ok b := by
          rw [e2]
          simp only at hs ⊢
          rw [hs, decideChange_st]; exact ⟨_, rfl⟩
        obtain ⟨b, hd⟩ := hd
        refine ⟨t, _, _, hcr, .test e1 hd, ?_⟩
        simp [e1]
      | setMission mis => exact ⟨t, _, _, hcr, .writeMission e1, by simp [e1]⟩
    · exact ⟨t, _, _, hcr, .writeState e1, by simp [e1]⟩
    · exact ⟨t, _, _, hcr, .release e1, by simp [e1]⟩

/-- One whole call of an idle thread, without interruption, is an execution. -/
theorem exec_change {C : Config} {tr : List Event} (h : Exec C tr) (t : ℕ) (v : PyVal) {b : Bool}
    (hi : C.loc t = .idle) (hl : C.m.locked = false) (hd : decideChange C.m.current v = .ok b) :
    Exec { m := { C.m with current := storeChange v b }, loc := C.loc }
      (tr ++ [.tau, .acq t (.change v), .tau, .tau, .done t (.ret b)]) := by
  obtain ⟨⟨cur, ms, lk⟩, loc⟩ := C
  simp only at hi hl
  subst hl
  have h1 := h.step (.start (c := .change v) hi)
  have h2 := h1.step (.acquire (t := t) (c := .change v) (by simp) rfl)
  have h3 := h2.step (.test (t := t) (v := v) (b := b) (by simp) hd)
  have h4 := h3.step (.writeState (t := t) (v := v) (b := b) (by simp))
  have h5 := h4.step (.release (t := t) (r := .ret b) (by simp))
  have e : Function.update loc t Loc.idle = loc := by rw [← hi, Function.update_eq_self]
  simp only [Function.update_idem, e, List.append_assoc, List.cons_append, List.nil_append] at h5
  exact h5

theorem exec_mission {C : Config} {tr : List Event} (h : Exec C tr) (t : ℕ) (mis : Option Mission)
    (hi : C.loc t = .idle) (hl : C.m.locked = false) :
    Exec { m := { C.m with mission := mis }, loc := C.loc }
      (tr ++ [.tau, .acq t (.setMission mis), .tau, .done t (.ret true)]) := by
  obtain ⟨⟨cur, ms, lk⟩, loc⟩ := C
  simp only at hi hl
  subst hl
  have h1 := h.step (.start (c := .setMission mis) hi)
  have h2 := h1.step (.acquire (t := t) (c := .setMission mis) (by simp) rfl)
  have h4 := h2.step (.writeMission (t := t) (mis := mis) (by simp))
  have h5 := h4.step (.release (t := t) (r := .ret true) (by simp))
  have e : Function.update loc t Loc.idle = loc := by rw [← hi, Function.update_eq_self]
  simp only [Function.update_idem, e, List.append_assoc, List.cons_append, List.nil_append] at h5
  exact h5

/-- The thread of an event. -/
def Event.by' : Event → Option ℕ
  | .acq t _ | .done t _ | .read t _ => some t
  | .tau => none

/-- `C59` as claimed: when a thread runs `transition` - reads the state, decides on another one, takes
the lock in `change_state` - the machine is still in the state that was read. -/
def DecisionStillApplies : Prop :=
  ∀ (C : Config) (tr1 tr2 : List Event) (t : ℕ) (s n : State) (env : Env),
    Exec C (tr1 ++ .read t (.st s) :: tr2 ++ [.acq t (.change (.st n))]) →
    (∀ e ∈ tr2, Event.by' e ≠ some t) →
    stateTransition (.st s) env C.m.mission = .ok n → n ≠ s →
    C.m.current = .st s

/-- An environment in which every date has passed. -/
noncomputable def lateEnv : Env :=
  { isAfter := fun _ => .ok true, check := .ok 0, bodyAngVel := 0, nWheels := 0,
    wheelVel := fun _ => 0, wheelMomentum := 0, curCmd := 0, whlAccl := fun _ => 0 }

noncomputable def someMission : Mission :=
  { start := { year := 2026, month := 1, day := 1, hour := 0, minute := 0, second := 0 },
    stop := { year := 2026, month := 1, day := 2, hour := 0, minute := 0, second := 0 },
    target := 0, instrument := 0 }

/-- `C59` does not hold: the control loop reads SAFE and decides to point; before it takes the lock
another thread commands SPINDOWN. -/
theorem C59_decision_fails : ¬ DecisionStillApplies := by
  intro H
  have h0 := exec_mission Exec.init 0 (some someMission) rfl rfl
  have h1 := exec_change h0 0 (.st .UNSAFE) (b := true) rfl rfl rfl
  have h2 := exec_change h1 0 (.st .SAFE) (b := true) rfl rfl rfl
  have h3 := h2.step (.read (t := 1) rfl)
  have h4 := exec_change h3 0 (.st .SPINDOWN) (b := true) rfl rfl rfl
  have h5 := h4.step (.start (t := 1) (c := .change (.st .POINT)) rfl)
  have h6 := h5.step (.acquire (t := 1) (c := .change (.st .POINT)) (by simp) rfl)
  have := H _ (([] ++ [.tau, .acq 0 (.setMission (some someMission)), .tau, .done 0 (.ret true)]) ++
      [.tau, .acq 0 (.change (.st .UNSAFE)), .tau, .tau, .done 0 (.ret true)] ++
      [.tau, .acq 0 (.change (.st .SAFE)), .tau, .tau, .done 0 (.ret true)])
    [.tau, .acq 0 (.change (.st .SPINDOWN)), .tau, .tau, .done 0 (.ret true), .tau] 1 .SAFE .POINT
    lateEnv h6 (by simp [Event.by']) rfl (by simp)
  simp [storeChange] at this

/-- The consequence: two commands that the table allows in SAFE, one from the control loop and one from
the ground, leave the satellite in FAILED. -/
theorem C59_ends_failed : ∃ (C : Config) (tr : List Event), Exec C tr ∧
    (∀ t, C.loc t = .idle) ∧ C.m.current = .st .FAILED ∧
    acqs tr = [(0, .setMission (some someMission)), (0, .change (.st .UNSAFE)),
      (0, .change (.st .SAFE)), (0, .change (.st .SPINDOWN)), (1, .change (.st .POINT))] ∧
    stateTransition (.st .SAFE) lateEnv (some someMission) = .ok .POINT ∧
    documented .SAFE .POINT = true ∧ documented .SAFE .SPINDOWN = true := by
  have h0 := exec_mission Exec.init 0 (some someMission) rfl rfl
  have h1 := exec_change h0 0 (.st .UNSAFE) (b := true) rfl rfl rfl
  have h2 := exec_change h1 0 (.st .SAFE) (b := true) rfl rfl rfl
  have h3 := h2.step (.read (t := 1) rfl)
  have h4 := exec_change h3 0 (.st .SPINDOWN) (b := true) rfl rfl rfl
  have h5 := exec_change h4 1 (.st .POINT) (b := false) rfl rfl rfl
  exact ⟨_, _, h5, fun _ => rfl, rfl, rfl, rfl, rfl, rfl⟩

/-- What holds: if no call is in progress at the read and nobody takes the lock between the read and
`change_state`, the decision is applied to the state it was computed from. -/
theorem C59_decision_partial {C : Config} {tr1 tr2 : List Event} {t : ℕ} {v n : PyVal}
    (h : Exec C (tr1 ++ .read t v :: tr2 ++ [.acq t (.change n)]))
    (hq : (acqs tr1).length = (dones tr1).length) (hn : acqs tr2 = []) :
    C.m.current = v := by
  have hr : ∃ k, (dones tr1).length ≤ k ∧ k ≤ (acqs tr1).length ∧
      v = (seqRun Machine.init ((acqs tr1).take k)).2.current := by
    have h' := h
    rw [List.append_assoc, List.cons_append] at h'
    exact C57_reads h'
  obtain ⟨k, k1, k2, hv⟩ := hr
  have hk : k = (acqs tr1).length := by omega
  rw [hk, List.take_length] at hv
  generalize htr : tr1 ++ Event.read t v :: tr2 ++ [.acq t (.change n)] = tr at h
  cases h with
  | init => simp at htr
  | @step C0 _ tr' e h s =>
    obtain ⟨rfl, he⟩ := List.append_inj' htr rfl
    obtain rfl : Event.acq t (.change n) = e := by simpa using he
    cases s with
    | acquire h' hl =>
      have := (C57_linearizable h).2.2 hl
      have ha : acqs (tr1 ++ .read t v :: tr2) = acqs tr1 := by
        simp only [acqs, List.filterMap_append, List.filterMap_cons] at hn ⊢
        rw [hn]; simp
      rw [ha] at this
      rw [hv, ← this]

/-- And in every case the move is checked against the state that the machine has when the call takes
the lock: the outcome is the table's answer for that state. -/
theorem C59_checked_at_lock {C : Config} {tr : List Event} (h : Exec C tr) {t : ℕ} {s n : State}
    {b : Bool} (hg : C.loc t = .tested (.st n) b) (hs : C.m.current = .st s) :
    b = (validTransition s).contains (.st n) := by
  rcases exec_inv h with ⟨h1, h2⟩ | ⟨t0, c, pre, m0, h1, h2, h3, h4, h5⟩
  · have := h1 t; rw [hg] at this; exact absurd trivial this
  · have ht : t = t0 := by
      by_contra hne; have := h1 t hne; rw [hg] at this; exact this trivial
    subst ht
    rcases h5 with ⟨e1, e2⟩ | ⟨v', b', e0, e1, e3, e2⟩ | ⟨r, e1, e2, e3⟩
    · rw [hg] at e1; cases e1
    · rw [hg] at e1; cases e1
      rw [e2] at hs; simp only at hs
      rw [hs] at e3
      cases s <;> cases n <;> first | cases e3; rfl
    · rw [hg] at e1; cases e1

/-- The hypotheses are met: two threads, one inside the critical section and one waiting. -/
example : ∃ (C : Config) (tr : List Event), Exec C tr ∧ Crit (C.loc 0) ∧
    C.loc 1 = .waiting (.change (.st .FAILED)) ∧ C.m.locked = true ∧
    ∀ p ∈ acqs tr, ProperCall p.2 := by
  have h1 := Exec.init.step (.start (t := 0) (c := .change (.st .UNSAFE)) rfl)
  have h2 := h1.step (.start (t := 1) (c := .change (.st .FAILED)) rfl)
  have h3 := h2.step (.acquire (t := 0) (c := .change (.st .UNSAFE)) rfl rfl)
  refine ⟨_, _, h3, trivial, rfl, rfl, ?_⟩
  intro p hp
  simp [acqs] at hp
  subst hp
  exact ⟨_, rfl⟩

/-- The hypotheses of `C59_decision_partial` are met. -/
example : ∃ (C : Config) (tr1 tr2 : List Event), Exec C
    (tr1 ++ .read 1 (.st .SLEEP) :: tr2 ++ [.acq 1 (.change (.st .UNSAFE))]) ∧
    (acqs tr1).length = (dones tr1).length ∧ acqs tr2 = [] := by
  have h0 := Exec.init.step (.read (t := 1) rfl)
  have h1 := h0.step (.start (t := 1) (c := .change (.st .UNSAFE)) rfl)
  have h2 := h1.step (.acquire (t := 1) (c := .change (.st .UNSAFE)) (by simp) rfl)
  exact ⟨_, [], [.tau], h2, rfl, rfl⟩

end Adcs
