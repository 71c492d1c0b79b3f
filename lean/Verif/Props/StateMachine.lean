import Verif.Model.StateMachine
import Mathlib.Tactic.Cases
import Mathlib.Tactic.NormNum

set_option autoImplicit false

/-! # C53-C56, C58: the state machine called from one thread -/

namespace Adcs

open SM

/-- A call on the machine. -/
inductive SMOp
  | change (v : PyVal)
  | setMission (m : Option Mission)
  | transition (env : Env)

/-- The object after a call, whatever the outcome. -/
noncomputable def SMOp.run (m : Machine) : SMOp → Machine
  | .change v => (changeState m v).2
  | .setMission mis => (setNextMission m mis).2
  | .transition env => (SM.transition m env).2

/-- The object after a history of calls on a fresh one. -/
noncomputable def smRun (ops : List SMOp) : Machine := ops.foldl SMOp.run Machine.init

/-- The table as documented (with `POINT` as a state in the BBQ row): what each state allows. -/
def documented : State → State → Bool
  | .FAILED, .FAILED | .FAILED, .UNSAFE => true
  | .SLEEP, .SLEEP | .SLEEP, .FAILED | .SLEEP, .UNSAFE => true
  | .UNSAFE, .FAILED | .UNSAFE, .UNSAFE | .UNSAFE, .SAFE | .UNSAFE, .DETUMBLE | .UNSAFE, .BBQ
  | .UNSAFE, .POINT | .UNSAFE, .MANUAL => true
  | .SAFE, .FAILED | .SAFE, .SAFE | .SAFE, .SPINDOWN | .SAFE, .POINT | .SAFE, .BBQ
  | .SAFE, .MANUAL => true
  | .SPINDOWN, .FAILED | .SPINDOWN, .SLEEP | .SPINDOWN, .SPINDOWN => true
  | .DETUMBLE, .FAILED | .DETUMBLE, .DETUMBLE | .DETUMBLE, .BBQ | .DETUMBLE, .POINT
  | .DETUMBLE, .MANUAL => true
  | .BBQ, .FAILED | .BBQ, .SAFE | .BBQ, .BBQ | .BBQ, .POINT | .BBQ, .MANUAL => true
  | .POINT, .FAILED | .POINT, .POINT | .POINT, .UNSAFE | .POINT, .MANUAL => true
  | .MANUAL, .FAILED | .MANUAL, .POINT | .MANUAL, .UNSAFE | .MANUAL, .MANUAL => true
  | _, _ => false

/-- Arguments that are members of `State`. -/
def SMOp.Proper : SMOp → Prop
  | .change (.st _) => True
  | .change _ => False
  | _ => True

/-- The answer of `change_state` for members, from the documented table. -/
theorem decideChange_st (s v : State) :
    decideChange (.st s) (.st v) = .ok (documented s v && !(s == .BBQ && v == .POINT)) := by
  cases s <;> cases v <;> rfl

/-- A machine holding a member of `State` with its lock free. -/
def Sound (m : Machine) : Prop := (∃ s, m.current = .st s) ∧ m.locked = false

theorem changeState_sound {m : Machine} {s : State} (hs : m.current = .st s) (hl : m.locked = false)
    (v : State) :
    changeState m (.st v) = (.ret (documented s v && !(s == .BBQ && v == .POINT)),
      { m with current := .st (if documented s v && !(s == .BBQ && v == .POINT) then v else .FAILED) }) := by
  unfold changeState
  rw [hl, hs, decideChange_st]
  cases documented s v && !(s == .BBQ && v == .POINT) <;> simp [storeChange]

theorem dispatch_closed {s n : State} {env : Env} {mis : Option Mission}
    (h : dispatch true s env mis = .ok n) :
    n = s ∨ (s = .SAFE ∧ n = .POINT) ∨ (s = .POINT ∧ n = .UNSAFE) ∨ (s = .SPINDOWN ∧ n = .SLEEP) := by
  cases s with
  | FAILED => simp only [dispatch, Except.ok.injEq] at h; exact Or.inl h.symm
  | SLEEP => simp only [dispatch, Except.ok.injEq] at h; exact Or.inl h.symm
  | MANUAL => simp only [dispatch, Except.ok.injEq] at h; exact Or.inl h.symm
  | UNSAFE => simp [dispatch, unsafeTransition, pyCall, boundArgs] at h
  | DETUMBLE => simp [dispatch, detumbleTransition, pyCall, boundArgs] at h
  | BBQ => simp [dispatch, bbqTransition, pyCall, boundArgs] at h
  | SAFE =>
    simp only [dispatch, safeTransition] at h
    split at h
    · simp at h
    · split at h <;> simp at h <;> simp [← h]
  | POINT =>
    simp only [dispatch, pointTransition] at h
    split at h
    · simp at h
    · split at h <;> simp at h <;> simp [← h]
  | SPINDOWN =>
    simp only [dispatch, spindownTransition] at h
    split_ifs at h <;> simp at h <;> simp [← h]

/-- What an automatic transition does to a sound machine. -/
theorem transition_sound {m : Machine} {s : State} (hs : m.current = .st s) (hl : m.locked = false)
    (env : Env) :
    (∃ e, dispatch true s env m.mission = .error e ∧ SM.transition m env = (.exc e, m)) ∨
    (∃ n, dispatch true s env m.mission = .ok n ∧
      SM.transition m env = (.ret (), { m with current := .st n })) := by
  unfold SM.transition
  simp only [getCurrentState, hs, stateTransition]
  cases hd : dispatch true s env m.mission with
  | error e => exact Or.inl ⟨e, rfl, rfl⟩
  | ok n =>
    right
    refine ⟨n, rfl, ?_⟩
    by_cases hn : s = n
    · subst hn; simp only [if_true]; rw [← hs]
    · simp only [PyVal.st.injEq, if_neg hn, changeState_sound hs hl]
      have : (documented s n && !(s == .BBQ && n == .POINT)) = true := by
        rcases dispatch_closed hd with h | ⟨rfl, rfl⟩ | ⟨rfl, rfl⟩ | ⟨rfl, rfl⟩
        · exact absurd h.symm hn
        all_goals rfl
      simp only [this, if_true]

theorem run_sound {m : Machine} (h : Sound m) {op : SMOp} (hp : op.Proper) : Sound (op.run m) := by
  obtain ⟨⟨s, hs⟩, hl⟩ := h
  cases op with
  | change v =>
    cases v with
    | st v => simp only [SMOp.run]; rw [changeState_sound hs hl]; exact ⟨⟨_, rfl⟩, hl⟩
    | num n => exact hp.elim
    | other => exact hp.elim
    | array => exact hp.elim
  | setMission mis =>
    simp only [SMOp.run, setNextMission, hl, Bool.false_eq_true, if_false]
    exact ⟨⟨s, hs⟩, rfl⟩
  | transition env =>
    simp only [SMOp.run]
    rcases transition_sound hs hl env with ⟨e, _, h⟩ | ⟨n, _, h⟩
    · rw [h]; exact ⟨⟨s, hs⟩, hl⟩
    · rw [h]; exact ⟨⟨n, rfl⟩, hl⟩

theorem smRun_sound_from {m : Machine} (hm : Sound m) (ops : List SMOp) (h : ∀ op ∈ ops, op.Proper) :
    Sound (ops.foldl SMOp.run m) := by
  induction ops generalizing m with
  | nil => exact hm
  | cons op l ih =>
    exact ih (run_sound hm (h op (by simp))) fun o ho => h o (List.mem_cons_of_mem _ ho)

theorem init_sound : Sound Machine.init := ⟨⟨.SLEEP, rfl⟩, rfl⟩

/-! ## C53 -/

/-- The full claim. -/
def AlwaysMember : Prop := ∀ ops : List SMOp, ∃ s, getCurrentState (smRun ops) = .st s

/-- C53: false for arbitrary arguments: from BBQ the number 7 is accepted and stored. -/
theorem C53_member_fails : ¬ AlwaysMember := by
  intro h
  obtain ⟨s, hs⟩ := h [.change (.st .UNSAFE), .change (.st .BBQ), .change (.num 7)]
  have : getCurrentState (smRun [.change (.st .UNSAFE), .change (.st .BBQ), .change (.num 7)])
      = .num 7 := rfl
  rw [this] at hs
  cases hs

/-- C53 (partial): with members of `State` as arguments, after any history the current state is a
member. Missing: other arguments. -/
theorem C53_member_partial (ops : List SMOp) (h : ∀ op ∈ ops, op.Proper) :
    ∃ s, getCurrentState (smRun ops) = .st s := (smRun_sound_from init_sound ops h).1

/-- C53 (partial): the only improper argument that is ever stored is the number 7, and only from
BBQ. -/
theorem C53_only_seven_partial (m : Machine) (s : State) (hs : m.current = .st s) (v : PyVal) :
    (∃ s', (changeState m v).2.current = .st s') ∨
    (s = .BBQ ∧ v = .num 7 ∧ (changeState m v).2.current = .num 7) := by
  unfold changeState
  cases hl : m.locked with
  | true => left; exact ⟨s, by simpa using hs⟩
  | false =>
    simp only [Bool.false_eq_true, if_false]
    cases v with
    | st v => left; rw [hs, decideChange_st]; simp only [storeChange]; split_ifs <;> exact ⟨_, rfl⟩
    | other =>
      left
      have : decideChange m.current .other = .ok false := by rw [hs]; cases s <;> rfl
      rw [this]; exact ⟨.FAILED, rfl⟩
    | array =>
      left
      have : decideChange m.current .array = .error .valueError := by rw [hs]; cases s <;> rfl
      rw [this]; exact ⟨s, hs⟩
    | num n =>
      by_cases hb : s = .BBQ
      · subst hb
        by_cases hn : n = 7
        · subst hn; right
          have : decideChange m.current (.num 7) = .ok true := by rw [hs]; rfl
          rw [this]; exact ⟨rfl, rfl, rfl⟩
        · left
          have : decideChange m.current (.num n) = .ok false := by
            rw [hs]
            have h7 : decide (n = State.POINT.value) = false := by rw [decide_eq_false_iff_not]; exact hn
            simp [decideChange, lookup, validTransition, pyIn, pyEq, h7]
          rw [this]; exact ⟨.FAILED, rfl⟩
      · left
        have : decideChange m.current (.num n) = .ok false := by
          rw [hs]; cases s <;> first | rfl | exact absurd rfl hb
        rw [this]; exact ⟨.FAILED, rfl⟩

/-! ## C54 -/

/-- The full claim: the documented table decides. -/
def FollowsTable : Prop :=
  ∀ (m : Machine) (s v : State), m.current = .st s → m.locked = false →
    ∃ b, (changeState m (.st v)).1 = .ret b ∧ (b = true ↔ documented s v = true) ∧
      (changeState m (.st v)).2.current = .st (if documented s v then v else .FAILED)

/-- C54: false: from BBQ a request for POINT is refused and fails the machine. -/
theorem C54_table_fails : ¬ FollowsTable := by
  intro h
  obtain ⟨b, h1, h2, h3⟩ := h { Machine.init with current := .st .BBQ } .BBQ .POINT rfl rfl
  have : (changeState { Machine.init with current := .st .BBQ } (.st .POINT)).2.current
      = .st .FAILED := rfl
  rw [this] at h3
  simp [documented] at h3

/-- C54: BBQ is a reachable state in which the refusal happens. -/
theorem C54_bbq_point_reachable :
    ∃ ops : List SMOp, (∀ op ∈ ops, op.Proper) ∧ (smRun ops).current = .st .BBQ ∧
      (changeState (smRun ops) (.st .POINT)).2.current = .st .FAILED := by
  refine ⟨[.change (.st .UNSAFE), .change (.st .BBQ)], ?_, rfl, rfl⟩
  intro op h
  simp only [List.mem_cons, List.not_mem_nil, or_false] at h
  rcases h with rfl | rfl <;> trivial

/-- C54 (partial): every other pair of states follows the table. Missing: BBQ to POINT. -/
theorem C54_table_partial (m : Machine) (s v : State) (hs : m.current = .st s)
    (hl : m.locked = false) (hne : ¬ (s = .BBQ ∧ v = .POINT)) :
    (changeState m (.st v)).1 = .ret (documented s v) ∧
    (changeState m (.st v)).2.current = .st (if documented s v then v else .FAILED) ∧
    (changeState m (.st v)).2.mission = m.mission ∧ (changeState m (.st v)).2.locked = false := by
  have : (!(s == .BBQ && v == .POINT)) = true := by
    by_contra hc
    apply hne
    simpa using hc
  rw [changeState_sound hs hl, this, Bool.and_true]
  exact ⟨rfl, rfl, rfl, hl⟩

/-! ## C55 -/

/-- C55: in every history with proper arguments, each call that changes the state respects the
entry conditions of SLEEP and SPINDOWN and the exit condition of FAILED. -/
theorem C55_sleep_via_spindown (ops : List SMOp) (h : ∀ op ∈ ops, op.Proper) (op : SMOp)
    (hop : op.Proper) (s s' : State) (hs : (smRun ops).current = .st s)
    (hs' : (smRun (ops ++ [op])).current = .st s') (hne : s ≠ s') :
    (s' = .SLEEP → s = .SPINDOWN) ∧ (s' = .SPINDOWN → s = .SAFE) ∧ (s = .FAILED → s' = .UNSAFE) := by
  have hl := (smRun_sound_from init_sound ops h).2
  have e : smRun (ops ++ [op]) = op.run (smRun ops) := by simp [smRun]
  change (smRun ops).locked = false at hl
  rw [e] at hs'
  generalize smRun ops = m at *
  cases op with
  | change v =>
    cases v with
    | st v =>
      simp only [SMOp.run] at hs'
      rw [changeState_sound hs hl] at hs'
      simp only [PyVal.st.injEq] at hs'
      subst hs'
      revert hne
      cases s <;> cases v <;> decide
    | num n => exact hop.elim
    | other => exact hop.elim
    | array => exact hop.elim
  | setMission mis =>
    simp only [SMOp.run, setNextMission, hl, Bool.false_eq_true, if_false] at hs'
    rw [hs] at hs'
    simp only [PyVal.st.injEq] at hs'
    exact absurd hs' hne
  | transition env =>
    simp only [SMOp.run] at hs'
    rcases transition_sound hs hl env with ⟨e, _, ht⟩ | ⟨n, hd, ht⟩
    · rw [ht] at hs'
      simp only [hs, PyVal.st.injEq] at hs'
      exact absurd hs' hne
    · rw [ht] at hs'
      simp only [PyVal.st.injEq] at hs'
      subst hs'
      rcases dispatch_closed hd with rfl | ⟨rfl, rfl⟩ | ⟨rfl, rfl⟩ | ⟨rfl, rfl⟩
      · exact absurd rfl hne
      all_goals simp

/-- A history in which SLEEP is left and entered again. -/
example : (smRun [.change (.st .UNSAFE), .change (.st .SAFE), .change (.st .SPINDOWN)]).current
      = .st .SPINDOWN ∧
    (smRun ([.change (.st .UNSAFE), .change (.st .SAFE), .change (.st .SPINDOWN)]
      ++ [.change (.st .SLEEP)])).current = .st .SLEEP := ⟨rfl, rfl⟩

/-! ## C56 -/

/-- The full claim. -/
def TransitionsComplete : Prop :=
  ∀ (m : Machine) (s : State) (env : Env), m.current = .st s → m.locked = false →
    (∃ u, (SM.transition m env).1 = .ret u) ∧
    (s ≠ .FAILED → (SM.transition m env).2.current ≠ .st .FAILED)

/-- C56: in DETUMBLE, BBQ and UNSAFE the automatic transition always raises `TypeError`, whatever
the sensors and the mission. -/
theorem C56_active_states_raise (m : Machine) (s : State) (env : Env) (hs : m.current = .st s)
    (hact : s = .DETUMBLE ∨ s = .BBQ ∨ s = .UNSAFE) :
    SM.transition m env = (.exc .typeError, m) := by
  unfold SM.transition
  simp only [getCurrentState, hs, stateTransition]
  rcases hact with rfl | rfl | rfl <;>
    simp [dispatch, detumbleTransition, bbqTransition, unsafeTransition, pyCall, boundArgs]

/-- C56: with no mission set, SAFE and POINT raise `AttributeError`. -/
theorem C56_no_mission_raises (m : Machine) (s : State) (env : Env) (hs : m.current = .st s)
    (hact : s = .SAFE ∨ s = .POINT) (hm : m.mission = none) :
    SM.transition m env = (.exc .attributeError, m) := by
  unfold SM.transition
  simp only [getCurrentState, hs, stateTransition, hm]
  rcases hact with rfl | rfl <;> simp [dispatch, safeTransition, pointTransition]

/-- C56: the full claim is false. -/
theorem C56_transition_fails : ¬ TransitionsComplete := by
  intro h
  let env : Env := ⟨fun _ => .ok false, .ok 0, 0, 4, 0, 0, 0, 0⟩
  obtain ⟨u, hu⟩ := (h { Machine.init with current := .st .DETUMBLE } .DETUMBLE env rfl rfl).1
  rw [C56_active_states_raise _ .DETUMBLE env rfl (Or.inl rfl)] at hu
  cases hu

/-- C56 (partial): the other states complete (SAFE and POINT when a mission is set and the clock
answers), and no automatic transition ever fails the machine: the move made is the one decided, and
the state is unchanged when it raises. Missing: DETUMBLE, BBQ, UNSAFE and an unset mission. -/
theorem C56_transition_partial (m : Machine) (s : State) (env : Env) (hs : m.current = .st s)
    (hl : m.locked = false) :
    (((s = .FAILED ∨ s = .SLEEP ∨ s = .MANUAL ∨ s = .SPINDOWN) ∨
      ((s = .SAFE ∨ s = .POINT) ∧ m.mission ≠ none ∧ ∀ t, ∃ b, env.isAfter t = .ok b)) →
      (SM.transition m env).1 = .ret ()) ∧
    (s ≠ .FAILED → (SM.transition m env).2.current ≠ .st .FAILED) ∧
    (SM.transition m env).2.locked = false := by
  refine ⟨?_, ?_, ?_⟩
  · intro hc
    rcases transition_sound hs hl env with ⟨e, hd, ht⟩ | ⟨n, hd, ht⟩
    · exfalso
      rcases hc with (rfl | rfl | rfl | rfl) | ⟨hsp, hm, hi⟩
      · simp [dispatch] at hd
      · simp [dispatch] at hd
      · simp [dispatch] at hd
      · simp only [dispatch, spindownTransition] at hd; split_ifs at hd
      · cases hmm : m.mission with
        | none => exact hm hmm
        | some mis =>
          rw [hmm] at hd
          rcases hsp with rfl | rfl
          · obtain ⟨b, hb⟩ := hi mis.start
            simp only [dispatch, safeTransition, hb] at hd
            cases b <;> simp at hd
          · obtain ⟨b, hb⟩ := hi mis.stop
            simp only [dispatch, pointTransition, hb] at hd
            cases b <;> simp at hd
    · rw [ht]
  · intro hf
    rcases transition_sound hs hl env with ⟨e, hd, ht⟩ | ⟨n, hd, ht⟩
    · rw [ht]; simp only [hs]; simpa using hf
    · rw [ht]
      simp only [ne_eq, PyVal.st.injEq]
      rcases dispatch_closed hd with rfl | ⟨rfl, rfl⟩ | ⟨rfl, rfl⟩ | ⟨rfl, rfl⟩
      · exact hf
      all_goals simp
  · rcases transition_sound hs hl env with ⟨e, hd, ht⟩ | ⟨n, hd, ht⟩ <;> rw [ht] <;> exact hl

/-- C56: what the moves are: POINT when the mission has started, UNSAFE when it is over, SLEEP when
the wheels have stopped. -/
theorem C56_moves (m : Machine) (env : Env) (mis : Mission) (hl : m.locked = false)
    (hm : m.mission = some mis) (b : Bool) :
    (m.current = .st .SAFE → env.isAfter mis.start = .ok b →
      (SM.transition m env).2.current = .st (if b then .POINT else .SAFE)) ∧
    (m.current = .st .POINT → env.isAfter mis.stop = .ok b →
      (SM.transition m env).2.current = .st (if b then .UNSAFE else .POINT)) ∧
    (m.current = .st .SPINDOWN → ((SM.transition m env).2.current = .st .SLEEP ↔
      npNorm env.whlAccl < 0.00001 ∧ npNorm env.wheelVel < 0.01)) := by
  refine ⟨?_, ?_, ?_⟩
  · intro hs hb
    rcases transition_sound hs hl env with ⟨e, hd, ht⟩ | ⟨n, hd, ht⟩ <;>
      simp only [dispatch, safeTransition, hm, hb] at hd <;> cases b <;> simp at hd <;>
      rw [ht] <;> simp [← hd]
  · intro hs hb
    rcases transition_sound hs hl env with ⟨e, hd, ht⟩ | ⟨n, hd, ht⟩ <;>
      simp only [dispatch, pointTransition, hm, hb] at hd <;> cases b <;> simp at hd <;>
      rw [ht] <;> simp [← hd]
  · intro hs
    rcases transition_sound hs hl env with ⟨e, hd, ht⟩ | ⟨n, hd, ht⟩
    · simp only [dispatch, spindownTransition] at hd; split_ifs at hd
    · simp only [dispatch, spindownTransition] at hd
      rw [ht]
      split_ifs at hd with hc
      · simp only [Except.ok.injEq] at hd; subst hd; simp [hc]
      · simp only [Except.ok.injEq] at hd; subst hd; simp [hc]

/-- A machine reached by requests, in SAFE with a mission that has started: the transition moves it to POINT. -/
example : ∃ (ops : List SMOp) (mis : Mission) (env : Env), (smRun ops).locked = false ∧
    (smRun ops).mission = some mis ∧ (smRun ops).current = .st .SAFE ∧ env.isAfter mis.start = .ok true ∧
    (SM.transition (smRun ops) env).2.current = .st .POINT := by
  let mis : Mission := ⟨⟨2024, 5, 6, 12, 0, 0⟩, ⟨2024, 5, 6, 12, 30, 0⟩, ![0, 0, 6378000], 0⟩
  let env : Env := ⟨fun _ => .ok true, .ok 0, 0, 4, 0, 0, 0, 0⟩
  refine ⟨[.change (.st .UNSAFE), .setMission (some mis), .change (.st .SAFE)], mis, env, rfl, rfl, rfl, rfl, ?_⟩
  exact (C56_moves _ env mis rfl rfl true).1 rfl rfl

/-! ## C58 -/

/-- The full claim. -/
def LockReleased : Prop := ∀ ops : List SMOp, (smRun ops).locked = false

/-- C58: false: after the number 7 has been stored the next call raises with the lock held, and
every call after that blocks for ever. -/
theorem C58_lock_fails :
    ¬ LockReleased ∧
    ∃ ops : List SMOp, ∀ v mis, (changeState (smRun ops) v).1 = .blocked ∧
      (setNextMission (smRun ops) mis).1 = .blocked := by
  have e : (smRun [.change (.st .UNSAFE), .change (.st .BBQ), .change (.num 7),
    .change (.st .SAFE)]).locked = true := rfl
  refine ⟨fun h => ?_, [.change (.st .UNSAFE), .change (.st .BBQ), .change (.num 7),
    .change (.st .SAFE)], fun v mis => ⟨?_, ?_⟩⟩
  · have := h [.change (.st .UNSAFE), .change (.st .BBQ), .change (.num 7), .change (.st .SAFE)]
    rw [e] at this; cases this
  · simp [changeState, e]
  · simp [setNextMission, e]

/-- C58: one array argument is enough. -/
theorem C58_array_locks : (changeState Machine.init .array).1 = .exc .valueError ∧
    (changeState Machine.init .array).2.locked = true := ⟨rfl, rfl⟩

/-- C58 (partial): with proper arguments the lock is free after every history. Missing: other
arguments. -/
theorem C58_lock_partial (ops : List SMOp) (h : ∀ op ∈ ops, op.Proper) : (smRun ops).locked = false :=
  (smRun_sound_from init_sound ops h).2

end Adcs
