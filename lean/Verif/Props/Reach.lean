import Verif.Props.StateMachine

set_option autoImplicit false

/-! # C147, C148: what the operator can command and what happens without commands -/

namespace Adcs

open SM

/-! ## C147 -/

namespace Spec

/-- The machine after requests for the states of a list, one after the other. -/
def afterRequests (m : Machine) : List State → Machine
  | [] => m
  | v :: l => afterRequests (changeState m (.st v)).2 l

/-- Every one of the requests is answered by `True`. -/
def AllAccepted (m : Machine) : List State → Prop
  | [] => True
  | v :: l => (changeState m (.st v)).1 = .ret true ∧ AllAccepted (changeState m (.st v)).2 l

/-- The mission that was set last. -/
def lastMission : List SMOp → Option Mission
  | [] => none
  | .setMission mis :: l => if l.any (fun o => o matches .setMission _) then lastMission l else mis
  | _ :: l => lastMission l

end Spec

open Spec

/-- A way by requests of the table from one state to another. -/
def route : State → State → List State
  | .FAILED, .FAILED => []
  | .FAILED, .SLEEP => [.UNSAFE, .SAFE, .SPINDOWN, .SLEEP]
  | .FAILED, .UNSAFE => [.UNSAFE]
  | .FAILED, .SPINDOWN => [.UNSAFE, .SAFE, .SPINDOWN]
  | .FAILED, v => [.UNSAFE, v]
  | .SLEEP, .SLEEP => []
  | .SLEEP, .FAILED => [.FAILED]
  | .SLEEP, .UNSAFE => [.UNSAFE]
  | .SLEEP, .SPINDOWN => [.UNSAFE, .SAFE, .SPINDOWN]
  | .SLEEP, v => [.UNSAFE, v]
  | .UNSAFE, .UNSAFE => []
  | .UNSAFE, .SLEEP => [.SAFE, .SPINDOWN, .SLEEP]
  | .UNSAFE, .SPINDOWN => [.SAFE, .SPINDOWN]
  | .UNSAFE, v => [v]
  | .SAFE, .SAFE => []
  | .SAFE, .SLEEP => [.SPINDOWN, .SLEEP]
  | .SAFE, .UNSAFE => [.MANUAL, .UNSAFE]
  | .SAFE, .DETUMBLE => [.MANUAL, .UNSAFE, .DETUMBLE]
  | .SAFE, v => [v]
  | .SPINDOWN, .SPINDOWN => []
  | .SPINDOWN, .FAILED => [.FAILED]
  | .SPINDOWN, .SLEEP => [.SLEEP]
  | .SPINDOWN, .UNSAFE => [.SLEEP, .UNSAFE]
  | .SPINDOWN, v => [.SLEEP, .UNSAFE, v]
  | .DETUMBLE, .DETUMBLE => []
  | .DETUMBLE, .SLEEP => [.BBQ, .SAFE, .SPINDOWN, .SLEEP]
  | .DETUMBLE, .SPINDOWN => [.BBQ, .SAFE, .SPINDOWN]
  | .DETUMBLE, .UNSAFE => [.MANUAL, .UNSAFE]
  | .DETUMBLE, .SAFE => [.BBQ, .SAFE]
  | .DETUMBLE, v => [v]
  | .BBQ, .BBQ => []
  | .BBQ, .SLEEP => [.SAFE, .SPINDOWN, .SLEEP]
  | .BBQ, .SPINDOWN => [.SAFE, .SPINDOWN]
  | .BBQ, .UNSAFE => [.MANUAL, .UNSAFE]
  | .BBQ, .DETUMBLE => [.MANUAL, .UNSAFE, .DETUMBLE]
  | .BBQ, .POINT => [.SAFE, .POINT]
  | .BBQ, v => [v]
  | .POINT, .POINT => []
  | .POINT, .SLEEP => [.UNSAFE, .SAFE, .SPINDOWN, .SLEEP]
  | .POINT, .SPINDOWN => [.UNSAFE, .SAFE, .SPINDOWN]
  | .POINT, .FAILED => [.FAILED]
  | .POINT, .UNSAFE => [.UNSAFE]
  | .POINT, .MANUAL => [.MANUAL]
  | .POINT, v => [.UNSAFE, v]
  | .MANUAL, .MANUAL => []
  | .MANUAL, .SLEEP => [.UNSAFE, .SAFE, .SPINDOWN, .SLEEP]
  | .MANUAL, .SPINDOWN => [.UNSAFE, .SAFE, .SPINDOWN]
  | .MANUAL, .FAILED => [.FAILED]
  | .MANUAL, .UNSAFE => [.UNSAFE]
  | .MANUAL, .POINT => [.POINT]
  | .MANUAL, v => [.UNSAFE, v]

theorem route_ok {m : Machine} {s : State} (hs : m.current = .st s) (hl : m.locked = false) (v : State) :
    AllAccepted m (route s v) ∧ afterRequests m (route s v) = { m with current := .st v } := by
  obtain ⟨cur, mis, lk⟩ := m
  dsimp only at hs hl
  subst hs hl
  cases s <;> cases v <;> simp [route, AllAccepted, afterRequests, changeState, decideChange, lookup,
    validTransition, pyIn, pyEq, storeChange]

/-- After every history of calls with members of `State`, every state can be reached from the present one
by at most four requests that are all accepted; none of them passes through FAILED unless the machine is
there already or is sent there. The mission is kept. -/
theorem C147_reach (ops : List SMOp) (h : ∀ op ∈ ops, op.Proper) (v : State) :
    ∃ path : List State, path.length ≤ 4 ∧ AllAccepted (smRun ops) path ∧
      getCurrentState (afterRequests (smRun ops) path) = .st v ∧
      (v ≠ .FAILED → .FAILED ∉ path) ∧
      getNextMission (afterRequests (smRun ops) path) = getNextMission (smRun ops) := by
  obtain ⟨⟨s, hs⟩, hl⟩ := smRun_sound_from init_sound ops h
  obtain ⟨h1, h2⟩ := route_ok hs hl v
  refine ⟨route s v, ?_, h1, ?_, ?_, ?_⟩
  · cases s <;> cases v <;> simp [route]
  · show (afterRequests _ _).current = _
    exact congrArg Machine.current h2
  · intro hv
    cases s <;> cases v <;> simp [route] at hv ⊢
  · show (afterRequests _ _).mission = _
    rw [show afterRequests (smRun ops) (route s v) = _ from h2]; rfl

/-- A shorter way does not exist in general: from FAILED to SLEEP it takes four requests. -/
theorem C147_four (m : Machine) (hs : m.current = .st .FAILED) (hl : m.locked = false) (path : List State)
    (ha : AllAccepted m path) (he : (afterRequests m path).current = .st .SLEEP) : 4 ≤ path.length := by
  -- number of requests still needed
  let need : State → ℕ := fun s => match s with
    | .SLEEP => 0 | .SPINDOWN => 1 | .SAFE => 2 | .UNSAFE | .BBQ => 3 | _ => 4
  have step : ∀ s v : State, (documented s v && !(s == .BBQ && v == .POINT)) = true →
      need s ≤ need v + 1 := by
    intro s v
    cases s <;> cases v <;> simp [need, documented]
  have key : ∀ (path : List State) (m : Machine) (s : State), m.current = .st s → m.locked = false →
      AllAccepted m path → (afterRequests m path).current = .st .SLEEP → need s ≤ path.length := by
    intro path
    induction path with
    | nil =>
      intro m s h1 _ _ h4
      simp only [afterRequests, h1, PyVal.st.injEq] at h4
      subst h4; simp [need]
    | cons v l ih =>
      intro m s h1 h2 h3 h4
      simp only [AllAccepted, afterRequests, changeState_sound h1 h2, Outcome.ret.injEq] at h3 h4
      obtain ⟨h5, h6⟩ := h3
      rw [h5] at h6 h4
      have := ih { m with current := .st v } v rfl h2 h6 h4
      have := step s v h5
      simp only [List.length_cons]; omega
  simpa [need] using key path m .FAILED hs hl ha he

theorem mission_step {m : Machine} (hm : Sound m) {op : SMOp} (hp : op.Proper) :
    getNextMission (op.run m) = match op with
      | .setMission mis => mis
      | _ => getNextMission m := by
  obtain ⟨⟨s, hs⟩, hl⟩ := hm
  cases op with
  | change v =>
    cases v with
    | st v => simp only [SMOp.run, getNextMission]; rw [changeState_sound hs hl]
    | num n => exact hp.elim
    | other => exact hp.elim
    | array => exact hp.elim
  | setMission mis => simp [SMOp.run, setNextMission, hl, getNextMission]
  | transition env =>
    simp only [SMOp.run, getNextMission]
    rcases transition_sound hs hl env with ⟨e, _, h⟩ | ⟨n, _, h⟩ <;> rw [h]

theorem lastMission_append (l : List SMOp) (op : SMOp) : lastMission (l ++ [op]) = match op with
    | .setMission mis => mis
    | _ => lastMission l := by
  induction l with
  | nil => cases op <;> simp [lastMission]
  | cons o l ih =>
    cases o with
    | setMission mis => cases op <;> simp_all [lastMission]
    | change v => cases op <;> simp_all [lastMission]
    | transition env => cases op <;> simp_all [lastMission]

/-- After every history of calls with members of `State`, `get_next_mission` returns the mission that was
set last, and setting a mission does not change the state. -/
theorem C147_mission (ops : List SMOp) (h : ∀ op ∈ ops, op.Proper) :
    getNextMission (smRun ops) = lastMission ops ∧
    ∀ mis, getCurrentState (SMOp.run (smRun ops) (.setMission mis)) = getCurrentState (smRun ops) := by
  constructor
  · induction ops using List.reverseRecOn with
    | nil => rfl
    | append_singleton l op ih =>
      have hl : ∀ o ∈ l, o.Proper := fun o ho => h o (by simp [ho])
      have hop := h op (by simp)
      rw [lastMission_append]
      show getNextMission (List.foldl SMOp.run Machine.init (l ++ [op])) = _
      rw [List.foldl_append]
      simp only [List.foldl_cons, List.foldl_nil]
      rw [mission_step (smRun_sound_from init_sound l hl) hop]
      cases op with
      | setMission mis => rfl
      | change v => exact ih hl
      | transition env => exact ih hl
  · intro mis
    obtain ⟨-, hl⟩ := smRun_sound_from init_sound ops h
    have hl' : (smRun ops).locked = false := hl
    simp [SMOp.run, setNextMission, hl', getCurrentState]

/-- A mission on the morning of the first of January 2025. -/
def reachMission : Mission :=
  { start := { year := 2025, month := 1, day := 1, hour := 6, minute := 0, second := 0 }
    stop := { year := 2025, month := 1, day := 1, hour := 7, minute := 0, second := 0 }
    target := ![6378137, 0, 0], instrument := 0 }

/-- A concrete history: woken up, given a mission and sent to point. -/
example : ∃ mis : Mission, (∀ op ∈ [SMOp.change (.st .UNSAFE), .setMission (some mis), .change (.st .POINT)],
      op.Proper) ∧
    getCurrentState (smRun [.change (.st .UNSAFE), .setMission (some mis), .change (.st .POINT)]) = .st .POINT ∧
    getNextMission (smRun [.change (.st .UNSAFE), .setMission (some mis), .change (.st .POINT)]) = some mis := by
  refine ⟨reachMission, ?_, ?_, ?_⟩
  · intro op h
    simp only [List.mem_cons, List.not_mem_nil, or_false] at h
    rcases h with rfl | rfl | rfl <;> trivial
  · rfl
  · rfl

/-! ## C148 -/

/-- The machine after a number of automatic transitions, with the sensor values at each of them. -/
noncomputable def Spec.autonomous (m : Machine) (envs : List Env) : Machine :=
  envs.foldl (fun m env => (SM.transition m env).2) m

/-- Sensor values with which a satellite may be called safe by the conditions of the transition methods:
it turns slowly, is aligned, its torquers are idle, its wheels hold little momentum, and the mission has not
started. -/
structure Spec.Calm (env : Env) : Prop where
  slow : npNorm env.bodyAngVel < 0.05
  aligned : ∃ c, env.check = .ok c ∧ c < 1e-4
  idle : npNorm env.curCmd < 1e-4
  unloaded : npNorm env.wheelMomentum < 30
  waiting : ∀ d, env.isAfter d = .ok false

/-- A calm satellite in UNSAFE returns to SAFE by itself. -/
def C148_claim : Prop :=
  ∀ (m : Machine) (env : Env), m.current = .st .UNSAFE → m.locked = false → (∃ mis, m.mission = some mis) →
    Calm env → ∃ n : ℕ, (autonomous m (List.replicate n env)).current = .st .SAFE

theorem autonomous_cons (m : Machine) (env : Env) (l : List Env) :
    autonomous m (env :: l) = autonomous (SM.transition m env).2 l := rfl

/-- In UNSAFE, DETUMBLE and BBQ, and in the states that are left only by command, nothing happens without a
command: whatever the sensors say and however often `transition` is called, the machine stays as it is. -/
theorem C148_stuck (m : Machine) (s : State) (hs : m.current = .st s) (hl : m.locked = false)
    (h : s = .UNSAFE ∨ s = .DETUMBLE ∨ s = .BBQ ∨ s = .FAILED ∨ s = .SLEEP ∨ s = .MANUAL) (envs : List Env) :
    autonomous m envs = m := by
  induction envs with
  | nil => rfl
  | cons env l ih =>
    rw [autonomous_cons]
    rcases transition_sound hs hl env with ⟨e, hd, ht⟩ | ⟨n, hd, ht⟩
    · rw [ht]; exact ih
    · rw [ht]
      have : n = s := by
        rcases dispatch_closed hd with h1 | ⟨rfl, rfl⟩ | ⟨rfl, rfl⟩ | ⟨rfl, rfl⟩
        · exact h1
        all_goals simp at h
      subst this
      rw [← hs]
      exact ih

/-- The claim is false. -/
theorem C148_recovery_fails : ¬ C148_claim := by
  intro H
  obtain ⟨n, hn⟩ := H ⟨.st .UNSAFE, some reachMission, false⟩
    ⟨fun _ => .ok false, .ok 0, 0, 0, 0, 0, 0, 0⟩ rfl rfl ⟨_, rfl⟩
    ⟨by norm_num [npNorm], ⟨0, rfl, by norm_num⟩, by norm_num [npNorm], by norm_num [npNorm], fun _ => rfl⟩
  rw [C148_stuck _ .UNSAFE rfl rfl (Or.inl rfl)] at hn
  cases hn

/-- What holds of automatic transitions, for every history of sensor values: they never lead to FAILED, they
keep the mission and the lock, and the only moves are SAFE to POINT to UNSAFE, and SPINDOWN to SLEEP.
Missing: the recovery from UNSAFE by DETUMBLE and BBQ to SAFE. -/
theorem C148_recovery_partial (m : Machine) (s : State) (hs : m.current = .st s) (hl : m.locked = false)
    (envs : List Env) : ∃ n, autonomous m envs = { m with current := .st n } ∧
      (n = s ∨ (s = .SAFE ∧ (n = .POINT ∨ n = .UNSAFE)) ∨ (s = .POINT ∧ n = .UNSAFE) ∨
        (s = .SPINDOWN ∧ n = .SLEEP)) := by
  induction envs generalizing m s with
  | nil => exact ⟨s, by rw [← hs]; rfl, Or.inl rfl⟩
  | cons env l ih =>
    rw [autonomous_cons]
    rcases transition_sound hs hl env with ⟨e, hd, ht⟩ | ⟨n, hd, ht⟩
    · rw [ht]; exact ih m s hs hl
    · rw [ht]
      obtain ⟨k, h1, h2⟩ := ih { m with current := .st n } n rfl hl
      refine ⟨k, h1, ?_⟩
      rcases dispatch_closed hd with rfl | ⟨rfl, rfl⟩ | ⟨rfl, rfl⟩ | ⟨rfl, rfl⟩ <;> simp_all

/-- Each of the moves happens: a mission that starts and ends takes a satellite from SAFE to POINT and on to
UNSAFE. -/
example : ∃ (m : Machine) (e1 e2 : Env), m.current = .st .SAFE ∧ m.locked = false ∧
    (autonomous m [e1]).current = .st .POINT ∧ (autonomous m [e1, e2]).current = .st .UNSAFE := by
  refine ⟨⟨.st .SAFE, some reachMission, false⟩, ⟨fun _ => .ok true, .ok 0, 0, 0, 0, 0, 0, 0⟩,
    ⟨fun _ => .ok true, .ok 0, 0, 0, 0, 0, 0, 0⟩, rfl, rfl, ?_, ?_⟩ <;>
  simp [autonomous, SM.transition, getCurrentState, stateTransition, dispatch, safeTransition, pointTransition,
    changeState, decideChange, lookup, validTransition, pyIn, pyEq, storeChange]

end Adcs
