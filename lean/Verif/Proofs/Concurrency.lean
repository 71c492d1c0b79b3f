import Verif.Model.StateMachine
import Mathlib.Data.List.Basic

set_option autoImplicit false

/-! # Interleavings of the locking calls: the invariant -/

namespace Adcs.SM

/-- One call executed on its own. -/
def seqCall (m : Machine) : Call → Outcome Bool × Machine
  | .change v => changeState m v
  | .setMission mis =>
    match setNextMission m mis with
    | (.ret (), m') => (.ret true, m')
    | (.exc e, m') => (.exc e, m')
    | (.blocked, m') => (.blocked, m')

/-- Calls executed one at a time, with the thread that made each: outcomes and final object. -/
def seqRun (m : Machine) : List (ℕ × Call) → List (ℕ × Outcome Bool) × Machine
  | [] => ([], m)
  | (t, c) :: l =>
    let r := seqCall m c
    let rest := seqRun r.2 l
    ((t, r.1) :: rest.1, rest.2)

theorem seqRun_append (m : Machine) (l l' : List (ℕ × Call)) :
    seqRun m (l ++ l') = ((seqRun m l).1 ++ (seqRun (seqRun m l).2 l').1,
      (seqRun (seqRun m l).2 l').2) := by
  induction l generalizing m with
  | nil => simp [seqRun]
  | cons a l ih => obtain ⟨t, c⟩ := a; simp [seqRun, ih]

theorem seqRun_length (m : Machine) (l : List (ℕ × Call)) : (seqRun m l).1.length = l.length := by
  induction l generalizing m with
  | nil => rfl
  | cons a l ih => obtain ⟨t, c⟩ := a; simp [seqRun, ih]

/-- The calls in the order in which they took the lock. -/
def acqs (tr : List Event) : List (ℕ × Call) :=
  tr.filterMap fun e => match e with | .acq t c => some (t, c) | _ => none

/-- The outcomes in the order in which the calls ended. -/
def dones (tr : List Event) : List (ℕ × Outcome Bool) :=
  tr.filterMap fun e => match e with | .done t r => some (t, r) | _ => none

/-- Inside the critical section. -/
def Crit : Loc → Prop
  | .got _ | .tested _ _ | .written _ => True
  | _ => False

/-- Inside the critical section of call `c` begun on the object `m0` (lock free in `m0`), with the
object now `m`. -/
def Phase (m0 : Machine) (c : Call) (l : Loc) (m : Machine) : Prop :=
  (l = .got c ∧ m = { m0 with locked := true }) ∨
  (∃ v b, c = .change v ∧ l = .tested v b ∧ decideChange m0.current v = .ok b ∧
    m = { m0 with locked := true }) ∨
  (∃ r, l = .written r ∧ m.locked = true ∧ seqCall m0 c = (r, { m with locked := false }))

/-- Nobody is in the critical section and everything that took the lock has ended. -/
def Quiet (C : Config) (tr : List Event) : Prop :=
  (∀ t, ¬ Crit (C.loc t)) ∧ seqRun Machine.init (acqs tr) = (dones tr, C.m)

/-- One thread is in the critical section. -/
def Busy (C : Config) (tr : List Event) : Prop :=
  ∃ t c pre m0, (∀ t', t' ≠ t → ¬ Crit (C.loc t')) ∧ acqs tr = pre ++ [(t, c)] ∧
    seqRun Machine.init pre = (dones tr, m0) ∧ m0.locked = false ∧ Phase m0 c (C.loc t) C.m

theorem not_crit_update {loc : ℕ → Loc} {t : ℕ} {l : Loc} (h : ∀ t', t' ≠ t → ¬ Crit (loc t'))
    (hl : ¬ Crit l) (t' : ℕ) : ¬ Crit (Function.update loc t l t') := by
  by_cases e : t' = t
  · subst e; simpa using hl
  · rw [Function.update_of_ne e]; exact h t' e

theorem phase_not {m0 m : Machine} {c : Call} {l : Loc} (h : Phase m0 c l m) : Crit l := by
  rcases h with ⟨rfl, -⟩ | ⟨v, b, -, rfl, -, -⟩ | ⟨r, rfl, -, -⟩ <;> trivial

theorem phase_locked {m0 m : Machine} {c : Call} {l : Loc} (h : Phase m0 c l m) : m.locked = true := by
  rcases h with ⟨-, rfl⟩ | ⟨v, b, -, -, -, rfl⟩ | ⟨r, -, h, -⟩ <;> first | rfl | exact h

theorem acqs_snoc (tr : List Event) (e : Event) :
    acqs (tr ++ [e]) = acqs tr ++ (match e with | .acq t c => [(t, c)] | _ => []) := by
  cases e <;> simp [acqs]

theorem dones_snoc (tr : List Event) (e : Event) :
    dones (tr ++ [e]) = dones tr ++ (match e with | .done t r => [(t, r)] | _ => []) := by
  cases e <;> simp [dones]

/-- The invariant holds in every execution. -/
theorem exec_inv {C : Config} {tr : List Event} (h : Exec C tr) : Quiet C tr ∨ Busy C tr := by
  induction h with
  | init => left; exact ⟨fun _ => id, rfl⟩
  | @step C C' tr e _ s ih =>
    cases s with
    | @start t c h =>
      rcases ih with ⟨h1, h2⟩ | ⟨t0, c0, pre, m0, h1, h2, h3, h4, h5⟩
      · left
        refine ⟨not_crit_update (fun t' _ => h1 t') id, ?_⟩
        rw [acqs_snoc, dones_snoc]; simpa using h2
      · right
        have hne : t0 ≠ t := by
          rintro rfl
          have := phase_not h5; rw [h] at this; exact this
        refine ⟨t0, c0, pre, m0, ?_, ?_, ?_, h4, ?_⟩
        · intro t' ht'
          by_cases e : t' = t
          · subst e; simp [Crit]
          · simp only [Function.update_of_ne e]; exact h1 t' ht'
        · rw [acqs_snoc]; simpa using h2
        · rw [dones_snoc]; simpa using h3
        · simp only [Function.update_of_ne hne]; exact h5
    | @acquire t c h hl =>
      rcases ih with ⟨h1, h2⟩ | ⟨t0, c0, pre, m0, h1, h2, h3, h4, h5⟩
      · right
        refine ⟨t, c, acqs tr, C.m, ?_, ?_, ?_, hl, ?_⟩
        · intro t' ht'; simp only [Function.update_of_ne ht']; exact h1 t'
        · rw [acqs_snoc]
        · rw [dones_snoc]; simpa using h2
        · left; simp
      · rw [phase_locked h5] at hl; cases hl
    | @test t v b h hd =>
      rcases ih with ⟨h1, h2⟩ | ⟨t0, c0, pre, m0, h1, h2, h3, h4, h5⟩
      · have := h1 t; rw [h] at this; exact absurd trivial this
      · have ht : t = t0 := by
          by_contra hne; have := h1 t hne; rw [h] at this; exact this trivial
        subst ht
        right
        refine ⟨t, c0, pre, m0, ?_, ?_, ?_, h4, ?_⟩
        · intro t' ht'; simp only [Function.update_of_ne ht']; exact h1 t' ht'
        · rw [acqs_snoc]; simpa using h2
        · rw [dones_snoc]; simpa using h3
        · rcases h5 with ⟨e1, e2⟩ | ⟨v', b', e0, e1, e3, e2⟩ | ⟨r, e1, e2, e3⟩
          · rw [h] at e1; cases e1
            right; left
            refine ⟨v, b, rfl, by simp, ?_, e2⟩
            rw [e2] at hd; exact hd
          · rw [h] at e1; cases e1
          · rw [h] at e1; cases e1
    | @raise t v e h hd =>
      rcases ih with ⟨h1, h2⟩ | ⟨t0, c0, pre, m0, h1, h2, h3, h4, h5⟩
      · have := h1 t; rw [h] at this; exact absurd trivial this
      · have ht : t = t0 := by
          by_contra hne; have := h1 t hne; rw [h] at this; exact this trivial
        subst ht
        left
        refine ⟨not_crit_update h1 id, ?_⟩
        rcases h5 with ⟨e1, e2⟩ | ⟨v', b', e0, e1, e3, e2⟩ | ⟨r, e1, e2, e3⟩
        · rw [h] at e1; cases e1
          rw [acqs_snoc, dones_snoc, h2]
          simp only [List.append_nil]
          rw [seqRun_append, h3]
          rw [e2] at hd
          simp only at hd
          simp only [seqRun, seqCall, changeState, h4, hd, e2]
          simp
        · rw [h] at e1; cases e1
        · rw [h] at e1; cases e1
    | @writeState t v b h =>
      rcases ih with ⟨h1, h2⟩ | ⟨t0, c0, pre, m0, h1, h2, h3, h4, h5⟩
      · have := h1 t; rw [h] at this; exact absurd trivial this
      · have ht : t = t0 := by
          by_contra hne; have := h1 t hne; rw [h] at this; exact this trivial
        subst ht
        right
        refine ⟨t, c0, pre, m0, ?_, ?_, ?_, h4, ?_⟩
        · intro t' ht'; simp only [Function.update_of_ne ht']; exact h1 t' ht'
        · rw [acqs_snoc]; simpa using h2
        · rw [dones_snoc]; simpa using h3
        · rcases h5 with ⟨e1, e2⟩ | ⟨v', b', e0, e1, e3, e2⟩ | ⟨r, e1, e2, e3⟩
          · rw [h] at e1; cases e1
          · rw [h] at e1; cases e1
            right; right
            refine ⟨.ret b, by simp, by rw [e2], ?_⟩
            subst e0
            cases m0
            simp only at h4
            simp only [seqCall, changeState, h4, e2]
            simp only at e3
            rw [e3]
            rfl
          · rw [h] at e1; cases e1
    | @writeMission t mis h =>
      rcases ih with ⟨h1, h2⟩ | ⟨t0, c0, pre, m0, h1, h2, h3, h4, h5⟩
      · have := h1 t; rw [h] at this; exact absurd trivial this
      · have ht : t = t0 := by
          by_contra hne; have := h1 t hne; rw [h] at this; exact this trivial
        subst ht
        right
        refine ⟨t, c0, pre, m0, ?_, ?_, ?_, h4, ?_⟩
        · intro t' ht'; simp only [Function.update_of_ne ht']; exact h1 t' ht'
        · rw [acqs_snoc]; simpa using h2
        · rw [dones_snoc]; simpa using h3
        · rcases h5 with ⟨e1, e2⟩ | ⟨v', b', e0, e1, e3, e2⟩ | ⟨r, e1, e2, e3⟩
          · rw [h] at e1; cases e1
            right; right
            refine ⟨.ret true, by simp, by rw [e2], ?_⟩
            cases m0
            simp only at h4
            simp only [seqCall, setNextMission, h4, e2]
            rfl
          · rw [h] at e1; cases e1
          · rw [h] at e1; cases e1
    | @release t r h =>
      rcases ih with ⟨h1, h2⟩ | ⟨t0, c0, pre, m0, h1, h2, h3, h4, h5⟩
      · have := h1 t; rw [h] at this; exact absurd trivial this
      · have ht : t = t0 := by
          by_contra hne; have := h1 t hne; rw [h] at this; exact this trivial
        subst ht
        left
        refine ⟨not_crit_update h1 id, ?_⟩
        rcases h5 with ⟨e1, e2⟩ | ⟨v', b', e0, e1, e3, e2⟩ | ⟨r', e1, e2, e3⟩
        · rw [h] at e1; cases e1
        · rw [h] at e1; cases e1
        · rw [h] at e1; cases e1
          rw [acqs_snoc, dones_snoc, h2]
          simp only [List.append_nil]
          rw [seqRun_append, h3]
          simp [seqRun, e3]
    | @read t h =>
      rcases ih with ⟨h1, h2⟩ | ⟨t0, c0, pre, m0, h1, h2, h3, h4, h5⟩
      · left
        refine ⟨h1, ?_⟩
        rw [acqs_snoc, dones_snoc]; simpa using h2
      · right
        refine ⟨t0, c0, pre, m0, h1, ?_, ?_, h4, h5⟩
        · rw [acqs_snoc]; simpa using h2
        · rw [dones_snoc]; simpa using h3

/-- What a reader can see: the state after all the calls that ended, or after one more. -/
theorem current_of_inv {C : Config} {tr : List Event} (h : Quiet C tr ∨ Busy C tr) :
    ∃ k, (dones tr).length ≤ k ∧ k ≤ (acqs tr).length ∧
      C.m.current = (seqRun Machine.init ((acqs tr).take k)).2.current := by
  rcases h with ⟨-, h2⟩ | ⟨t0, c0, pre, m0, -, h2, h3, h4, h5⟩
  · refine ⟨(acqs tr).length, ?_, le_rfl, ?_⟩
    · rw [← seqRun_length Machine.init (acqs tr), h2]
    · rw [List.take_length, h2]
  · have hlen : (dones tr).length = pre.length := by
      rw [← seqRun_length Machine.init pre, h3]
    have hpre : (acqs tr).take pre.length = pre := by rw [h2]; simp
    rcases h5 with ⟨-, e2⟩ | ⟨v', b', -, -, -, e2⟩ | ⟨r, -, e2, e3⟩
    · refine ⟨pre.length, hlen.le, by rw [h2]; simp, ?_⟩
      rw [hpre, h3, e2]
    · refine ⟨pre.length, hlen.le, by rw [h2]; simp, ?_⟩
      rw [hpre, h3, e2]
    · refine ⟨(acqs tr).length, by rw [h2, hlen]; simp, le_rfl, ?_⟩
      rw [List.take_length, h2, seqRun_append, h3]
      simp [seqRun, e3]

theorem exec_prefix {C : Config} {tr tr1 tr2 : List Event} {e : Event} (h : Exec C tr)
    (htr : tr = tr1 ++ e :: tr2) : ∃ C1 C2, Exec C1 tr1 ∧ Step C1 e C2 := by
  induction h generalizing tr2 with
  | init => simp at htr
  | @step C C' tr e' h s ih =>
    rcases List.eq_nil_or_concat tr2 with rfl | ⟨l, x, rfl⟩
    · obtain ⟨rfl, rfl⟩ : tr = tr1 ∧ e' = e := by
        have := List.append_inj' htr rfl
        exact ⟨this.1, by simpa using this.2⟩
      exact ⟨C, C', h, s⟩
    · apply ih (tr2 := l)
      have h' : tr ++ [e'] = (tr1 ++ e :: l) ++ [x] := by rw [htr]; simp
      exact (List.append_inj' h' rfl).1

end Adcs.SM
