import Verif.Proofs.Shared

set_option autoImplicit false

/-! # C133, C134: states that share a clock -/

namespace Adcs

open JDay Dyn Sens

/-- The simulator an operation is applied to. -/
def opTarget {ι : Type} : WorldOp ι → ι
  | .integrate i _ => i
  | .tick i _ => i

/-- The time (s) an operation asks for. -/
def opTime {ι : Type} : WorldOp ι → ℝ
  | .integrate _ d => d
  | .tick _ d => d

/-- The time asked for in total, of the simulators that `p` selects. -/
noncomputable def asked {ι : Type} (p : ι → Prop) [DecidablePred p] (l : List (WorldOp ι)) : ℝ :=
  ((l.filter fun op => p (opTarget op)).map opTime).sum

/-- The durations are whole numbers of steps, and the ticks whole microseconds. -/
def WholeOps {ι : Type} (dt : ι → ℝ) (l : List (WorldOp ι)) : Prop :=
  ∀ op ∈ l, match op with
    | .integrate i d => ∃ k : ℕ, d = k * dt i
    | .tick _ d => ∃ us : ℤ, d * 1000000 = us

/-- Step sizes are whole microseconds, at least a millisecond. -/
def WholeSteps {ι : Type} (dt : ι → ℝ) : Prop := ∀ i, 0.001 ≤ dt i ∧ ∃ us : ℤ, dt i * 1000000 = us

/-- What one call does to the clocks. -/
theorem refLoop_time {n : ℕ} {f : SatState n → Py (Raw n)} {k : ℕ} {us : ℤ} {h h' : Clocks}
    {g g' : RefInteg n} (hdt : 0.001 ≤ g.dt) (hus : g.dt * 1000000 = us)
    (e : RefLoop f (k * g.dt) g.dt h g (.ok ()) h' g') :
    (h' g.state.clock).datetime = (h g.state.clock).datetime + k * us := by
  obtain ⟨h1, h2, -, -⟩ := read_loop e
  obtain ⟨c', e1, e2⟩ := C75_time f (g := g.read h) (c := h g.state.clock) k hdt hus rfl h1
  rw [← e2]
  have : some (h' g'.state.clock) = some c' := e1
  rw [← Option.some.inj this, h2]

/-- C133, what holds of every program: after any sequence of calls that return, a clock has advanced by the
time asked for of all the simulators that refer to it, and no simulator has changed its step or the clock it
refers to. -/
theorem C133_total {ι : Type} [DecidableEq ι] {n : ℕ} {f : ι → SatState n → Py (Raw n)} {w w' : World ι n}
    {l : List (WorldOp ι)} (hs : WholeSteps fun i => (w.sims i).dt) (hl : WholeOps (fun i => (w.sims i).dt) l)
    (h : World.Run f w l w') :
    (∀ c, ((w'.clocks c).datetime : ℝ) = (w.clocks c).datetime +
      1000000 * asked (fun i => (w.sims i).state.clock = c) l) ∧
    ∀ i, (w'.sims i).state.clock = (w.sims i).state.clock ∧ (w'.sims i).dt = (w.sims i).dt := by
  induction h with
  | nil => exact ⟨fun c => by simp [asked], fun i => ⟨rfl, rfl⟩⟩
  | @cons w op w1 l w2 h1 _ ih =>
    have key : (∀ c, ((w1.clocks c).datetime : ℝ) = (w.clocks c).datetime +
        1000000 * asked (fun i => (w.sims i).state.clock = c) [op]) ∧
        ∀ i, (w1.sims i).state.clock = (w.sims i).state.clock ∧ (w1.sims i).dt = (w.sims i).dt := by
      cases h1 with
      | @integrate i d h' g' e =>
        obtain ⟨k, rfl⟩ : ∃ k : ℕ, d = k * (w.sims i).dt := hl (.integrate i d) (by simp)
        obtain ⟨hdt, us, hus⟩ := hs i
        have ht := refLoop_time hdt hus e
        obtain ⟨-, e2, e3, e4⟩ := read_loop e
        refine ⟨fun c => ?_, fun j => ?_⟩
        · by_cases hc : (w.sims i).state.clock = c
          · subst hc
            have : ((h' (w.sims i).state.clock).datetime : ℝ) =
                (w.clocks (w.sims i).state.clock).datetime + k * us := by rw [ht]; push_cast; rfl
            simp only [asked, opTarget, opTime, List.filter_cons, List.filter_nil, decide_true, if_true,
              List.map_cons, List.map_nil, List.sum_cons, List.sum_nil, add_zero]
            rw [this, ← hus]; ring
          · have := e4 c (Ne.symm hc)
            simp [asked, opTarget, hc, this]
        · by_cases hj : j = i
          · subst hj; simpa using ⟨e2, e3⟩
          · simp [Function.update_of_ne hj]
      | @tick i d h' e =>
        obtain ⟨us, hus⟩ : ∃ us : ℤ, d * 1000000 = us := hl (.tick i d) (by simp)
        refine ⟨fun c => ?_, fun j => ⟨rfl, rfl⟩⟩
        unfold RefState.tick at e
        rcases ht : (w.clocks (w.sims i).state.clock).tick d with ⟨r, c1⟩
        rw [ht] at e
        simp only [Prod.mk.injEq] at e
        obtain ⟨rfl, rfl⟩ := e
        have := (C28_tick ht).2 us hus
        by_cases hc : (w.sims i).state.clock = c
        · subst hc
          simp only [Function.update_self, asked, opTarget, opTime, List.filter_cons, List.filter_nil,
            decide_true, if_true, List.map_cons, List.map_nil, List.sum_cons, List.sum_nil, add_zero]
          rw [this]; push_cast; rw [← hus]; ring
        · simp only [Function.update_of_ne (Ne.symm hc)]
          simp [asked, opTarget, hc]
    obtain ⟨k1, k2⟩ := key
    have hdt : (fun i => (w1.sims i).dt) = fun i => (w.sims i).dt := funext fun i => (k2 i).2
    obtain ⟨i1, i2⟩ := ih (by rw [hdt]; exact hs)
      (by rw [hdt]; exact fun o ho => hl o (List.mem_cons_of_mem _ ho))
    refine ⟨fun c => ?_, fun i => ⟨(i2 i).1.trans (k2 i).1, (i2 i).2.trans (k2 i).2⟩⟩
    rw [i1 c, k1 c]
    have hr : (fun i => (w1.sims i).state.clock = c) = fun i => (w.sims i).state.clock = c :=
      funext fun i => by rw [(k2 i).1]
    have ha : asked (fun i => (w1.sims i).state.clock = c) l = asked (fun i => (w.sims i).state.clock = c) l := by
      unfold asked
      simp only [(k2 _).1]
    rw [ha, add_assoc, ← mul_add]
    congr 2
    unfold asked
    simp only [List.filter_cons, List.filter_nil]
    split_ifs <;> simp

/-- The full claim: a simulator's clock advances by the time asked for of that simulator. -/
def C133_claim : Prop := ∀ (n : ℕ) (f : ℕ → SatState n → Py (Raw n)) (w w' : World ℕ n) (l : List (WorldOp ℕ)),
  WholeSteps (fun i => (w.sims i).dt) → WholeOps (fun i => (w.sims i).dt) l → World.Run f w l w' →
  ∀ i, ((w'.clocks (w.sims i).state.clock).datetime : ℝ) = (w.clocks (w.sims i).state.clock).datetime +
    1000000 * asked (fun j => j = i) l

/-- C133 partial: it holds when no two simulators refer to the same clock. Missing: simulators that do
(`C133_own_fails`). -/
theorem C133_own_partial {n : ℕ} {f : ℕ → SatState n → Py (Raw n)} {w w' : World ℕ n} {l : List (WorldOp ℕ)}
    (hd : ∀ i j, (w.sims i).state.clock = (w.sims j).state.clock → i = j)
    (hs : WholeSteps fun i => (w.sims i).dt) (hl : WholeOps (fun i => (w.sims i).dt) l) (h : World.Run f w l w')
    (i : ℕ) : ((w'.clocks (w.sims i).state.clock).datetime : ℝ) = (w.clocks (w.sims i).state.clock).datetime +
      1000000 * asked (fun j => j = i) l := by
  rw [(C133_total hs hl h).1]
  congr 2
  unfold asked
  congr 2
  apply List.filter_congr
  intro op _
  by_cases e : opTarget op = i
  · simp [e]
  · have : (w.sims (opTarget op)).state.clock ≠ (w.sims i).state.clock := fun h => e (hd _ _ h)
    simp [e, this]

/-- Two simulators made from states with one clock: when each has been asked for `k` steps, in any order and
interleaved with other calls, that clock has advanced by twice as much. -/
theorem C133_double {n : ℕ} {f : ℕ → SatState n → Py (Raw n)} {w w' : World ℕ n} {l : List (WorldOp ℕ)}
    {i j : ℕ} {T : ℝ} (hij : i ≠ j) (hc : (w.sims i).state.clock = (w.sims j).state.clock)
    (ho : ∀ m, (w.sims m).state.clock = (w.sims i).state.clock → m = i ∨ m = j)
    (hs : WholeSteps fun i => (w.sims i).dt) (hl : WholeOps (fun i => (w.sims i).dt) l) (h : World.Run f w l w')
    (h1 : asked (fun m => m = i) l = T) (h2 : asked (fun m => m = j) l = T) :
    ((w'.clocks (w.sims i).state.clock).datetime : ℝ) =
      (w.clocks (w.sims i).state.clock).datetime + 1000000 * (2 * T) := by
  rw [(C133_total hs hl h).1]
  congr 2
  have : asked (fun m => (w.sims m).state.clock = (w.sims i).state.clock) l =
      asked (fun m => m = i) l + asked (fun m => m = j) l := by
    clear h h1 h2 hl
    unfold asked
    induction l with
    | nil => simp
    | cons op l ih =>
      simp only [List.filter_cons]
      by_cases e1 : opTarget op = i
      · have e2 : opTarget op ≠ j := by rw [e1]; exact hij
        simp only [e1, decide_true, if_true, List.map_cons, List.sum_cons, ih]
        rw [if_neg (by simpa using hij)]; ring
      · by_cases e2 : opTarget op = j
        · simp only [e2, hc, decide_true, if_true, List.map_cons, List.sum_cons]
          rw [if_neg (by simpa using Ne.symm hij)]
          rw [hc] at ih
          rw [ih]
          simp only [List.map_cons, List.sum_cons]; ring
        · have e3 : (w.sims (opTarget op)).state.clock ≠ (w.sims i).state.clock := fun h => by
            rcases ho _ h with h | h <;> contradiction
          simp [e1, e2, e3, ih]
  rw [this, h1, h2]; ring

/-- A program with simulators on states with the same contents; the `i`-th refers to clock `ref i`. -/
theorem exShared (ref : ℕ → ℕ) : ∃ (w w' : World ℕ 4), (∀ i, (w.sims i).dt = 0.05) ∧
    (∀ i, (w.sims i).state.clock = ref i) ∧
    World.Run (fun _ _ => .ok (exSpin 4)) w [.integrate 0 0.05, .tick 1 0.05] w' := by
  set z3 : Sensor 3 := ⟨0, 0⟩
  set gy : Gyro := ⟨z3, 0, 0, 0, 0, 0, 0, 0⟩
  obtain ⟨s, i', hs, hr⟩ := exRun 4 gy (by simp [gy]) (by simp [gy]) fun _ => 0
  obtain ⟨-, ha, hc⟩ := C80_new hs
  set h : Clocks := fun _ => exClock
  set w : World ℕ 4 := ⟨h, fun i => ⟨⟨s.arr, ref i, s.attrs⟩, 0.05, gy, fun _ => 0⟩⟩ with hw
  have hs0 : (w.sims 0).state.read h = s := by
    cases s; simp only at hc; subst hc; rfl
  have hg : (⟨s, 0.05, gy, fun _ => 0⟩ : Integ 4) = (w.sims 0).read h := by
    rw [RefInteg.read, hs0]
  have hi := (C75_whole (fun _ => .ok (exSpin 4)) (g := ⟨s, 0.05, gy, fun _ => 0⟩) (by norm_num) 1
    (.ok (), i')).2 hr.symm
  obtain ⟨h', g', h1, -⟩ := loop_ref hi h (w.sims 0) hg
  have hd : (h' (ref 1)).datetime = exClock.datetime + 50000 ∨ (h' (ref 1)).datetime = exClock.datetime := by
    by_cases e : ref 1 = ref 0
    · left
      have := refLoop_time (g := w.sims 0) (us := 50000) (by simp only [w]; norm_num) (by simp only [w]; norm_num) h1
      rw [e]
      simpa [w] using this
    · right
      rw [(read_loop h1).2.2.2 (ref 1) e]
  refine ⟨w, ⟨Function.update h' (ref 1) ⟨(h' (ref 1)).datetime + 50000, (h' (ref 1)).absolute⟩,
    Function.update w.sims 0 g'⟩, fun _ => rfl, fun _ => rfl,
    .cons (w' := ⟨h', Function.update w.sims 0 g'⟩) (.integrate ?_) (.cons (.tick ?_) .nil)⟩
  · have := h1
    simpa using this
  · unfold RefState.tick JClock.tick
    rw [timedelta_whole (k := 50000) (by norm_num)]
    have : (Function.update w.sims 0 g' 1).state.clock = ref 1 := rfl
    simp only [this]
    have hr : InRange ((h' (ref 1)).datetime + 50000) := by
      rcases hd with hd | hd <;> (rw [hd]; unfold exClock InRange usDay; norm_num)
    simp only [if_pos hr]

theorem exShared_whole {w : World ℕ 4} (hdt : ∀ i, (w.sims i).dt = 0.05) :
    (WholeSteps fun i => (w.sims i).dt) ∧
      WholeOps (fun i => (w.sims i).dt) [.integrate 0 0.05, .tick 1 0.05] := by
  refine ⟨fun i => ?_, fun op ho => ?_⟩
  · simp only [hdt]; exact ⟨by norm_num, 50000, by norm_num⟩
  · simp only [List.mem_cons, List.not_mem_nil, or_false] at ho
    rcases ho with rfl | rfl
    · exact ⟨1, by simp [hdt]⟩
    · exact ⟨50000, by norm_num⟩

/-- Simulators with clocks of their own. -/
example : ∃ (w w' : World ℕ 4), (∀ i j, (w.sims i).state.clock = (w.sims j).state.clock → i = j) ∧
    (WholeSteps fun i => (w.sims i).dt) ∧
    WholeOps (fun i => (w.sims i).dt) [.integrate 0 0.05, .tick 1 0.05] ∧
    World.Run (fun _ _ => .ok (exSpin 4)) w [.integrate 0 0.05, .tick 1 0.05] w' := by
  obtain ⟨w, w', h1, h2, h3⟩ := exShared id
  exact ⟨w, w', fun i j h => by simpa [h2] using h, (exShared_whole h1).1, (exShared_whole h1).2, h3⟩

/-- Two simulators with one clock, as in `examples/observer_example.py` lines 27, 55 and 67. -/
example : ∃ (w w' : World ℕ 4), (w.sims 0).state.clock = (w.sims 1).state.clock ∧
    (∀ m, (w.sims m).state.clock = (w.sims 0).state.clock → m = 0 ∨ m = 1) ∧
    (WholeSteps fun i => (w.sims i).dt) ∧
    WholeOps (fun i => (w.sims i).dt) [.integrate 0 0.05, .tick 1 0.05] ∧
    World.Run (fun _ _ => .ok (exSpin 4)) w [.integrate 0 0.05, .tick 1 0.05] w' ∧
    asked (fun m => m = 0) [WorldOp.integrate 0 0.05, .tick 1 0.05] = 0.05 ∧
    asked (fun m => m = 1) [WorldOp.integrate 0 0.05, .tick 1 0.05] = 0.05 := by
  obtain ⟨w, w', h1, h2, h3⟩ := exShared fun i => i - 1
  refine ⟨w, w', by simp [h2], fun m h => ?_, (exShared_whole h1).1, (exShared_whole h1).2, h3, ?_, ?_⟩
  · simp only [h2] at h; omega
  · simp [asked, opTarget, opTime]
  · simp [asked, opTarget, opTime]

/-- C133 fails: of two simulators on one clock, the call of the first moves the clock of the second. -/
theorem C133_own_fails : ¬ C133_claim := by
  intro H
  obtain ⟨w, w', hdt, hc, hrun⟩ := exShared fun _ => 0
  obtain ⟨hS, hL⟩ := exShared_whole hdt
  have e := H 4 _ w w' _ hS hL hrun 0
  rw [(C133_total hS hL hrun).1] at e
  simp only [asked, opTarget, opTime, hc, decide_true, List.filter_cons, List.filter_nil, if_true, List.map_cons,
    List.map_nil, List.sum_cons, List.sum_nil] at e
  norm_num at e

/-! ## C134: the state given to a simulator -/

/-- The full claim: a call of the simulator leaves the state object it was made from as it was. -/
def C134_claim : Prop := ∀ (n : ℕ) (f : SatState n → Py (Raw n)) (duration : ℝ) (h h' : Clocks)
  (g g' : RefInteg n), 0.001 ≤ g.dt → RefLoop f duration g.dt h g (.ok ()) h' g' →
  g.state.read h' = g.state.read h

/-- C134 partial: contents and attributes of the state object stay as they were, whether or not the call
returns; its clock has advanced by the time that was simulated, so that the attributes are those of an
earlier time. A state with another clock is left alone. Missing: the clock. -/
theorem C134_initial_partial {n : ℕ} {f : SatState n → Py (Raw n)} {h h' : Clocks} {g g' : RefInteg n}
    {duration : ℝ} {r : Py Unit} (e : RefLoop f duration g.dt h g r h' g') :
    (g.state.read h').arr = (g.state.read h).arr ∧ (g.state.read h').attrs = (g.state.read h).attrs ∧
    (∀ s : RefState n, s.clock ≠ g.state.clock → s.read h' = s.read h) ∧
    (g.state.read h').clock = (g'.state.read h').clock ∧
    (∀ (k : ℕ) (us : ℤ), 0.001 ≤ g.dt → g.dt * 1000000 = us → duration = k * g.dt → r = .ok () →
      ∃ c c', (g.state.read h).clock = some c ∧ (g.state.read h').clock = some c' ∧
        c'.datetime = c.datetime + k * us) := by
  obtain ⟨-, e2, -, e4⟩ := read_loop e
  refine ⟨rfl, rfl, fun s hs => ?_, ?_, ?_⟩
  · simp only [RefState.read, e4 _ hs]
  · simp only [RefState.read, e2]
  · rintro k us hdt hus rfl rfl
    exact ⟨_, _, rfl, rfl, refLoop_time hdt hus e⟩

/-- C134 fails, in every call that makes a step of at least a millisecond. -/
theorem C134_initial_fails {n : ℕ} {f : SatState n → Py (Raw n)} {h h' : Clocks} {g g' : RefInteg n} {k : ℕ}
    {us : ℤ} (hdt : 0.001 ≤ g.dt) (hus : g.dt * 1000000 = us) (hk : 0 < k)
    (e : RefLoop f (k * g.dt) g.dt h g (.ok ()) h' g') : g.state.read h' ≠ g.state.read h := by
  intro H
  have h1 := refLoop_time hdt hus e
  have h2 : h' g.state.clock = h g.state.clock := by
    have := congrArg SatState.clock H
    simpa [RefState.read] using this
  rw [h2] at h1
  have hu : 0 < us := by
    have : (0 : ℝ) < us := by rw [← hus]; linarith
    exact_mod_cast this
  have : 0 < (k : ℤ) * us := mul_pos (by exact_mod_cast hk) hu
  omega

/-- C134 fails. -/
theorem C134_claim_fails : ¬ C134_claim := by
  intro H
  obtain ⟨w, w', hdt, -, hrun⟩ := exShared id
  cases hrun with
  | cons h1 _ =>
    cases h1 with
    | @integrate _ _ h g e =>
      have e' : RefLoop (fun _ => .ok (exSpin 4)) ((1 : ℕ) * (w.sims 0).dt) (w.sims 0).dt w.clocks (w.sims 0)
          (.ok ()) h g := by
        rw [show ((1 : ℕ) : ℝ) * (w.sims 0).dt = 0.05 by rw [hdt]; norm_num]; exact e
      exact C134_initial_fails (us := 50000) (by rw [hdt]; norm_num) (by rw [hdt]; norm_num) one_pos e'
        (H _ _ _ _ _ _ _ (by rw [hdt]; norm_num) e')

end Adcs
