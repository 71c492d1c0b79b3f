import Verif.Model.Alias
import Verif.Props.Daemon
import Verif.Props.PosFilter
import Verif.Props.Shared

set_option autoImplicit false

/-! # C202, C203: what the filters share with their callers -/

namespace Adcs

open Spec Obs Dyn JDay Quat Vec
open scoped Matrix

/-! ## C202: estimates that have been handed out -/

/-- The calls of one filter among those of a program. -/
def Spec.callsOf {ι : Type} [DecidableEq ι] (i : ι) : List (AttOp ι) → List AttEvent
  | [] => []
  | .measurement j q :: l => if j = i then .measurement q :: Spec.callsOf i l else Spec.callsOf i l
  | .propagate j w dt :: l => if j = i then .propagate w dt :: Spec.callsOf i l else Spec.callsOf i l
  | _ :: l => Spec.callsOf i l

/-- The program does not give the name of the filter to another one. -/
def Spec.keeps {ι : Type} (i : ι) (l : List (AttOp ι)) : Prop := ∀ a, AttOp.create i a ∉ l

/-- What holds between operations: references are to arrays that exist, and no two filters share the array of a bias. -/
structure Obs.AttWorld.Sound {ι : Type} (w : AttWorld ι) : Prop where
  known : ∀ i k, w.filters i = some k → k.q < w.arrays.nq ∧ k.b < w.arrays.nb
  apart : ∀ i j k k', i ≠ j → w.filters i = some k → w.filters j = some k' → k.b ≠ k'.b

/-- What an operation does to arrays that are there and are not a bias of the filter it is applied to. -/
theorem attStep_facts {ι : Type} [DecidableEq ι] {w : AttWorld ι} (hw : w.Sound) (op : AttOp ι) :
    (w.step op).Sound ∧ w.arrays.nq ≤ (w.step op).arrays.nq ∧ w.arrays.nb ≤ (w.step op).arrays.nb ∧
    (∀ a < w.arrays.nq, (w.step op).arrays.q a = w.arrays.q a) ∧
    (∀ a < w.arrays.nb, (∀ i k q, op = .measurement i q → w.filters i = some k → k.b ≠ a) →
      (w.step op).arrays.b a = w.arrays.b a) := by
  cases op with
  | array v =>
    have hs : w.step (.array v) = ⟨(w.arrays.newQ v).2, w.filters⟩ := rfl
    rw [hs]
    refine ⟨⟨fun i k h => ⟨Nat.lt_succ_of_lt (hw.known i k h).1, (hw.known i k h).2⟩, hw.apart⟩, Nat.le_succ _, le_rfl,
      fun a ha => ?_, fun a _ _ => rfl⟩
    exact Function.update_of_ne ha.ne _ _
  | create i a =>
    by_cases ha : a < w.arrays.nq
    · have hs : w.step (.create i a) = ⟨(AttRef.init w.arrays a).2,
          Function.update w.filters i (some (AttRef.init w.arrays a).1)⟩ := by simp only [AttWorld.step, if_pos ha]
      rw [hs]
      simp only [AttRef.init, Arrays.newB]
      refine ⟨⟨fun j k h => ?_, fun j l k k' hjl h h' => ?_⟩, le_rfl, Nat.le_succ _, by simp, fun c hc _ => ?_⟩
      · by_cases hj : j = i
        · subst hj
          simp only [Function.update_self, Option.some.injEq] at h
          subst h
          exact ⟨ha, Nat.lt_succ_self _⟩
        · simp only [Function.update_of_ne hj] at h
          exact ⟨(hw.known j k h).1, Nat.lt_succ_of_lt (hw.known j k h).2⟩
      · by_cases hj : j = i
        · subst hj
          simp only [Function.update_self, Option.some.injEq] at h
          simp only [Function.update_of_ne hjl.symm] at h'
          subst h
          exact (hw.known l k' h').2.ne'
        · simp only [Function.update_of_ne hj] at h
          by_cases hl : l = i
          · subst hl
            simp only [Function.update_self, Option.some.injEq] at h'
            subst h'
            exact (hw.known j k h).2.ne
          · simp only [Function.update_of_ne hl] at h'
            exact hw.apart j l k k' hjl h h'
      · exact Function.update_of_ne hc.ne _ _
    · have hs : w.step (.create i a) = w := by simp only [AttWorld.step, if_neg ha]
      rw [hs]
      exact ⟨hw, le_rfl, le_rfl, fun _ _ => rfl, fun _ _ _ => rfl⟩
  | measurement i qRef =>
    cases hf : w.filters i with
    | none =>
      have hs : w.step (.measurement i qRef) = w := by simp only [AttWorld.step, hf]
      rw [hs]
      exact ⟨hw, le_rfl, le_rfl, fun _ _ => rfl, fun _ _ _ => rfl⟩
    | some k =>
      cases hm : k.measurement w.arrays qRef with
      | error e =>
        have hs : w.step (.measurement i qRef) = w := by simp only [AttWorld.step, hf, hm]
        rw [hs]
        exact ⟨hw, le_rfl, le_rfl, fun _ _ => rfl, fun _ _ _ => rfl⟩
      | ok r =>
        have hs : w.step (.measurement i qRef) = ⟨r.2, Function.update w.filters i (some r.1)⟩ := by
          simp only [AttWorld.step, hf, hm]
        rw [hs]
        unfold AttRef.measurement at hm
        cases hg : (k.read w.arrays).gain with
        | error e => rw [hg] at hm; cases hm
        | ok K =>
          rw [hg] at hm
          simp only [AttRef.reset, Arrays.newQ, Except.ok.injEq] at hm
          subst hm
          refine ⟨⟨fun j l h => ?_, fun j l m m' hjl h h' => ?_⟩, Nat.le_succ _, le_rfl, fun a ha => ?_,
            fun a ha hne => ?_⟩
          · by_cases hj : j = i
            · subst hj
              simp only [Function.update_self, Option.some.injEq] at h
              subst h
              exact ⟨Nat.lt_succ_self _, (hw.known j k hf).2⟩
            · simp only [Function.update_of_ne hj] at h
              exact ⟨Nat.lt_succ_of_lt (hw.known j l h).1, (hw.known j l h).2⟩
          · have key : ∀ j m, Function.update w.filters i (some { k with
                P := (1 - Matrix.fromCols K (0 : Matrix I6 (Fin 3) ℝ)) * k.P, dq := 0, db := 0, q := w.arrays.nq }) j =
                  some m → ∃ m0, w.filters j = some m0 ∧ m0.b = m.b := by
              intro j m h
              by_cases hj : j = i
              · subst hj
                simp only [Function.update_self, Option.some.injEq] at h
                subst h
                exact ⟨k, hf, rfl⟩
              · rw [Function.update_of_ne hj] at h
                exact ⟨m, h, rfl⟩
            obtain ⟨m0, g1, g2⟩ := key j m h
            obtain ⟨m0', g1', g2'⟩ := key l m' h'
            rw [← g2, ← g2']
            exact hw.apart j l _ _ hjl g1 g1'
          · exact Function.update_of_ne ha.ne _ _
          · exact Function.update_of_ne (hne i k qRef rfl hf).symm _ _
  | propagate i u dt =>
    cases hf : w.filters i with
    | none =>
      have hs : w.step (.propagate i u dt) = w := by simp only [AttWorld.step, hf]
      rw [hs]
      exact ⟨hw, le_rfl, le_rfl, fun _ _ => rfl, fun _ _ _ => rfl⟩
    | some k =>
      have hs : w.step (.propagate i u dt) = ⟨(k.propagate w.arrays u dt).2,
          Function.update w.filters i (some (k.propagate w.arrays u dt).1)⟩ := by simp only [AttWorld.step, hf]
      rw [hs]
      simp only [AttRef.propagate, Arrays.newQ]
      refine ⟨⟨fun j l h => ?_, fun j l m m' hjl h h' => ?_⟩, Nat.le_succ _, le_rfl, fun a ha => ?_, by simp⟩
      · by_cases hj : j = i
        · subst hj
          simp only [Function.update_self, Option.some.injEq] at h
          subst h
          exact ⟨Nat.lt_succ_self _, (hw.known j k hf).2⟩
        · simp only [Function.update_of_ne hj] at h
          exact ⟨Nat.lt_succ_of_lt (hw.known j l h).1, (hw.known j l h).2⟩
      · by_cases hj : j = i
        · subst hj
          simp only [Function.update_self, Option.some.injEq] at h
          simp only [Function.update_of_ne hjl.symm] at h'
          subst h
          exact hw.apart j l k m' hjl hf h'
        · simp only [Function.update_of_ne hj] at h
          by_cases hl : l = i
          · subst hl
            simp only [Function.update_self, Option.some.injEq] at h'
            subst h'
            exact hw.apart j l m k hjl h hf
          · simp only [Function.update_of_ne hl] at h'
            exact hw.apart j l m m' hjl h h'
      · exact Function.update_of_ne ha.ne _ _

theorem attRun_sound {ι : Type} [DecidableEq ι] {w : AttWorld ι} (hw : w.Sound) (l : List (AttOp ι)) :
    (w.run l).Sound ∧ w.arrays.nq ≤ (w.run l).arrays.nq ∧ w.arrays.nb ≤ (w.run l).arrays.nb ∧
    ∀ a < w.arrays.nq, (w.run l).arrays.q a = w.arrays.q a := by
  induction l generalizing w with
  | nil => exact ⟨hw, le_rfl, le_rfl, fun _ _ => rfl⟩
  | cons op l ih =>
    obtain ⟨s1, s2, s3, s4, -⟩ := attStep_facts hw op
    obtain ⟨i1, i2, i3, i4⟩ := ih s1
    exact ⟨i1, s2.trans i2, s3.trans i3, fun a ha => (i4 a (ha.trans_le s2)).trans (s4 a ha)⟩

theorem attEmpty_sound (ι : Type) : (AttWorld.empty ι).Sound := ⟨fun _ _ h => (by cases h), fun _ _ _ _ _ h => (by cases h)⟩

/-- One operation, as seen by one filter: nothing or one call of the filter without references, and the filter keeps the
array of its bias. -/
theorem attStep_read {ι : Type} [DecidableEq ι] {w : AttWorld ι} (hw : w.Sound) {i : ι} {k : AttRef}
    (hk : w.filters i = some k) {op : AttOp ι} (hop : ∀ a, op ≠ .create i a) :
    ∃ k', (w.step op).filters i = some k' ∧ k'.b = k.b ∧
      ((Spec.callsOf i [op] = [] ∧ k'.read (w.step op).arrays = k.read w.arrays) ∨
      ∃ e, Spec.callsOf i [op] = [e] ∧
        ((∃ x, e.apply (k.read w.arrays) = .error x ∧ k'.read (w.step op).arrays = k.read w.arrays) ∨
          e.apply (k.read w.arrays) = .ok (k'.read (w.step op).arrays))) := by
  obtain ⟨-, -, -, f4, f5⟩ := attStep_facts hw op
  obtain ⟨kq, kb⟩ := hw.known i k hk
  have same : (w.step op).filters i = some k → (∀ i' k' q, op = .measurement i' q → w.filters i' = some k' → k'.b ≠ k.b) →
      Spec.callsOf i [op] = [] → ∃ k', (w.step op).filters i = some k' ∧ k'.b = k.b ∧
      ((Spec.callsOf i [op] = [] ∧ k'.read (w.step op).arrays = k.read w.arrays) ∨
      ∃ e, Spec.callsOf i [op] = [e] ∧
        ((∃ x, e.apply (k.read w.arrays) = .error x ∧ k'.read (w.step op).arrays = k.read w.arrays) ∨
          e.apply (k.read w.arrays) = .ok (k'.read (w.step op).arrays))) := by
    intro h1 h2 h3
    refine ⟨k, h1, rfl, .inl ⟨h3, ?_⟩⟩
    unfold AttRef.read
    rw [f4 _ kq, f5 _ kb h2]
  cases op with
  | array v => exact same hk (fun _ _ _ h => by cases h) rfl
  | create j a =>
    have hj : j ≠ i := fun e => hop a (by rw [e])
    refine same ?_ (fun _ _ _ h => by cases h) rfl
    simp only [AttWorld.step]
    split
    · simp only [Function.update_of_ne hj.symm, hk]
    · exact hk
  | measurement j q =>
    by_cases hj : j = i
    · subst hj
      have hc : Spec.callsOf j [AttOp.measurement j q] = [AttEvent.measurement q] := by simp [Spec.callsOf]
      cases hm : k.measurement w.arrays q with
      | error x =>
        have hs : w.step (.measurement j q) = w := by simp only [AttWorld.step, hk, hm]
        rw [hs]
        refine ⟨k, hk, rfl, .inr ⟨_, hc, .inl ⟨x, ?_, rfl⟩⟩⟩
        unfold AttRef.measurement at hm
        simp only [AttEvent.apply, Att.Kalman.measurement]
        cases hg : (k.read w.arrays).gain with
        | error e => rw [hg] at hm; cases hm; rfl
        | ok K => rw [hg] at hm; cases hm
      | ok r =>
        have hs : w.step (.measurement j q) = ⟨r.2, Function.update w.filters j (some r.1)⟩ := by
          simp only [AttWorld.step, hk, hm]
        rw [hs]
        refine ⟨r.1, Function.update_self _ _ _, ?_, .inr ⟨_, hc, .inr ?_⟩⟩
        all_goals
          unfold AttRef.measurement at hm
          cases hg : (k.read w.arrays).gain with
          | error e => rw [hg] at hm; cases hm
          | ok K =>
            rw [hg] at hm
            simp only [AttRef.reset, Arrays.newQ, Except.ok.injEq] at hm
            subst hm
            first
            | rfl
            | (simp only [AttEvent.apply, Att.Kalman.measurement, hg]
               simp [Att.Kalman.reset, AttRef.read])
    · refine same ?_ ?_ (by simp [Spec.callsOf, hj])
      · cases hf : w.filters j with
        | none => simpa only [AttWorld.step, hf] using hk
        | some l =>
          cases hm : l.measurement w.arrays q with
          | error x => simpa only [AttWorld.step, hf, hm] using hk
          | ok r => simp only [AttWorld.step, hf, hm, Function.update_of_ne (Ne.symm hj), hk]
      · rintro i' k' q' h h'
        simp only [AttOp.measurement.injEq] at h
        obtain ⟨rfl, -⟩ := h
        exact hw.apart _ _ _ _ hj h' hk
  | propagate j u dt =>
    by_cases hj : j = i
    · subst hj
      have hs : w.step (.propagate j u dt) = ⟨(k.propagate w.arrays u dt).2,
          Function.update w.filters j (some (k.propagate w.arrays u dt).1)⟩ := by simp only [AttWorld.step, hk]
      rw [hs]
      refine ⟨_, Function.update_self _ _ _, rfl, .inr ⟨.propagate u dt, by simp [Spec.callsOf], .inr ?_⟩⟩
      simp [AttEvent.apply, Att.Kalman.propagate, AttRef.propagate, AttRef.read, Arrays.newQ, Function.update_self]
    · refine same ?_ (fun _ _ _ h => by cases h) (by simp [Spec.callsOf, hj])
      cases hf : w.filters j with
      | none => simpa only [AttWorld.step, hf] using hk
      | some l => simp only [AttWorld.step, hf, Function.update_of_ne (Ne.symm hj), hk]

/-- The claim: arrays that `output` has returned keep their numbers, whatever the program does afterwards. -/
def C202_claim : Prop :=
  ∀ (l m : List (AttOp ℕ)) (i : ℕ) (k : AttRef), ((AttWorld.empty ℕ).run l).filters i = some k →
    (((AttWorld.empty ℕ).run l).run m).arrays.q k.output.1 = ((AttWorld.empty ℕ).run l).arrays.q k.output.1 ∧
    (((AttWorld.empty ℕ).run l).run m).arrays.b k.output.2 = ((AttWorld.empty ℕ).run l).arrays.b k.output.2

/-- The filter that an exception leaves as it was goes on with the next call. -/
noncomputable def Spec.onwards (k : Att.Kalman) (l : List AttEvent) : Att.Kalman :=
  l.foldl (fun k e => match e.apply k with | .ok k' => k' | .error _ => k) k

/-- C202: with references a filter goes through the same estimates as the filter of values, whatever is done with other
filters and arrays in between; it writes to one array for its bias for ever. -/
theorem C202_refines {ι : Type} [DecidableEq ι] {w : AttWorld ι} (hw : w.Sound) {i : ι} {k : AttRef}
    (hk : w.filters i = some k) {l : List (AttOp ι)} (hl : Spec.keeps i l) :
    ∃ k', (w.run l).filters i = some k' ∧ k'.b = k.b ∧
      k'.read (w.run l).arrays = Spec.onwards (k.read w.arrays) (Spec.callsOf i l) := by
  induction l generalizing w k with
  | nil => exact ⟨k, hk, rfl, rfl⟩
  | cons op l ih =>
    have hop : ∀ a, op ≠ .create i a := fun a e => hl a (by rw [e]; exact List.mem_cons_self)
    obtain ⟨k1, g1, g2, g3⟩ := attStep_read hw hk hop
    obtain ⟨k2, h1, h2, h3⟩ := ih (attStep_facts hw op).1 g1 (fun a ha => hl a (List.mem_cons_of_mem _ ha))
    refine ⟨k2, h1, h2.trans g2, ?_⟩
    have hrun : w.run (op :: l) = (w.step op).run l := rfl
    rw [hrun, h3]
    have hc : Spec.callsOf i (op :: l) = Spec.callsOf i [op] ++ Spec.callsOf i l := by
      cases op <;> simp only [Spec.callsOf] <;> first | rfl | (split_ifs <;> rfl)
    rw [hc]
    rcases g3 with ⟨e1, e2⟩ | ⟨e, e1, ⟨x, e2, e3⟩ | e2⟩
    · rw [e1, e2]; rfl
    · rw [e1, e3]
      simp only [Spec.onwards, List.singleton_append, List.foldl_cons, e2]
    · rw [e1]
      simp only [Spec.onwards, List.singleton_append, List.foldl_cons, e2]

/-- The program is one that can be written: it starts without filters. -/
theorem C202_reached (ι : Type) [DecidableEq ι] (l : List (AttOp ι)) : ((AttWorld.empty ι).run l).Sound :=
  (attRun_sound (attEmpty_sound ι) l).1

/-- Whenever it is looked at, the array of the bias that `output` returned holds the bias that the filter estimates
then. -/
theorem C202_bias {ι : Type} [DecidableEq ι] {w : AttWorld ι} (hw : w.Sound) {i : ι} {k : AttRef}
    (hk : w.filters i = some k) {l : List (AttOp ι)} (hl : Spec.keeps i l) :
    (w.run l).arrays.b k.output.2 = (Spec.onwards (k.read w.arrays) (Spec.callsOf i l)).b := by
  obtain ⟨k', -, e, h⟩ := C202_refines hw hk hl
  rw [← h]
  simp only [AttRef.read, AttRef.output, e]

/-- What holds: the quaternion that `output` returned keeps its numbers whatever the program does afterwards; the bias
does until the filter takes its next measurement. Missing: biases afterwards. -/
theorem C202_quaternion_partial {ι : Type} [DecidableEq ι] {w : AttWorld ι} (hw : w.Sound) {i : ι} {k : AttRef}
    (hk : w.filters i = some k) (l : List (AttOp ι)) :
    (w.run l).arrays.q k.output.1 = w.arrays.q k.output.1 ∧
    (Spec.keeps i l → (∀ q, AttEvent.measurement q ∉ Spec.callsOf i l) →
      (w.run l).arrays.b k.output.2 = w.arrays.b k.output.2) := by
  refine ⟨(attRun_sound hw l).2.2.2 _ (hw.known i k hk).1, fun hl hm => ?_⟩
  rw [C202_bias hw hk hl]
  have key : ∀ (l : List AttEvent) (k : Att.Kalman), (∀ q, AttEvent.measurement q ∉ l) → (Spec.onwards k l).b = k.b := by
    intro l
    induction l with
    | nil => exact fun _ _ => rfl
    | cons e l ih =>
      intro k h
      cases e with
      | measurement q => exact absurd List.mem_cons_self (h q)
      | propagate w dt =>
        have := ih (k.propagate w dt) fun q hq => h q (List.mem_cons_of_mem _ hq)
        exact this
  rw [key _ _ hm]
  rfl

/-- **C202** does not hold: the bias that was returned changes with the next measurement. -/
theorem C202_fails : ¬ C202_claim := by
  intro H
  obtain ⟨k, hk, hb, -, -⟩ := biasReached
  set l : List (AttOp ℕ) := [.array ![1, 0, 0, 0], .create 0 0] with hl
  set w := (AttWorld.empty ℕ).run l with hw
  set k0 : AttRef := ⟨0, 0, Matrix.fromBlocks (Matrix.diagonal fun _ => Att.sensorSigma ^ 2) 0 0
       (Matrix.diagonal fun _ => Att.initialBias ^ 2), 0, 0⟩ with hk0
  have hf : w.filters 0 = some k0 := by
    simp [hw, hl, AttWorld.run, AttWorld.step, AttWorld.empty, Arrays.newQ, AttRef.init, Arrays.newB, hk0]
  have hread : k0.read w.arrays = Att.init ![1, 0, 0, 0] := by
    simp [hw, hl, AttWorld.run, AttWorld.step, AttWorld.empty, Arrays.newQ, AttRef.init, Arrays.newB, hk0, AttRef.read,
      Att.init]
  set m : List (AttOp ℕ) := [.propagate 0 0 1, .measurement 0 ![0.8, 0.6, 0, 0]] with hm
  have h1 := (H l m 0 k0 hf).2
  rw [← hw, C202_bias (C202_reached ℕ l) hf (fun a => by simp [hm]), hread] at h1
  have hc : Spec.callsOf 0 m = [.propagate 0 1, .measurement ![0.8, 0.6, 0, 0]] := by simp [hm, Spec.callsOf]
  have hk2 : Spec.onwards (Att.init ![1, 0, 0, 0]) (Spec.callsOf 0 m) = k := by
    rw [hc]
    simp only [attRun, AttEvent.apply] at hk
    simp only [Spec.onwards, List.foldl_cons, List.foldl_nil, AttEvent.apply]
    cases hx : ((Att.init ![1, 0, 0, 0]).propagate 0 1).measurement ![0.8, 0.6, 0, 0] with
    | error e => rw [hx] at hk; cases hk
    | ok k' => rw [hx] at hk; exact Except.ok.inj hk
  rw [hk2] at h1
  refine hb (h1.trans ?_)
  have := congrArg Att.Kalman.b hread
  exact this

/-! ## C203: the state object that the position filter is given -/

/-- The claim: what is done with a position filter that was made from the state of a simulator leaves the simulated
satellite as it is. -/
def C203_claim : Prop :=
  ∀ (n : ℕ) (f : SatState n → Py (Raw n)) (clocks : Clocks) (objs : ℕ → RefState n) (next a : ℕ) (dt : ℝ)
    (gyro : Sens.Gyro) (rng : Sens.Rng) (mu : ℝ) (l : List PosOp) (w w' : PosWorld n) (op : PosOp), a < next →
    PosWorld.Run f (PosWorld.create clocks objs next a dt gyro rng mu) l w → PosWorld.Step f w op w' →
    (∀ d, op ≠ .integrate d) → w'.truth = w.truth

/-- References are to objects that exist. -/
def Obs.PosWorld.Known {n : ℕ} (w : PosWorld n) : Prop := w.simState < w.next ∧ w.filterState < w.next

theorem posStep_facts {n : ℕ} {f : SatState n → Py (Raw n)} {w w' : PosWorld n} {op : PosOp} (hw : w.Known)
    (h : PosWorld.Step f w op w') : w'.Known ∧ w'.dt = w.dt ∧ w'.filterState = w.filterState ∧
      (w.simState ≠ w.filterState → w'.simState ≠ w'.filterState) ∧
      ((∀ d, op ≠ .integrate d) → w.simState ≠ w.filterState → w'.truth = w.truth) := by
  cases h with
  | integrate e hc =>
    refine ⟨⟨Nat.lt_succ_self _, Nat.lt_succ_of_lt hw.2⟩, rfl, rfl, fun _ => hw.2.ne', fun h => absurd rfl (h _)⟩
  | idle hc => exact ⟨hw, rfl, rfl, id, fun h => absurd rfl (h _)⟩
  | update e =>
    refine ⟨hw, rfl, rfl, id, fun _ hne => ?_⟩
    simp only [PosWorld.truth, Function.update_of_ne hne]
  | propagate e => exact ⟨hw, rfl, rfl, id, fun _ _ => rfl⟩

theorem posRun_facts {n : ℕ} {f : SatState n → Py (Raw n)} {w w' : PosWorld n} {l : List PosOp} (hw : w.Known)
    (h : PosWorld.Run f w l w') : w'.Known ∧ w'.dt = w.dt ∧
      (w.simState ≠ w.filterState ∨ (∃ d, PosOp.integrate d ∈ l ∧ loopCond w.dt d) → w'.simState ≠ w'.filterState) := by
  induction h with
  | nil => exact ⟨hw, rfl, fun h => h.resolve_right (by simp)⟩
  | @cons w op w1 l w2 h1 _ ih =>
    obtain ⟨s1, s2, s3, s4, -⟩ := posStep_facts hw h1
    obtain ⟨i1, i2, i3⟩ := ih s1
    refine ⟨i1, i2.trans s2, fun h => i3 ?_⟩
    rcases h with h | ⟨d, hd, hc⟩
    · exact .inl (s4 h)
    · rcases List.mem_cons.1 hd with rfl | hd
      · cases h1 with
        | integrate e hc' => exact .inl hw.2.ne'
        | idle hn => exact absurd hc hn
      · exact .inr ⟨d, hd, by rw [s2]; exact hc⟩

/-- What holds: once the simulator has taken a step, nothing that is done with the filter changes the satellite.
Missing: before that. -/
theorem C203_after_partial {n : ℕ} {f : SatState n → Py (Raw n)} {clocks : Clocks} {objs : ℕ → RefState n} {next a : ℕ}
    {dt mu : ℝ} {gyro : Sens.Gyro} {rng : Sens.Rng} {l : List PosOp} {w w' : PosWorld n} {op : PosOp} (ha : a < next)
    (hl : ∃ d, PosOp.integrate d ∈ l ∧ loopCond dt d)
    (h : PosWorld.Run f (PosWorld.create clocks objs next a dt gyro rng mu) l w) (h1 : PosWorld.Step f w op w')
    (hop : ∀ d, op ≠ .integrate d) : w'.truth = w.truth := by
  obtain ⟨k, -, hne⟩ := posRun_facts ⟨ha, ha⟩ h
  exact (posStep_facts k h1).2.2.2.2 hop (hne (.inr hl))

/-- Before that, a measurement moves the simulated satellite to where the filter takes it to be. -/
theorem C203_moved {n : ℕ} {f : SatState n → Py (Raw n)} {w w' : PosWorld n} {x v : V3} (hs : w.simState = w.filterState)
    (hP : Covariance w.P) (h : PosWorld.Step f w (.update x v) w') :
    w'.truth.arr.pos = w'.filter.output.1 ∧ w'.truth.arr.vel = w'.filter.output.2 ∧
    w'.truth.arr.att = w.truth.arr.att ∧ w'.truth.arr.rate = w.truth.arr.rate ∧ w'.truth.arr.whl = w.truth.arr.whl ∧
    w'.truth.clock = w.truth.clock := by
  cases h with
  | @update _ _ k e =>
    obtain ⟨-, -, h3, -, h5, -⟩ := posUpdate_eq (k := w.filter) hP x v
    rw [e] at h3 h5
    have harr : k.state.arr = (posWritten w.filter x v).arr := by
      rcases h5 with h | h
      · rw [h]
      · unfold SatState.update mkState at h
        split at h
        · cases h
        · split at h
          · cases h
          · have := Except.ok.inj h
            rw [← this]
    simp only [PosWorld.truth, hs, Function.update_self, RefState.read, PosWorld.filter, Pos.Kalman.output, harr]
    rw [h3]
    refine ⟨rfl, rfl, ?_, ?_, ?_, trivial⟩ <;> simp [posWritten, PosWorld.filter, RefState.read]

/-- **C203** does not hold. -/
theorem C203_fails : ¬ C203_claim := by
  intro H
  set objs : ℕ → RefState 0 := fun _ =>
    ⟨⟨0, 0, 0, 0, 0⟩, 0, ⟨0, 0, 0, 0, 0, 0, 0, 0, 0, 0, 0, 0, 0⟩⟩ with hobjs
  set w : PosWorld 0 := PosWorld.create (fun _ => ⟨0, 0⟩) objs 1 0 1 ⟨⟨0, 0⟩, 0, 0, 0, 0, 0, 0, 0⟩ 0 0 with hw
  set e : I6 → ℝ := Sum.elim ![1, 0, 0] 0 with he
  set y : I6 → ℝ := ((1 : M6) + Pos.R) *ᵥ e with hy
  have h1 : Covariance (1 : M6) := by
    rw [show (1 : M6) = Matrix.diagonal fun _ => 1 from Matrix.diagonal_one.symm]
    exact Covariance.diagonal fun _ => zero_le_one
  have hd : ((1 : M6) + Pos.R).det ≠ 0 := (h1.add_strict posR_strict).det_ne
  have hstep : PosWorld.Step (fun _ => .error .valueError) w (.update (y ∘ Sum.inl) (y ∘ Sum.inr)) _ := .update rfl
  have hsame := H 0 (fun _ => .error .valueError) (fun _ => ⟨0, 0⟩) objs 1 0 1 ⟨⟨0, 0⟩, 0, 0, 0, 0, 0, 0, 0⟩ 0 0 [] w _ _
    one_pos .nil hstep (fun d h => by cases h)
  have hmoved := (C203_moved (w := w) rfl h1 hstep).1
  rw [hsame] at hmoved
  have hx : w.x = 0 := by
    funext i
    rcases i with i | i <;> rfl
  obtain ⟨-, -, h3, -, -, -⟩ := posUpdate_eq (k := w.filter) (show Covariance w.filter.P from h1) (y ∘ Sum.inl) (y ∘ Sum.inr)
  have hK : (w.filter.update (y ∘ Sum.inl) (y ∘ Sum.inr)).2.x = e := by
    rw [h3]
    change w.x + ((1 : M6) * (1 + Pos.R)⁻¹) *ᵥ (Sum.elim (y ∘ Sum.inl) (y ∘ Sum.inr) - w.x) = e
    rw [hx, Sum.elim_comp_inl_inr, one_mul, zero_add, sub_zero, hy, Matrix.mulVec_mulVec,
      Matrix.nonsing_inv_mul _ (isUnit_iff_ne_zero.2 hd), Matrix.one_mulVec]
  have h0 := congrFun hmoved 0
  simp only [PosWorld.filter, Pos.Kalman.output] at h0 hK
  rw [hK] at h0
  simp [he, PosWorld.truth, hw, PosWorld.create, hobjs, RefState.read] at h0

/-- A program that meets the conditions of `C203_after_partial`: a step of the simulator, then a fix. -/
example : ∃ (f : SatState 4 → Py (Raw 4)) (clocks : Clocks) (objs : ℕ → RefState 4) (dt : ℝ) (gyro : Sens.Gyro)
    (rng : Sens.Rng) (w w' : PosWorld 4), loopCond dt 0.05 ∧
    PosWorld.Run f (PosWorld.create clocks objs 1 0 dt gyro rng 0) [.integrate 0.05] w ∧
    PosWorld.Step f w (.update 1 0) w' := by
  obtain ⟨v, v', hdt, -, hrun⟩ := exShared id
  cases hrun with
  | cons h _ =>
    cases h with
    | integrate hl =>
      have hc : loopCond (v.sims 0).dt 0.05 := by rw [hdt]; right; norm_num
      exact ⟨_, v.clocks, fun _ => (v.sims 0).state, (v.sims 0).dt, (v.sims 0).gyro, (v.sims 0).rng, _, _, hc,
        .cons (.integrate (w := PosWorld.create v.clocks (fun _ => (v.sims 0).state) 1 0 (v.sims 0).dt (v.sims 0).gyro
          (v.sims 0).rng 0) hl hc) .nil, .update rfl⟩

/-- A program that meets the conditions of `C202_quaternion_partial`. -/
example : ∃ k, ((AttWorld.empty ℕ).run [.array ![1, 0, 0, 0], .create 0 0, .propagate 0 ![0, 0, 0.1] 1]).filters 0 = some k :=
  ⟨_, by simp [AttWorld.run, AttWorld.step, AttWorld.empty, Arrays.newQ, AttRef.init, Arrays.newB]; rfl⟩

end Adcs
