import Verif.Model.Shared
import Verif.Props.Integrator

set_option autoImplicit false

/-! # The integrator with clock references refines the one without -/

namespace Adcs.Dyn

open Adcs JDay Sens

theorem read_new {n : ℕ} (h : Clocks) (a : Raw n) (c : ℕ) :
    mkState a (some (h c)) = (RefState.new h a c).map (RefState.read h) := by
  unfold mkState RefState.new
  simp only
  cases attrsOf a (h c) <;> rfl

theorem new_clock {n : ℕ} {h : Clocks} {a : Raw n} {c : ℕ} {s : RefState n} (e : RefState.new h a c = .ok s) :
    s.clock = c ∧ s.arr = a := by
  unfold RefState.new at e
  cases ha : attrsOf a (h c) with
  | error x => rw [ha] at e; simp at e
  | ok t => rw [ha] at e; simp at e; subst e; exact ⟨rfl, rfl⟩

theorem read_add {n : ℕ} (h : Clocks) (s : RefState n) (o : Raw n) :
    (s.read h).add o = (s.add h o).map (RefState.read h) := read_new h _ _

theorem read_rk4 {n : ℕ} (f : SatState n → Py (Raw n)) (dt : ℝ) (h : Clocks) (s : RefState n) :
    rk4Step f dt (s.read h) = (rk4StepRef f dt h s).map (RefState.read h) := by
  unfold rk4Step rk4StepRef
  cases f (s.read h) with
  | error e => rfl
  | ok k1 =>
  simp only [read_add]
  cases s.add h ((dt / 2) • k1) with
  | error e => rfl
  | ok s2 =>
  simp only [Except.map]
  cases f (s2.read h) with
  | error e => rfl
  | ok k2 =>
  simp only
  cases s.add h ((dt / 2) • k2) with
  | error e => rfl
  | ok s3 =>
  simp only
  cases f (s3.read h) with
  | error e => rfl
  | ok k3 =>
  simp only
  cases s.add h (dt • k3) with
  | error e => rfl
  | ok s4 =>
  simp only
  cases f (s4.read h) with
  | error e => rfl
  | ok k4 => rfl

theorem rk4StepRef_clock {n : ℕ} {f : SatState n → Py (Raw n)} {dt : ℝ} {h : Clocks} {s s' : RefState n}
    (e : rk4StepRef f dt h s = .ok s') : s'.clock = s.clock := by
  unfold rk4StepRef at e
  repeat (split at e; · simp at e)
  exact (new_clock e).1

/-- One step is the step of the model without references, and changes no clock but its own. -/
theorem read_update {n : ℕ} (f : SatState n → Py (Raw n)) {h h' : Clocks} {g g' : RefInteg n} {r : Py Unit}
    (e : g.update f h = (r, h', g')) :
    (g.read h).update f = (r, g'.read h') ∧ g'.state.clock = g.state.clock ∧ g'.dt = g.dt ∧
      ∀ j, j ≠ g.state.clock → h' j = h j := by
  unfold RefInteg.update at e
  unfold Integ.update
  simp only [RefInteg.read, read_rk4]
  cases h1 : rk4StepRef f g.dt h g.state with
  | error x =>
    rw [h1] at e
    simp only [Prod.mk.injEq] at e
    obtain ⟨rfl, rfl, rfl⟩ := e
    exact ⟨rfl, rfl, rfl, fun _ _ => rfl⟩
  | ok next =>
    have hc := rk4StepRef_clock h1
    rw [h1] at e
    simp only [RefState.tick] at e
    simp only [Except.map, RefState.read]
    rcases h2 : (h next.clock).tick g.dt with ⟨_ | ⟨⟨⟩⟩, c⟩
    · rename_i x
      rw [h2] at e
      simp only [Prod.mk.injEq] at e
      obtain ⟨rfl, rfl, rfl⟩ := e
      refine ⟨by simp, hc, rfl, fun j hj => ?_⟩
      exact Function.update_of_ne (by rw [hc]; exact hj) _ _
    · rw [h2] at e
      simp only at e
      have hu : (SatState.mk { next.arr with att := Vec.normalizeV next.arr.att } (some c) next.attrs).update = ((RefState.update (Function.update h next.clock c)
          { next with arr := { next.arr with att := Vec.normalizeV next.arr.att } }).map
          (RefState.read (Function.update h next.clock c))) := by
        have := read_new (Function.update h next.clock c)
          { next.arr with att := Vec.normalizeV next.arr.att } next.clock
        rw [Function.update_self] at this
        exact this
      simp only []
      rw [hu]
      cases h3 : RefState.update (Function.update h next.clock c)
          { next with arr := { next.arr with att := Vec.normalizeV next.arr.att } } with
      | error x =>
        rw [h3] at e
        simp only [Prod.mk.injEq] at e
        obtain ⟨rfl, rfl, rfl⟩ := e
        refine ⟨by simp [Except.map], hc, rfl, fun j hj => ?_⟩
        exact Function.update_of_ne (by rw [hc]; exact hj) _ _
      | ok s' =>
        have hs := (new_clock h3).1
        rw [h3] at e
        simp only [Except.map] at e ⊢
        cases h4 : g.gyro.propagate g.dt g.rng with
        | error x =>
          rw [h4] at e
          simp only [Prod.mk.injEq] at e
          obtain ⟨rfl, rfl, rfl⟩ := e
          refine ⟨rfl, by simp only [hs, hc], rfl, fun j hj => ?_⟩
          exact Function.update_of_ne (by rw [hc]; exact hj) _ _
        | ok p =>
          rw [h4] at e
          simp only [Prod.mk.injEq] at e
          obtain ⟨rfl, rfl, rfl⟩ := e
          refine ⟨rfl, by simp only [hs, hc], rfl, fun j hj => ?_⟩
          exact Function.update_of_ne (by rw [hc]; exact hj) _ _

/-- A whole call, likewise. -/
theorem read_loop {n : ℕ} {f : SatState n → Py (Raw n)} {duration t : ℝ} {h h' : Clocks} {g g' : RefInteg n}
    {r : Py Unit} (e : RefLoop f duration t h g r h' g') :
    Loop f duration t (g.read h) (r, g'.read h') ∧ g'.state.clock = g.state.clock ∧ g'.dt = g.dt ∧
      ∀ j, j ≠ g.state.clock → h' j = h j := by
  induction e with
  | done hc => exact ⟨Loop.done hc, rfl, rfl, fun _ _ => rfl⟩
  | raise hc hu =>
    obtain ⟨h1, h2⟩ := read_update f hu
    exact ⟨Loop.raise hc h1, h2⟩
  | step hc hu _ ih =>
    obtain ⟨h1, h2, h3, h4⟩ := read_update f hu
    obtain ⟨i1, i2, i3, i4⟩ := ih
    refine ⟨Loop.step hc h1 i1, i2.trans h2, i3.trans h3, fun j hj => ?_⟩
    rw [i4 j (by rw [h2]; exact hj), h4 j hj]

/-- Every call of the model without references is one with references. -/
theorem loop_ref {n : ℕ} {f : SatState n → Py (Raw n)} {duration t : ℝ} {i : Integ n} {r : Py Unit × Integ n}
    (e : Loop f duration t i r) (h : Clocks) (g : RefInteg n) (hi : i = g.read h) :
    ∃ h' g', RefLoop f duration t h g r.1 h' g' ∧ r.2 = g'.read h' := by
  induction e generalizing h g with
  | done hc => exact ⟨h, g, .done hc, hi⟩
  | @raise t i e i' hc hu =>
    rcases hg : g.update f h with ⟨r, h', g'⟩
    obtain ⟨h1, -⟩ := read_update f hg
    rw [← hi, hu] at h1
    simp only [Prod.mk.injEq] at h1
    obtain ⟨rfl, rfl⟩ := h1
    exact ⟨h', g', .raise hc hg, rfl⟩
  | @step t i i' r hc hu _ ih =>
    rcases hg : g.update f h with ⟨r', h', g'⟩
    obtain ⟨h1, -⟩ := read_update f hg
    rw [← hi, hu] at h1
    simp only [Prod.mk.injEq] at h1
    obtain ⟨rfl, rfl⟩ := h1
    obtain ⟨h'', g'', i1, i2⟩ := ih h' g' rfl
    refine ⟨h'', g'', .step hc hg ?_, i2⟩
    have : i.dt = g.dt := by rw [hi]; rfl
    rw [← this]; exact i1

end Adcs.Dyn
