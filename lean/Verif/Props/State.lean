import Verif.Proofs.State

set_option autoImplicit false

/-! # C80: state objects -/

namespace Adcs

open JDay Fr Dyn
open scoped Matrix

/-- Specification: the attributes of a state object are those of its contents and clock. -/
structure Consistent {n : ℕ} (s : SatState n) : Prop where
  position : s.attrs.position = s.arr.pos
  velocity : s.attrs.velocity = s.arr.vel
  attitude : s.attrs.attitude = s.arr.att
  bodyAngVel : s.attrs.bodyAngVel = s.arr.rate
  wheelVel : s.attrs.wheelVel = s.arr.whl
  x : s.attrs.x = s.arr.pos
  v : s.attrs.v = s.arr.vel
  length : 0 ≤ s.attrs.length ∧
    s.attrs.length ^ 2 = s.arr.pos 0 ^ 2 + s.arr.pos 1 ^ 2 + s.arr.pos 2 ^ 2
  rEcef : ∃ c, s.clock = some c ∧
    s.attrs.rEcef = ![Real.cos c.thetaGmst * s.arr.pos 0 + Real.sin c.thetaGmst * s.arr.pos 1,
      Real.cos c.thetaGmst * s.arr.pos 1 - Real.sin c.thetaGmst * s.arr.pos 0, s.arr.pos 2] ∧
    ∀ u, s.attrs.gciToEcef *ᵥ u = ![Real.cos c.thetaGmst * u 0 + Real.sin c.thetaGmst * u 1,
      Real.cos c.thetaGmst * u 1 - Real.sin c.thetaGmst * u 0, u 2]
  geodetic : ecefToLla s.attrs.rEcef = .ok (s.attrs.lat, s.attrs.long, s.attrs.h)

theorem mkState_consistent {n : ℕ} {a : Raw n} {clk : Option JClock} {s : SatState n}
    (h : mkState a clk = .ok s) : Consistent s ∧ s.arr = a ∧ s.clock = clk := by
  obtain ⟨c, lat, long, hh, rfl, hl, rfl⟩ := mkState_ok.1 h
  refine ⟨?_, rfl, rfl⟩
  constructor
  · rfl
  · rfl
  · rfl
  · rfl
  · rfl
  · rfl
  · rfl
  · exact ⟨npNorm_nonneg _, npNorm3_sq _⟩
  · refine ⟨c, rfl, ?_, fun u => ?_⟩
    · rw [inertialToEcef_mulVec]; apply vec3_ext <;> simp <;> ring
    · rw [inertialToEcef_mulVec]; apply vec3_ext <;> simp <;> ring
  · exact hl

/-- After construction with a clock the attributes are those of the contents. -/
theorem C80_new {n : ℕ} {a : Raw n} {c : JClock} {s : SatState n} (h : SatState.new a (some c) = .ok s) :
    Consistent s ∧ s.arr = a ∧ s.clock = some c := mkState_consistent h

/-- Construction without a clock raises. -/
theorem C80_no_clock {n : ℕ} (a : Raw n) : SatState.new a none = .error .attributeError := rfl

/-- Construction with a clock fails only if the geodetic conversion of the Earth-fixed position does. -/
theorem C80_constructible {n : ℕ} (a : Raw n) (c : JClock) :
    (∃ s, SatState.new a (some c) = .ok s) ↔
      ∃ r, ecefToLla ![Real.cos c.thetaGmst * a.pos 0 + Real.sin c.thetaGmst * a.pos 1,
        Real.cos c.thetaGmst * a.pos 1 - Real.sin c.thetaGmst * a.pos 0, a.pos 2] = .ok r := by
  have e : inertialToEcef c.thetaGmst *ᵥ a.pos =
      ![Real.cos c.thetaGmst * a.pos 0 + Real.sin c.thetaGmst * a.pos 1,
        Real.cos c.thetaGmst * a.pos 1 - Real.sin c.thetaGmst * a.pos 0, a.pos 2] := by
    rw [inertialToEcef_mulVec]; apply vec3_ext <;> simp <;> ring
  rw [← e]
  constructor
  · rintro ⟨s, hs⟩
    obtain ⟨c', lat, long, h, hc, hl, -⟩ := mkState_ok.1 hs
    obtain rfl := Option.some.inj hc
    exact ⟨_, hl⟩
  · rintro ⟨⟨lat, long, h⟩, hr⟩
    exact ⟨_, mkState_ok.2 ⟨c, lat, long, h, rfl, hr, rfl⟩⟩

/-- The sum of a state and an array has the elementwise sums, the clock of the state, and matching
attributes, whatever the attributes of the summand were. -/
theorem C80_add {n : ℕ} {s s' : SatState n} {o : Raw n} (h : s.add o = .ok s') :
    Consistent s' ∧ s'.arr.pos = s.arr.pos + o.pos ∧ s'.arr.vel = s.arr.vel + o.vel ∧
      s'.arr.att = s.arr.att + o.att ∧ s'.arr.rate = s.arr.rate + o.rate ∧
      s'.arr.whl = s.arr.whl + o.whl ∧ s'.clock = s.clock := by
  obtain ⟨h1, h2, h3⟩ := mkState_consistent h
  rw [h2]
  exact ⟨h1, rfl, rfl, rfl, rfl, rfl, h3⟩

/-- The contents left by a history of mutations: the last array assigned. -/
def lastArr {n : ℕ} (a : Raw n) : List (Mutation n) → Raw n
  | [] => a
  | .setArr b :: l => lastArr b l
  | _ :: l => lastArr a l

/-- Only assignments to entries change the array: not attribute assignment, clock changes or `update`. -/
theorem C80_array {n : ℕ} (l : List (Mutation n)) {s s' : SatState n} (h : mutate s l = .ok s') :
    s'.arr = lastArr s.arr l := by
  induction l generalizing s with
  | nil => simp only [mutate, Except.ok.injEq] at h; rw [← h]; rfl
  | cons m l ih =>
    simp only [mutate] at h
    cases hm : m.apply s with
    | error e => rw [hm] at h; simp at h
    | ok s1 =>
      rw [hm] at h
      have := ih h
      cases m with
      | setArr b =>
        simp only [Mutation.apply, Except.ok.injEq] at hm
        rw [this, ← hm]; rfl
      | setAttrs b =>
        simp only [Mutation.apply, Except.ok.injEq] at hm
        rw [this, ← hm]; rfl
      | attach c =>
        simp only [Mutation.apply, Except.ok.injEq] at hm
        rw [this, ← hm]; rfl
      | tick dt =>
        have e : s1.arr = s.arr := by
          simp only [Mutation.apply] at hm
          split at hm
          · simp at hm
          · split at hm
            · simp only [Except.ok.injEq] at hm; rw [← hm]
            · simp at hm
        rw [this, e]; rfl
      | update =>
        have e := (mkState_consistent hm).2.1
        rw [this, e]; rfl

/-- After any history of mutations that ends with `update` the attributes match the contents. -/
theorem C80_update {n : ℕ} (l : List (Mutation n)) {s s' : SatState n}
    (h : mutate s (l ++ [.update]) = .ok s') : Consistent s' ∧ s'.arr = lastArr s.arr l := by
  induction l generalizing s with
  | nil =>
    simp only [List.nil_append, mutate, Mutation.apply] at h
    cases hu : s.update with
    | error e => rw [hu] at h; simp at h
    | ok s1 =>
      rw [hu] at h
      simp only [Except.ok.injEq] at h
      subst h
      obtain ⟨h1, h2, -⟩ := mkState_consistent hu
      exact ⟨h1, h2⟩
  | cons m l ih =>
    have harr := C80_array _ h
    simp only [List.cons_append, mutate] at h
    cases hm : m.apply s with
    | error e => rw [hm] at h; simp at h
    | ok s1 =>
      rw [hm] at h
      obtain ⟨h1, h2⟩ := ih h
      refine ⟨h1, ?_⟩
      have aux : ∀ (l : List (Mutation n)) (a : Raw n), lastArr a (l ++ [.update]) = lastArr a l := by
        intro l
        induction l with
        | nil => intro a; rfl
        | cons m l ih => intro a; cases m <;> simp [lastArr, ih]
      rw [harr]
      exact aux (m :: l) s.arr

/-- Assigning the attribute `position` does not change the array, so a later `update` discards it; the
attribute itself is changed. -/
theorem C80_attribute {n : ℕ} (s : SatState n) (a : Attrs n) :
    ∃ s', Mutation.apply s (.setAttrs a) = .ok s' ∧ s'.attrs = a ∧ s'.arr = s.arr ∧
      s'.update = s.update := ⟨_, rfl, rfl, rfl, rfl⟩

/-- The older class `DynamicState` computes the same object. -/
theorem C80_dynamic_state {n : ℕ} (a b : Raw n) (c : Option JClock) (s : SatState n) :
    DynamicState.init a.pos a.vel a.att a.rate a.whl c = SatState.new a c ∧
    DynamicState.add s b = s.add b := ⟨rfl, rfl⟩

/-- The orbit position and time used in the library's examples: 422 km above the equator. -/
noncomputable def exRaw (n : ℕ) : Raw n :=
  ⟨![6800000, 0, 0], ![0, 6000, 4000], ![0.6, 0, 0.8, 0], ![0.1, 0.2, 0.3], fun _ => 100⟩

/-- A clock (2020). -/
noncomputable def exClock : JClock := ⟨usDay * 737600, 0⟩

theorem exState (n : ℕ) : ∃ s : SatState n, SatState.new (exRaw n) (some exClock) = .ok s ∧
    s.attrs.h = 421863 := by
  have h : (exRaw n).pos 0 ^ 2 + (exRaw n).pos 1 ^ 2 = 6800000 ^ 2 := by simp [exRaw]
  obtain ⟨s, hs, hh, -, -⟩ := mkState_equator (exRaw n) exClock (by simp [exRaw]) (by rw [h]; norm_num)
    (by
      rw [h, Real.sqrt_sq (by norm_num)]
      have := wgsE2_lt; have := wgsE2_pos
      unfold wgsA; nlinarith)
  refine ⟨s, hs, ?_⟩
  rw [hh, h, Real.sqrt_sq (by norm_num)]; norm_num

/-- A state can be constructed and updated after mutations. -/
example : ∃ s s' : SatState 4, SatState.new (exRaw 4) (some exClock) = .ok s ∧
    mutate s [.setAttrs { s.attrs with position := 0 }, .setArr (exRaw 4), .update] = .ok s' := by
  obtain ⟨s, hs, -⟩ := exState 4
  obtain ⟨c, lat, long, h, hc, hl, e⟩ := mkState_ok.1 hs
  refine ⟨s, s, hs, ?_⟩
  have hu : (SatState.mk (exRaw 4) s.clock { s.attrs with position := 0 }).update = .ok s := by
    unfold SatState.update
    rw [show s.clock = some exClock from (C80_new hs).2.2]; exact hs
  simp only [mutate, Mutation.apply, hu]

end Adcs
