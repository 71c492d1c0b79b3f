import Verif.Props.Manager
import Verif.Props.AttFilter

set_option autoImplicit false

/-! # C131-C132: one call of the manager, and the rate the attitude filter is propagated with -/

namespace Adcs

open Str Ctl Sens JDay Quat Vec Dyn Man Obs Spec
open scoped Matrix

/-! ## C131 -/

/-- `est` is the estimate of the filters `f` given the reading `s`: position, velocity and attitude from the
filters, the rate without the estimated bias, everything else as read. -/
structure Estimates {n : ℕ} (f : Filters n) (s est : Measurements n) : Prop where
  pos : est.pos = fun i => f.pos.x (.inl i)
  vel : est.vel = fun i => f.pos.x (.inr i)
  att : est.att = f.att.q
  rate : est.rate = s.rate - f.att.b
  whl : est.whl = s.whl
  mag : est.mag = s.mag
  sun : est.sun = s.sun

theorem output_ok {n : ℕ} {f f' : Filters n} {t : Py (Measurements n)} {est : Measurements n}
    (h : (f.reading t).output = (.ok est, f')) :
    ∃ s, t = .ok s ∧ Estimates f s est ∧ f'.pos = f.pos ∧ f'.att = f.att ∧ f'.gyroDt = f.gyroDt ∧
      f'.gpsDt = f.gpsDt ∧ f'.lastW = some (s.rate - f.att.b) := by
  unfold Filters.output at h
  split at h
  · simp at h
  · rename_i s hs
    simp only [Prod.mk.injEq, Except.ok.injEq] at h
    have ht : t = .ok s := by
      unfold Truth.call at hs
      split at hs
      · cases hs
      · exact hs
    refine ⟨s, ht, ?_, ?_⟩
    · rw [← h.1]
      exact ⟨rfl, rfl, rfl, rfl, rfl, rfl, rfl⟩
    · rw [← h.2]
      exact ⟨rfl, rfl, rfl, rfl, rfl⟩

theorem propagates_ok {n : ℕ} {f f' : Filters n} {D : ℝ} (h : Propagates f D (.ok ()) f') :
    ∃ w, f.lastW = some w ∧ f'.pos = f.pos ∧ f'.gyroDt = f.gyroDt ∧ f'.gpsDt = f.gpsDt ∧
      AttLoop w f.gyroDt D f.gyroDt f.att f'.att ∧ D + 0.001 ≤ f.gpsDt := by
  cases h with
  | done hw ha hd => exact ⟨_, hw, rfl, rfl, rfl, ha, not_lt.1 fun h => hd (due_iff.2 (by linarith))⟩

theorem missionInput_ok {n : ℕ} {d d2 : Daemon n} {t : Py (Measurements n)} {md : MissionData}
    (h : d.missionInput t md = (.ok (), d2)) :
    ∃ est, (d.filter.reading t).output = (.ok est, d2.filter) ∧
      d.man.missionInput (.ok (castM d.hn est)) md = (.ok (), d2.man) := by
  have h1 := congrArg Prod.fst h
  have h2 := congrArg (fun r => r.2.filter) h
  have h3 := congrArg (fun r => r.2.man) h
  simp only [Daemon.missionInput] at h1 h2 h3
  cases hr : (d.filter.reading t).output.1 with
  | error e => rw [hr] at h1; simp [Except.map, Manager.missionInput] at h1
  | ok est =>
    rw [hr] at h1 h3
    exact ⟨est, Prod.ext hr h2, Prod.ext h1 h3⟩

/-- C131: what a call of `propagate` that returns has done. The new data (if any) went into the filters first;
the commands are those of `mission_input` for the estimate then; the attitude filter was then propagated with
the rate of that estimate, and the estimate returned is that of the filters afterwards. -/
theorem C131_order {n : ℕ} (d d' : Daemon n) (D : ℝ) (md : MissionData) (data : Option (V3 × V3 × V4))
    (t1 t2 : Py (Measurements n)) (mag : Fin 3 → ℝ) (rw : Cmd) (est : Measurements n)
    (h : d.Propagate D md data t1 t2 (.ok (mag, rw, est)) d') :
    ∃ (f1 : Filters n) (s1 s2 est1 : Measurements n),
      (data = none → f1 = d.filter) ∧
      (∀ x v q, data = some (x, v, q) → d.filter.update x v q = (.ok (), f1)) ∧
      t1 = .ok s1 ∧ Estimates f1 s1 est1 ∧
      d.man.missionInput (.ok (castM d.hn est1)) md = (.ok (), d'.man) ∧
      mag = d'.man.magCmd ∧ rw = d'.man.rwCmd ∧
      AttLoop est1.rate f1.gyroDt D f1.gyroDt f1.att d'.filter.att ∧
      t2 = .ok s2 ∧ Estimates d'.filter s2 est ∧
      d'.filter.pos = f1.pos ∧ D + 0.001 ≤ f1.gpsDt := by
  generalize hr : (Except.ok (mag, rw, est) : Py (Out n)) = r at h
  cases h with
  | sensorFail => cases hr
  | missionFail => cases hr
  | filterFail => cases hr
  | @output d1 d2 f hs hm hp =>
    -- sensor data
    have h1 : (data = none → d1.filter = d.filter) ∧
        (∀ x v q, data = some (x, v, q) → d.filter.update x v q = (.ok (), d1.filter)) ∧ d1.man = d.man := by
      rcases data with _ | ⟨x, v, q⟩
      · simp only [Daemon.sensorInput, Prod.mk.injEq, true_and] at hs
        subst hs
        exact ⟨fun _ => rfl, fun _ _ _ h => by simp at h, rfl⟩
      · simp only [Daemon.sensorInput, Prod.mk.injEq] at hs
        refine ⟨fun h => by simp at h, ?_, by rw [← hs.2]⟩
        intro x' v' q' h
        simp only [Option.some.injEq, Prod.mk.injEq] at h
        obtain ⟨rfl, rfl, rfl⟩ := h
        rw [← hs.2]
        exact Prod.ext hs.1 rfl
    obtain ⟨h1a, h1b, h1c⟩ := h1
    rcases d1 with ⟨f1, m1, hn1⟩
    simp only at h1a h1b h1c
    subst h1c
    -- mission
    obtain ⟨est1, ho, hm1⟩ := missionInput_ok hm
    simp only at ho hm1
    obtain ⟨s1, e1, e2, e3, e4, e5, e6, e7⟩ := output_ok ho
    obtain ⟨w, p1, p2, p3, p4, p5, p6⟩ := propagates_ok hp
    rw [e7] at p1
    obtain rfl := Option.some.inj p1
    -- final output
    simp only [Daemon.output] at hr ⊢
    rcases ho2 : (f.reading t2).output with ⟨r2, f2'⟩
    rw [ho2] at hr
    cases r2 with
    | error e => simp [Except.map] at hr
    | ok est2 =>
      simp only [Except.map, Except.ok.injEq, Prod.mk.injEq] at hr
      obtain ⟨rfl, rfl, rfl⟩ := hr
      obtain ⟨s2, g1, g2, g3, g4, g5, g6, g7⟩ := output_ok ho2
      refine ⟨f1, s1, s2, est1, h1a, h1b, e1, e2, ?_, rfl, rfl, ?_, g1, ?_, ?_, ?_⟩
      · exact hm1
      · simp only
        rw [g4, e2.rate, ← e5]
        rwa [e4] at p5
      · have hx : Estimates f s2 est := g2
        refine ⟨?_, ?_, ?_, ?_, hx.whl, hx.mag, hx.sun⟩
        · simp only; rw [g3]; exact hx.pos
        · simp only; rw [g3]; exact hx.vel
        · simp only; rw [g4]; exact hx.att
        · simp only; rw [g4]; exact hx.rate
      · simp only; rw [g3, p2, e3]
      · rw [← e6]; exact p6

/-- C131 as documented: with a truth model that works, data the filters take and a mode the manager handles,
`propagate` returns. -/
def C131_claim : Prop :=
  ∀ (n : ℕ) (d d1 d2 d' : Daemon n) (D : ℝ) (md : MissionData) (data : Option (V3 × V3 × V4))
    (s1 s2 : Measurements n) (r : Py (Out n)), 0 < d.filter.gyroDt → 0 < d.filter.gpsDt → 0 < D →
    d.filter.pos.output.1 ≠ 0 →
    d.sensorInput data = (.ok (), d1) → d1.missionInput (.ok s1) md = (.ok (), d2) →
    d.Propagate D md data (.ok s1) (.ok s2) r d' → ∃ o, r = .ok o

/-- A manager with a filter that is able to give estimates. -/
theorem exDaemon : ∃ (n : ℕ) (d : Daemon n), Reached d.man ∧ d.filter.gyroDt = 0.05 ∧ d.filter.gpsDt = 1 ∧
    d.filter.pos.output.1 ≠ 0 ∧ d.filter.lastW = none ∧
    ∀ s f, f.truth.sig = d.filter.truth.sig → (Filters.reading (n := n) f (.ok s)).output.1 ≠ .error .typeError ∧
      ∃ est, (Filters.reading (n := n) f (.ok s)).output = (.ok est, (f.reading (.ok s)).output.2) := by
  obtain ⟨model, h3, m, hm, -, -⟩ := exManager
  obtain ⟨s, hs, -⟩ := exState m.mag.sat.rw.n
  obtain ⟨c, lat, long, h', -, -, he⟩ := mkState_ok.1 hs
  have hp : s.attrs.position = ![6800000, 0, 0] := by rw [he]; rfl
  have hne : (Obs.Pos.init 1 s).output.1 ≠ 0 := fun h0 => by
    have := congrFun h0 0
    simp [Obs.Pos.Kalman.output, Obs.Pos.init, hp] at this
  refine ⟨m.mag.sat.rw.n, ⟨⟨⟨⟨["noisy"], []⟩, .error .typeError, none⟩, 0.05, 1, Obs.Pos.init 1 s,
    Obs.Att.init ![1, 0, 0, 0], none⟩, m, rfl⟩, .start hm, rfl, rfl, hne, rfl, ?_⟩
  intro s f hf
  simp [Filters.output, Truth.call, Filters.reading, hf, Sig.bind]

/-- C131 fails: in SLEEP, a call for one second with a position step of one second raises `AttributeError`. -/
theorem C131_returns_fails : ¬ C131_claim := by
  intro H
  obtain ⟨n, d, -, hg, hgps, hne, -, ho⟩ := exDaemon
  let s : Measurements n := ⟨0, 0, 0, 0, 0, 0, 0⟩
  obtain ⟨-, est, hest⟩ := ho s d.filter rfl
  obtain ⟨s1, e1, e2, e3, e4, e5, e6, e7⟩ := output_ok hest
  have hm : ∃ d2, d.missionInput (.ok s) ⟨1, []⟩ = (.ok (), d2) ∧ d2.filter = (d.filter.reading (.ok s)).output.2 := by
    refine ⟨(d.missionInput (.ok s) ⟨1, []⟩).2, Prod.ext ?_ rfl, rfl⟩
    simp only [Daemon.missionInput]
    rw [hest]
    simp [Except.map, Manager.missionInput, SM.State.value]
  obtain ⟨d2, hm, hf2⟩ := hm
  obtain ⟨f', hp, -⟩ := C112_due_fails d2.filter (s1.rate - d.filter.att.b) 1 (by rw [hf2, e7])
    (by rw [hf2, e5, hg]; norm_num) (by rw [hf2, e6, hgps]) (by rw [hf2, e3]; exact hne)
  obtain ⟨o, ho⟩ := H n d d d2 _ 1 ⟨1, []⟩ none s s _ (by rw [hg]; norm_num) (by rw [hgps]; norm_num) one_pos hne
    rfl hm (.filterFail rfl hm hp)
  cases ho

/-- C131 partial: when no step of the position filter is due, `propagate` ends, and it ends with an estimate.
Missing: `C131_returns_fails`. -/
theorem C131_returns_partial {n : ℕ} (d d1 d2 : Daemon n) (D : ℝ) (md : MissionData)
    (data : Option (V3 × V3 × V4)) (s1 s2 : Measurements n) (hg : 0 < d.filter.gyroDt)
    (hd : D + 0.001 ≤ d.filter.gpsDt)
    (hs : d.sensorInput data = (.ok (), d1)) (hm : d1.missionInput (.ok s1) md = (.ok (), d2)) :
    (∃ r d', d.Propagate D md data (.ok s1) (.ok s2) r d') ∧
    ∀ r d', d.Propagate D md data (.ok s1) (.ok s2) r d' → ∃ o, r = .ok o := by
  -- the filters keep their steps and their truth model
  have hu : ∀ (f : Filters n) x v q, (f.update x v q).2.gyroDt = f.gyroDt ∧ (f.update x v q).2.gpsDt = f.gpsDt := by
    intro f x v q
    unfold Filters.update
    split
    · exact ⟨rfl, rfl⟩
    · split <;> exact ⟨rfl, rfl⟩
  have h1 : d1.filter.gyroDt = d.filter.gyroDt ∧ d1.filter.gpsDt = d.filter.gpsDt := by
    rcases data with _ | ⟨x, v, q⟩
    · simp only [Daemon.sensorInput, Prod.mk.injEq, true_and] at hs
      subst hs; exact ⟨rfl, rfl⟩
    · simp only [Daemon.sensorInput, Prod.mk.injEq] at hs
      rw [← hs.2]; exact hu ..
  obtain ⟨est, hest', -⟩ := missionInput_ok hm
  have hest := congrArg Prod.fst hest'
  have hf2 := (congrArg Prod.snd hest').symm
  simp only at hest hf2
  obtain ⟨s, -, -, e3, e4, e5, e6, e7⟩ := output_ok hest'
  have hsig : d1.filter.truth.sig.bind 0 ["noisy"] = .ok () := by
    unfold Filters.output Truth.call at hest
    split at hest
    · cases hest
    · rename_i h
      split at h
      · cases h
      · rename_i hb; exact hb
  have hsig2 : d2.filter.truth.sig = d1.filter.truth.sig := by
    rw [hf2]
    unfold Filters.output
    split <;> rfl
  obtain ⟨⟨f', hp⟩, hall⟩ := C112_attitude_partial d2.filter _ D e7 (by rw [e5, h1.1]; exact hg)
    (by rw [e6, h1.2]; exact hd)
  refine ⟨⟨_, _, .output hs hm hp⟩, ?_⟩
  intro r d' h
  cases h with
  | sensorFail h => rw [hs] at h; simp at h
  | missionFail h h' =>
    rw [hs] at h
    simp only [Prod.mk.injEq, true_and] at h
    subst h
    rw [hm] at h'; simp at h'
  | filterFail h h' h'' =>
    rw [hs] at h
    simp only [Prod.mk.injEq, true_and] at h
    subst h
    rw [hm] at h'
    simp only [Prod.mk.injEq, true_and] at h'
    subst h'
    cases (hall _ _ h'').1
  | output h h' h'' =>
    rw [hs] at h
    simp only [Prod.mk.injEq, true_and] at h
    subst h
    rw [hm] at h'
    simp only [Prod.mk.injEq, true_and] at h'
    subst h'
    obtain ⟨-, a, -, rfl⟩ := hall _ _ h''
    have : ∃ e, (Filters.reading { d2.filter with att := a } (.ok s2)).output.1 = .ok e := by
      simp only [Filters.output, Truth.call, Filters.reading, hsig2, hsig]
      exact ⟨_, rfl⟩
    obtain ⟨e, he⟩ := this
    exact ⟨_, by simp only [Daemon.output]; rw [he]; rfl⟩

/-- A history of calls of `propagate` without sensor data that all return: their results, and the manager in
the end. -/
inductive Unaided {n : ℕ} : Daemon n → List (Out n) → Daemon n → Prop
  | nil {d} : Unaided d [] d
  | cons {d d' d'' D md t1 t2 o l} : Daemon.Propagate d D md none t1 t2 (.ok o) d' → Unaided d' l d'' →
      Unaided d (o :: l) d''

/-- C131: over any history of returning calls without sensor data, of whatever durations, the estimate of
position and velocity stands still. -/
theorem C131_frozen {n : ℕ} (d d' : Daemon n) (l : List (Out n)) (h : Unaided d l d') :
    (∀ o ∈ l, o.2.2.pos = d.filter.pos.output.1 ∧ o.2.2.vel = d.filter.pos.output.2) ∧
    d'.filter.pos = d.filter.pos := by
  induction h with
  | nil => exact ⟨fun _ h => by simp at h, rfl⟩
  | @cons d d1 d2 D md t1 t2 o l hp _ ih =>
    obtain ⟨mag, rw, est⟩ := o
    obtain ⟨f1, s1, s2, est1, h1, -, -, -, -, -, -, -, -, h2, h3, -⟩ := C131_order d d1 D md none t1 t2 mag rw est hp
    obtain rfl := h1 rfl
    refine ⟨?_, ih.2.trans h3⟩
    intro o ho
    rw [List.mem_cons] at ho
    rcases ho with rfl | ho
    · refine ⟨?_, ?_⟩
      · rw [← h3]; exact h2.pos
      · rw [← h3]; exact h2.vel
    · rw [← h3]; exact ih.1 o ho

/-- A call that returns: half a second in SLEEP with steps of 0.05 s and 1 s. -/
example : ∃ (n : ℕ) (d d' : Daemon n) (o : Out n), Reached d.man ∧ Unaided d [o] d' := by
  obtain ⟨n, d, hr, hg, hgps, hne, -, ho⟩ := exDaemon
  let s : Measurements n := ⟨0, 0, 0, 0, 0, 0, 0⟩
  obtain ⟨-, est, hest⟩ := ho s d.filter rfl
  have hm : d.missionInput (.ok s) ⟨1, []⟩ = (.ok (), (d.missionInput (.ok s) ⟨1, []⟩).2) := by
    refine Prod.ext ?_ rfl
    simp only [Daemon.missionInput]
    rw [hest]
    simp [Except.map, Manager.missionInput, SM.State.value]
  obtain ⟨⟨r, d', h⟩, hall⟩ := C131_returns_partial d d _ 0.5 ⟨1, []⟩ none s s (by rw [hg]; norm_num)
    (by rw [hgps]; norm_num) rfl hm
  obtain ⟨o, rfl⟩ := hall _ _ h
  exact ⟨n, d, d', o, hr, .cons h .nil⟩

/-! ## C132 -/

/-- C132: after `output`, a call of `propagate` for one gyro step turns the attitude estimate by the rate that
was read less the estimated bias; for filters that a history of calls has led to. -/
def C132_claim : Prop :=
  ∀ (n : ℕ) (f f1 f2 : Filters n) (s est : Measurements n) (D : ℝ) (q0 : V4) (l : List AttEvent),
    npNorm q0 = 1 → (∀ e ∈ l, e.Forward) → attRun (Att.init q0) l = .ok f.att →
    0 < f.gyroDt → f.gyroDt ≤ D → D + 0.001 < 2 * f.gyroDt →
    (f.reading (.ok s)).output = (.ok est, f1) → Propagates f1 D (.ok ()) f2 →
    f2.att.q = Att.omega (s.rate - f.att.b) f.gyroDt *ᵥ f.att.q

/-- C132 partial: the estimate is turned by the rate less twice the bias; so the claim holds for a filter whose
bias is zero. Missing: `C132_rate_fails`. -/
theorem C132_rate_partial {n : ℕ} (f f1 f2 : Filters n) (s est : Measurements n) (D : ℝ)
    (hg : 0 < f.gyroDt) (h1 : f.gyroDt ≤ D) (h2 : D + 0.001 < 2 * f.gyroDt)
    (ho : (f.reading (.ok s)).output = (.ok est, f1)) (hp : Propagates f1 D (.ok ()) f2) :
    f2.att.q = Att.omega (s.rate - 2 • f.att.b) f.gyroDt *ᵥ f.att.q := by
  obtain ⟨s', hs, -, e3, e4, e5, e6, e7⟩ := output_ok ho
  obtain rfl := Except.ok.inj hs
  obtain ⟨w, p1, -, -, -, p5, -⟩ := propagates_ok hp
  rw [e7] at p1
  obtain rfl := Option.some.inj p1
  obtain ⟨N, hN1, hN2, hN3⟩ := C111_steps_partial (s.rate - f.att.b) f1.gyroDt D f1.att (by rw [e5]; exact hg)
  rw [e5] at hN1 hN2
  have hN : N = 1 := by
    have a1 : 0 < N := by
      rcases Nat.eq_zero_or_pos N with h | h
      · rw [h] at hN2; norm_num at hN2; linarith
      · exact h
    have a2 : N < 2 := by
      rcases hN1 with h | h
      · omega
      · have : (N : ℝ) < 2 := by
          by_contra hc
          have : 2 * f.gyroDt ≤ N * f.gyroDt := mul_le_mul_of_nonneg_right (not_lt.1 hc) hg.le
          linarith
        exact_mod_cast this
    omega
  subst hN
  rw [(hN3 _).1 p5, e4, e5]
  simp only [Function.iterate_one, Att.Kalman.propagate]
  rw [two_smul, sub_sub]

/-- The only quaternion that a propagation by a rate that is not zero leaves alone is zero. -/
theorem omega_fixed {w : V3} {dt : ℝ} {q : V4} (hp : Att.psi w dt ≠ 0) (h : Att.omega w dt *ᵥ q = q) : q = 0 := by
  have h0 := congrFun h 0
  have h1 := congrFun h 1
  have h2 := congrFun h 2
  have h3 := congrFun h 3
  simp only [Att.omega, Matrix.mulVec, dotProduct, Fin.sum_univ_four] at h0 h1 h2 h3
  simp [Vec.cross] at h0 h1 h2 h3
  set p := Att.psi w dt with hpd
  set c := Real.cos (npNorm w * dt * 0.5) with hcd
  have hpos : 0 < p 0 ^ 2 + p 1 ^ 2 + p 2 ^ 2 := by
    by_contra hc
    apply hp
    apply vec3_ext <;> simp <;> nlinarith [sq_nonneg (p 0), sq_nonneg (p 1), sq_nonneg (p 2)]
  have hq0 : q 0 = 0 := by
    have : (p 0 ^ 2 + p 1 ^ 2 + p 2 ^ 2) * q 0 = 0 := by
      linear_combination p 0 * h1 + p 1 * h2 + p 2 * h3
    exact (mul_eq_zero.1 this).resolve_left hpos.ne'
  rw [hq0] at h0 h1 h2 h3
  have hs : (p 0 ^ 2 + p 1 ^ 2 + p 2 ^ 2) * (q 1 ^ 2 + q 2 ^ 2 + q 3 ^ 2) = 0 := by
    have a1 : p 0 * q 1 + p 1 * q 2 + p 2 * q 3 = 0 := by linear_combination -h0
    have b1 : p 2 * q 2 - p 1 * q 3 = 0 := by linear_combination h1
    have b2 : p 0 * q 3 - p 2 * q 1 = 0 := by linear_combination h2
    have b3 : p 1 * q 1 - p 0 * q 2 = 0 := by linear_combination h3
    linear_combination (p 0 * q 1 + p 1 * q 2 + p 2 * q 3) * a1 + (p 2 * q 2 - p 1 * q 3) * b1
      + (p 0 * q 3 - p 2 * q 1) * b2 + (p 1 * q 1 - p 0 * q 2) * b3
  have hs' := (mul_eq_zero.1 hs).resolve_left hpos.ne'
  apply vec4_ext <;> simp
  · exact hq0
  · nlinarith [sq_nonneg (q 1), sq_nonneg (q 2), sq_nonneg (q 3)]
  · nlinarith [sq_nonneg (q 1), sq_nonneg (q 2), sq_nonneg (q 3)]
  · nlinarith [sq_nonneg (q 1), sq_nonneg (q 2), sq_nonneg (q 3)]

/-- A measurement by a filter whose blocks are multiples of the unit matrix moves the bias by the correlation. -/
theorem measurement_bias {k : Att.Kalman} {a c d : ℝ} (hk : Covariance k.P)
    (hP : k.P = Matrix.fromBlocks (a • 1) (c • 1) (c • 1) (d • 1)) (ha : 0 < a) (h0 : k.dq = 0) (r : V4) :
    ∃ k', k.measurement r = .ok k' ∧
      k'.b = k.b + (c / (a + Att.sensorSigma ^ 2)) • vecPart (errorQuat r k.q) ∧
      k'.q = normalizeV (k.q + (0.5 * (a / (a + Att.sensorSigma ^ 2))) • (xi k.q *ᵥ vecPart (errorQuat r k.q))) := by
  have hs := pow_pos sensorSigma_pos 2
  have hi : innov k.P Att.R obsH = (a + Att.sensorSigma ^ 2) • (1 : M3) := by
    rw [innov, hP, obsH_P, Matrix.toBlocks_fromBlocks₁₁, Att.R]
    ext i j
    by_cases h : i = j <;> simp [h]
    ring
  have hne : a + Att.sensorSigma ^ 2 ≠ 0 := by positivity
  have hinv : ((a + Att.sensorSigma ^ 2) • (1 : M3))⁻¹ = (a + Att.sensorSigma ^ 2)⁻¹ • (1 : M3) := by
    refine Matrix.inv_eq_right_inv ?_
    rw [Matrix.smul_mul, Matrix.mul_smul, smul_smul, mul_inv_cancel₀ hne, one_smul, Matrix.mul_one]
  have hK : kgain k.P Att.R obsH = Matrix.fromRows ((a / (a + Att.sensorSigma ^ 2)) • (1 : M3))
      ((c / (a + Att.sensorSigma ^ 2)) • (1 : M3)) := by
    rw [kgain, hi, hinv, mul_obsH_T, Matrix.mul_smul, Matrix.mul_one, hP]
    ext (i | i) j
    · by_cases h : i = j <;> simp [h, div_eq_inv_mul]
    · by_cases h : i = j <;> simp [h, div_eq_inv_mul]
  refine ⟨_, measurement_eq hk r, ?_, ?_⟩
  · simp only [hK, Matrix.fromRows_mulVec, h0, sub_zero]
    rw [Sum.elim_comp_inr, Matrix.smul_mulVec, Matrix.one_mulVec]
  · simp only [hK, Matrix.fromRows_mulVec, h0, sub_zero]
    congr 2
    rw [Sum.elim_comp_inl, Matrix.smul_mulVec, Matrix.one_mulVec, Matrix.mulVec_smul, smul_smul]

/-- A second at rest correlates attitude and bias. -/
theorem rest_P (q : V4) : ∃ a c d : ℝ, ((Att.init q).propagate 0 1).P
      = Matrix.fromBlocks (a • 1) (c • 1) (c • 1) (d • 1) ∧ c < 0 ∧ -c ≤ a := by
  have hphi : Att.phi 0 1 = Matrix.fromBlocks 1 (-1) 0 1 := by
    simp [Att.phi, Att.phi11, Att.phi12, npNorm]
  refine ⟨Att.sensorSigma ^ 2 + Att.initialBias ^ 2 + (Att.gyroVar * 1 + 0.3333333 * Att.driftVar * 1 ^ 3),
    -Att.initialBias ^ 2 + 0.5 * Att.driftVar, Att.initialBias ^ 2 + Att.driftVar, ?_, ?_, ?_⟩
  · have h0 : (0 : V3) - (Att.init q).b = 0 := by simp [Att.init]
    simp only [Att.Kalman.propagate, h0, hphi, init_P, Att.G, Att.processNoise]
    simp only [Matrix.fromBlocks_transpose, Matrix.fromBlocks_multiply, Matrix.fromBlocks_add]
    congr 1 <;> ext i j <;> by_cases h : i = j <;> simp [h]
  · norm_num [Att.initialBias, Att.driftVar]
  · norm_num [Att.initialBias, Att.driftVar, Att.sensorSigma, Att.gyroVar]

/-- Such a history leads to a bias estimate that is not zero. -/
theorem biasReached : ∃ k, attRun (Att.init ![1, 0, 0, 0])
      [.propagate 0 1, .measurement ![0.8, 0.6, 0, 0]] = .ok k ∧
    k.b ≠ 0 ∧ npNorm k.b ≤ 0.6 ∧ k.q ≠ 0 := by
  obtain ⟨a, c, d, hP, hc, hca⟩ := rest_P ![1, 0, 0, 0]
  have ha : 0 < a := by linarith
  have hs := pow_pos sensorSigma_pos 2
  set k1 := (Att.init ![1, 0, 0, 0]).propagate 0 1 with hk1
  have hcov : Covariance k1.P :=
    (C81_propagate (Att.init ![1, 0, 0, 0]) (init_strict _).weaken 0 1 one_pos).weaken
  have hq1 : k1.q = ![1, 0, 0, 0] := by
    have h0 : (0 : V3) - (Att.init ![1, 0, 0, 0]).b = 0 := by simp [Att.init]
    rw [hk1]
    simp only [Att.Kalman.propagate, h0]
    apply vec4_ext <;> simp [Att.omega, Att.psi, npNorm, Att.init, Matrix.mulVec, dotProduct, Fin.sum_univ_four]
  have hb1 : k1.b = 0 := rfl
  obtain ⟨k, hk, hb, hq⟩ := measurement_bias hcov hP ha rfl ![0.8, 0.6, 0, 0]
  have hv : vecPart (errorQuat ![0.8, 0.6, 0, 0] k1.q) = ![0.6, 0, 0] := by
    rw [hq1]
    apply vec3_ext <;> simp [vecPart, errorQuat, product, conjugate, npCross]
  rw [hb1, zero_add, hv] at hb
  refine ⟨k, ?_, ?_, ?_, ?_⟩
  · simp only [attRun, AttEvent.apply]
    rw [← hk1, hk]
  · rw [hb]
    intro h
    have := congrFun h 0
    simp only [Pi.smul_apply, smul_eq_mul, Matrix.cons_val_zero, Pi.zero_apply] at this
    rcases mul_eq_zero.1 this with h | h
    · exact hc.ne ((div_eq_zero_iff.1 h).resolve_right (by positivity))
    · norm_num at h
  · rw [hb, npNorm_smul]
    have h1 : npNorm (![0.6, 0, 0] : V3) = 0.6 := by
      rw [npNorm, Fin.sum_univ_three, show ((![0.6, 0, 0] : V3) 0 ^ 2 + (![0.6, 0, 0] : V3) 1 ^ 2
        + (![0.6, 0, 0] : V3) 2 ^ 2) = (0.6 : ℝ) ^ 2 by norm_num, Real.sqrt_sq (by norm_num)]
    rw [h1]
    have : |c / (a + Att.sensorSigma ^ 2)| ≤ 1 := by
      rw [abs_div, abs_of_neg hc, abs_of_pos (by positivity), div_le_one (by positivity)]
      linarith
    nlinarith
  · rw [hq]
    intro h
    have h2 := npNorm_normalize (reset_ne k1.q ((a / (a + Att.sensorSigma ^ 2)) • ![0.6, 0, 0]) (by
      rw [hq1]; intro h; have := congrFun h 0; norm_num at this))
    rw [hv] at h
    rw [Matrix.mulVec_smul, smul_smul, h] at h2
    simp [npNorm] at h2

/-- C132 fails: the bias is subtracted twice, by `output` and by the filter. -/
theorem C132_rate_fails : ¬ C132_claim := by
  intro H
  obtain ⟨n, d, -, hg, hgps, hne, -, ho⟩ := exDaemon
  obtain ⟨k, hk, hb, hb1, hq⟩ := biasReached
  let s : Measurements n := ⟨0, 0, 0, k.b, 0, 0, 0⟩
  let f : Filters n := { d.filter with att := k, gyroDt := 1, gpsDt := 3 }
  obtain ⟨-, est, hest⟩ := ho s f rfl
  obtain ⟨s', hs', -, e3, e4, e5, e6, e7⟩ := output_ok hest
  obtain ⟨⟨f2, hp⟩, -⟩ := C112_attitude_partial (f.reading (.ok s)).output.2 _ 1 e7 (by rw [e5]; exact one_pos)
    (by rw [e6]; norm_num [f])
  have h1 := H n f _ f2 s est 1 ![1, 0, 0, 0] _ (npNorm_vec4 (by norm_num))
    (by norm_num [AttEvent.Forward]) hk one_pos (le_refl _) (by norm_num [f]) hest hp
  have h2 := C132_rate_partial f _ f2 s est 1 one_pos (le_refl _) (by norm_num [f]) hest hp
  rw [h2] at h1
  have hz : s.rate - f.att.b = 0 := sub_self _
  have hz2 : s.rate - 2 • f.att.b = -k.b := by
    change k.b - 2 • k.b = -k.b
    rw [two_smul]; abel
  have hw1 : Att.omega 0 f.gyroDt *ᵥ f.att.q = f.att.q := by
    apply vec4_ext <;> simp [Att.omega, Att.psi, npNorm, Matrix.mulVec, dotProduct, Fin.sum_univ_four, Vec.cross]
  rw [hz, hz2, hw1] at h1
  refine hq (omega_fixed ?_ h1)
  have hn : npNorm (-k.b) = npNorm k.b := by
    rw [← neg_one_smul ℝ, npNorm_smul]; norm_num
  have hpos := npNorm_pos hb
  have hsin : 0 < Real.sin (npNorm k.b * 1 * 0.5) :=
    Real.sin_pos_of_pos_of_lt_pi (by positivity) (by have := Real.pi_gt_three; linarith)
  simp only [Att.psi, hn, if_pos hpos.ne']
  intro h
  rcases smul_eq_zero.1 h with h | h
  · rcases div_eq_zero_iff.1 h with h | h
    · exact hsin.ne' h
    · exact hpos.ne' h
  · exact hb (neg_eq_zero.1 h)

end Adcs
