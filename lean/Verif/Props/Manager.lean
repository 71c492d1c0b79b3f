import Verif.Proofs.Manager
import Verif.Props.Pointing
import Verif.Props.PosFilter

set_option autoImplicit false

/-! # C60-C62, C104, C110-C112: the managers and the pair of filters -/

namespace Adcs

open Str Ctl Sens JDay Quat Vec Dyn Man
open scoped Matrix

/-! ## C60: commands match the commanded mode -/

/-- A manager that a history of calls of `mission_input` (successful or not) has led to. -/
inductive Reached : Manager → Prop
  | start {model : CtlModel} {h3 : model.sat.nMt = 3} {m : Manager} : Manager.init model h3 = .ok m → Reached m
  | call {m : Manager} (out : Py (Measurements m.mag.sat.rw.n)) (d : MissionData) : Reached m →
      Reached (m.missionInput out d).2

/-- No wheel is commanded. -/
def NoWheels (c : Cmd) : Prop := ∀ i, c.2 i = 0

/-- The claim: after a call that returns, SLEEP and FAILED command nothing, DETUMBLE no wheels, POINT no
torquers, and in UNSAFE, SAFE and MANUAL there is no command left over from before. -/
def C60_claim : Prop :=
  ∀ (m : Manager) (out : Py (Measurements m.mag.sat.rw.n)) (d : MissionData), Reached m →
    (m.missionInput out d).1 = .ok () →
    ((d.id = 1 ∨ d.id = 0) → (m.missionInput out d).2.magCmd = 0 ∧ NoWheels (m.missionInput out d).2.rwCmd) ∧
    (d.id = 5 → NoWheels (m.missionInput out d).2.rwCmd) ∧
    (d.id = 7 → (m.missionInput out d).2.magCmd = 0) ∧
    ((d.id = 2 ∨ d.id = 3 ∨ d.id = 8) →
      ((m.missionInput out d).2.magCmd = m.magCmd → m.magCmd = 0) ∧
      ((m.missionInput out d).2.rwCmd = m.rwCmd → NoWheels m.rwCmd))

theorem zeros4_isZero : NoWheels zeros4 := fun _ => rfl

/-- C60 partial: everything about the modes that are handled, whether or not the call raises an
exception. Missing: in UNSAFE, SAFE and MANUAL the commands stay as they were (`C60_stale_fails`). -/
theorem C60_modes_partial (m : Manager) (s : Measurements m.mag.sat.rw.n) (d : MissionData) :
    ((d.id = 1 ∨ d.id = 0) → (m.missionInput (.ok s) d).1 = .ok () ∧
      (m.missionInput (.ok s) d).2.magCmd = 0 ∧ NoWheels (m.missionInput (.ok s) d).2.rwCmd) ∧
    (d.id = 5 → (m.missionInput (.ok s) d).1 = .ok () → NoWheels (m.missionInput (.ok s) d).2.rwCmd) ∧
    (d.id = 5 → ∀ e, (m.missionInput (.ok s) d).1 = .error e →
      (m.missionInput (.ok s) d).2.magCmd = m.magCmd ∧ (m.missionInput (.ok s) d).2.rwCmd = m.rwCmd) ∧
    (d.id = 7 ∨ d.id = 4 → (m.missionInput (.ok s) d).2.magCmd = 0) ∧
    (d.id ∉ ([0, 1, 4, 5, 6, 7] : List ℤ) → m.missionInput (.ok s) d = (.ok (), m)) ∧
    ∀ e, m.missionInput (.error e) d = (.error e, m) := by
  refine ⟨?_, ?_, ?_, ?_, ?_, ?_⟩
  · rintro (h | h) <;> simp [Manager.missionInput, h, SM.State.value, zeros4_isZero]
  · intro h
    simp only [Manager.missionInput, h, SM.State.value]
    norm_num
    cases hr : (m.mag.detumble s).1 <;> simp [Manager.setMag, hr, zeros4_isZero]
  · intro h e
    simp only [Manager.missionInput, h, SM.State.value]
    norm_num
    cases hr : (m.mag.detumble s).1 <;> simp [Manager.setMag, hr]
  · rintro (h | h)
    · simp only [Manager.missionInput, h, SM.State.value]
      norm_num
      split
      · rename_i d1 d2 _ _
        unfold Manager.setRw
        split <;> rfl
      · rfl
    · simp only [Manager.missionInput, h, SM.State.value]
      norm_num
      split <;> rfl
  · intro h
    simp only [List.mem_cons, List.not_mem_nil, or_false, not_or] at h
    simp [Manager.missionInput, SM.State.value, h]
  · intro e; rfl

/-- C60 fails: spin down, then go to SAFE; the wheels keep being accelerated. -/
theorem C60_stale_fails : ¬ C60_claim := by
  intro H
  obtain ⟨model, h3, m, hm, h4, -⟩ := exManager
  let s : Measurements m.mag.sat.rw.n := ⟨0, 0, 0, 0, fun i => 100 * null4 (i.cast h4), 0, 0⟩
  have e1 : m.missionInput (.ok s) ⟨4, []⟩ =
      (.ok (), { m with magCmd := 0, rwCmd := ⟨4, spinCmd fun i => 100 * null4 i⟩ }) := by
    simp only [Manager.missionInput, SM.State.value]
    norm_num
    rw [spindown_cast h4]
    rfl
  have hr := Reached.call (.ok s) ⟨4, []⟩ (Reached.start hm)
  rw [e1] at hr
  set m2 : Manager := { m with magCmd := 0, rwCmd := ⟨4, spinCmd fun i => 100 * null4 i⟩ } with hm2
  obtain ⟨-, -, -, -, h5, -⟩ := C60_modes_partial m2 s ⟨3, []⟩
  have e2 := h5 (by norm_num)
  have h6 := ((H m2 (.ok s) ⟨3, []⟩ hr (by rw [e2])).2.2.2 (.inr (.inl rfl))).2 (by rw [e2])
  have h7 : spinCmd (fun i => 100 * null4 i) 0 = 0 := h6 0
  have h8 : nullSpeed (fun i => 100 * null4 i) = 100 := by norm_num [nullSpeed, null4]
  rw [spinCmd, h8, if_neg (by norm_num)] at h7
  norm_num [null4] at h7

/-! ## C61: spindown -/

/-- The wheel command of SPINDOWN for wheel speeds `w`: it never adds energy to the wheels, and takes
energy out of them until they are slow; while there is null motion it accelerates along the null motion
only; after that it brakes each wheel in proportion to its speed; and it is zero when the wheels are slow
and without null motion, which is also the condition for SLEEP. -/
theorem C61_command (m : Manager) (h4 : m.mag.sat.rw.n = 4) (s : Measurements m.mag.sat.rw.n)
    (rest : List V3) (w : Fin 4 → ℝ) (hw : ∀ i, s.whl i = w (i.cast h4)) :
    ∃ cmd : Fin 4 → ℝ, m.missionInput (.ok s) ⟨SM.State.SPINDOWN.value, rest⟩
        = (.ok (), { m with magCmd := 0, rwCmd := ⟨4, cmd⟩ }) ∧
      w ⬝ᵥ cmd ≤ 0 ∧
      (0.00001 ≤ |(-w 0 + w 1 - w 2 + w 3) / 2| →
        cmd = (-((-w 0 + w 1 - w 2 + w 3) / 2) / 2) • ![-1, 1, -1, 1] ∧ w ⬝ᵥ cmd < 0) ∧
      (|(-w 0 + w 1 - w 2 + w 3) / 2| < 0.00001 → 0.01 ≤ npNorm w →
        (∃ c : ℝ, 0 < c ∧ c < 1 ∧ cmd = (-c) • w) ∧ w ⬝ᵥ cmd < 0) ∧
      (|(-w 0 + w 1 - w 2 + w 3) / 2| < 0.00001 → npNorm w < 0.01 → cmd = 0) := by
  have hsw : spindown s.whl = .ok ⟨4, spinCmd w⟩ := by
    rw [spindown_cast h4]
    congr 3
    funext i
    rw [hw]
    rfl
  have hd : w ⬝ᵥ null4 = nullSpeed w := sum_null4 w
  have h1 : 0.00001 ≤ |nullSpeed w| → spinCmd w = (-nullSpeed w / 2) • ![-1, 1, -1, 1] ∧ w ⬝ᵥ spinCmd w < 0 := by
    intro h
    rw [spinCmd, if_neg (not_lt.2 h)]
    constructor
    · rw [null4_eq, smul_smul]; congr 1; ring
    · rw [dotProduct_smul, hd, smul_eq_mul]
      have : 0 < |nullSpeed w| := by linarith
      have := pow_pos this 2
      rw [sq_abs] at this
      nlinarith
  have h2 : |nullSpeed w| < 0.00001 → 0.01 ≤ npNorm w →
      (∃ c : ℝ, 0 < c ∧ c < 1 ∧ spinCmd w = (-c) • w) ∧ w ⬝ᵥ spinCmd w < 0 := by
    intro h h'
    rw [spinCmd, if_pos h, if_neg (not_lt.2 h')]
    refine ⟨⟨_, spinMult_pos, spinMult_lt, rfl⟩, ?_⟩
    rw [dotProduct_smul, smul_eq_mul, ← npDot_eq_dotProduct, ← npNorm_sq_dot]
    have := spinMult_pos
    have : 0 < npNorm w ^ 2 := by positivity
    nlinarith
  have h3 : |nullSpeed w| < 0.00001 → npNorm w < 0.01 → spinCmd w = 0 := by
    intro h h'
    rw [spinCmd, if_pos h, if_pos h']
  refine ⟨spinCmd w, ?_, ?_, h1, h2, h3⟩
  · simp only [Manager.missionInput, SM.State.value]
    norm_num
    rw [hsw]
  · by_cases h : |nullSpeed w| < 0.00001
    · by_cases h' : npNorm w < 0.01
      · rw [h3 h h', dotProduct_zero]
      · exact (h2 h (not_lt.1 h')).2.le
    · exact (h1 (not_lt.1 h)).2.le

/-- For the wheels on a pyramid, all alike: while there is null motion, the commanded accelerations put no
torque on the body. -/
theorem C61_no_torque (θ φ : ℝ) (hθ0 : 0 < θ) (hθ1 : θ < Real.pi / 2) (J : ℝ) (hJ : 0 < J)
    (orth : Fin 4 → ℝ) (maxT : ℝ) (lim : Bool) (m : Manager)
    (hrw : RWSystem.init (mkWheels (pyramid θ φ) (fun _ => J) orth) maxT lim = .ok m.mag.sat.rw)
    (h4 : m.mag.sat.rw.n = 4) (s : Measurements m.mag.sat.rw.n) (rest : List V3) (w : Fin 4 → ℝ)
    (hw : ∀ i, s.whl i = w (i.cast h4)) (hnull : 0.00001 ≤ |(-w 0 + w 1 - w 2 + w 3) / 2|) :
    ∃ cmd : Fin 4 → ℝ,
      (m.missionInput (.ok s) ⟨SM.State.SPINDOWN.value, rest⟩).2.rwCmd = ⟨4, cmd⟩ ∧
      m.mag.sat.rw.torque (fun i => cmd (i.cast h4)) = 0 := by
  obtain ⟨cmd, h1, -, h2, -⟩ := C61_command m h4 s rest w hw
  refine ⟨cmd, by rw [h1], ?_⟩
  obtain ⟨s', hs', hn, h⟩ := C41_null_motion θ φ hθ0 hθ1 J hJ orth maxT lim
  obtain rfl : s' = m.mag.sat.rw := Except.ok.inj (hs'.symm.trans hrw)
  exact (h cmd).1.2 ⟨_, (h2 hnull).1⟩

/-- Applied again and again with a time step below two seconds, the commands of SPINDOWN bring the wheels to
the condition for SLEEP, which then holds for good, with the wheels at a constant speed. -/
theorem C61_stops (dt : ℝ) (h0 : 0 < dt) (h2 : dt < 2) (rest : List V3) (m : ℕ → Manager)
    (h4 : ∀ k, (m k).mag.sat.rw.n = 4) (s : ∀ k, Measurements (m k).mag.sat.rw.n)
    (w : ℕ → Fin 4 → ℝ) (hs : ∀ k i, (s k).whl i = w k (i.cast (h4 k)))
    (hm : ∀ k, m (k + 1) = ((m k).missionInput (.ok (s k)) ⟨SM.State.SPINDOWN.value, rest⟩).2)
    (hw : ∀ k cmd, (m (k + 1)).rwCmd = ⟨4, cmd⟩ → w (k + 1) = w k + dt • cmd) :
    ∃ K, ∀ k ≥ K, w k = w K ∧ ∃ cmd, (m (k + 1)).rwCmd = ⟨4, cmd⟩ ∧
      ∀ env : SM.Env, (⟨env.nWheels, env.wheelVel⟩ : Cmd) = ⟨4, w k⟩ →
        (⟨env.nWheels, env.whlAccl⟩ : Cmd) = ⟨4, cmd⟩ → SM.spindownTransition env = .ok .SLEEP := by
  have hcmd : ∀ k, (m (k + 1)).rwCmd = ⟨4, spinCmd (w k)⟩ := by
    intro k
    have hsw : spindown (s k).whl = .ok ⟨4, spinCmd (w k)⟩ := by
      rw [spindown_cast (h4 k)]
      congr 3
      funext i
      rw [hs]
      rfl
    rw [hm]
    simp only [Manager.missionInput, SM.State.value]
    norm_num
    rw [hsw]
  obtain ⟨K, hK⟩ := spinSeq_stops h0 h2 (fun k => hw k _ (hcmd k))
  refine ⟨K, fun k hk => ⟨(hK k hk).2.2, _, hcmd k, ?_⟩⟩
  rintro ⟨i1, i2, i3, n, wv, wm, cc, wa⟩ he1 he2
  simp only at he1 he2
  obtain rfl : n = 4 := congrArg Sigma.fst he1
  have e1 : wv = w k := by simpa using he1
  have e2 : wa = spinCmd (w k) := by simpa using he2
  subst e1 e2
  simp only [SM.spindownTransition]
  rw [if_pos]
  rw [(hK k hk).1]
  exact ⟨by rw [npNorm_zero4]; norm_num, (hK k hk).2.1⟩

/-- There are such runs from all wheel speeds: four wheels of a constructed manager. -/
example (dt : ℝ) (w0 : Fin 4 → ℝ) : ∃ (m : ℕ → Manager) (h4 : ∀ k, (m k).mag.sat.rw.n = 4)
    (s : ∀ k, Measurements (m k).mag.sat.rw.n) (w : ℕ → Fin 4 → ℝ),
    w 0 = w0 ∧ Reached (m 0) ∧ (∀ k i, (s k).whl i = w k (i.cast (h4 k))) ∧
    (∀ k, m (k + 1) = ((m k).missionInput (.ok (s k)) ⟨SM.State.SPINDOWN.value, []⟩).2) ∧
    ∀ k cmd, (m (k + 1)).rwCmd = ⟨4, cmd⟩ → w (k + 1) = w k + dt • cmd := by
  obtain ⟨model, h3, m, hm, h4, -⟩ := exManager
  have hz : m.magCmd = 0 ∧ m.rwCmd = zeros4 := by
    cases hc : model.clock with
    | none =>
      unfold Manager.init at hm
      split at hm
      · cases hm
      · rename_i he; rw [MagController.init, hc] at he; cases he
    | some c =>
      obtain ⟨m', h1, h2, h3, -⟩ := managerInit_eq (h3 := h3) hc
      obtain rfl : m' = m := Except.ok.inj (h1.symm.trans hm)
      exact ⟨h2, h3⟩
  let w := spinSeq dt w0
  let M : ℕ → Manager := fun k =>
    { m with magCmd := 0, rwCmd := match k with | 0 => zeros4 | k + 1 => ⟨4, spinCmd (w k)⟩ }
  refine ⟨M, fun _ => h4, fun k => ⟨0, 0, 0, 0, fun i => w k (i.cast h4), 0, 0⟩, w, rfl, ?_,
    fun _ _ => rfl, ?_, ?_⟩
  · have : M 0 = m := by
      simp only [M]
      rw [← hz.1, ← hz.2]
    rw [this]; exact .start hm
  · intro k
    obtain ⟨cmd, h, -⟩ := C61_command (M k) h4 ⟨0, 0, 0, 0, fun i => w k (i.cast h4), 0, 0⟩ [] (w k) (fun _ => rfl)
    have hsp : spindown (fun i : Fin m.mag.sat.rw.n => w k (i.cast h4)) = .ok ⟨4, spinCmd (w k)⟩ := by
      rw [spindown_cast h4]; rfl
    simp only [Manager.missionInput, SM.State.value]
    norm_num
    rw [hsp]
  · intro k cmd h
    have : cmd = spinCmd (w k) := by
      have h' : (⟨4, spinCmd (w k)⟩ : Cmd) = ⟨4, cmd⟩ := h
      simpa using h'.symm
    rw [this]
    rfl

/-- A pyramid of wheels with null motion. -/
example : ∃ m : Manager, Reached m ∧ m.mag.sat.rw.n = 4 ∧
    RWSystem.init (mkWheels (pyramid (Real.pi / 4) 0) (fun _ => 1e-5) (fun _ => 2e-6)) 0.002 false
      = .ok m.mag.sat.rw ∧ (0.00001 : ℝ) ≤ |(-(-3 : ℝ) + 5 - (-2) + 1) / 2| := by
  obtain ⟨model, h3, m, hm, h4, hrw⟩ := exManager
  exact ⟨m, .start hm, h4, hrw, by norm_num⟩

/-! ## C62: construction of the managers -/

/-- The claim: both managers can be made from the library's own dynamics model, whose measurements are
`result`. -/
def C62_claim : Prop :=
  ∀ (n : ℕ) (gyroStep gpsStep : ℝ) (result : Measurements n)
    (posInit : V3 → V3 → JClock → Py (Obs.Pos.Kalman n)) (model : CtlModel) (h3 : model.sat.nMt = 3),
    (∃ m, Manager.construct gyroStep gpsStep (Truth.ofDynamics (.ok result)) posInit (some model)
      (by intro m hm; cases hm; exact h3) = .ok m) ∧
    ∃ m, OldManager.init (.ok ()) = .ok m

/-- Neither can ever be made: the constructor of manager_class.py raises `TypeError` for the library's
dynamics model, and some exception for every other truth model, whatever it offers; the constructor of
manager.py raises `AttributeError`. -/
theorem C62_never (n : ℕ) (gyroStep gpsStep : ℝ) (posInit : V3 → V3 → JClock → Py (Obs.Pos.Kalman n))
    (model : Option CtlModel) (h3 : ∀ m ∈ model, m.sat.nMt = 3) :
    (∀ result, Manager.construct gyroStep gpsStep (Truth.ofDynamics result) posInit model h3
      = .error .typeError) ∧
    (∀ truth : Truth n, ∃ e, Manager.construct gyroStep gpsStep truth posInit model h3 = .error e) ∧
    ∀ rest, OldManager.init rest = .error .attributeError := by
  refine ⟨fun result => ?_, fun truth => ?_, fun rest => ?_⟩
  · simp [Manager.construct, Filters.init, Truth.call, Truth.ofDynamics, sigDynamicsMeasurement, Sig.bind]
  · have : ∃ e, Filters.init gyroStep gpsStep truth posInit = .error e := by
      unfold Filters.init
      cases truth.call with
      | error e => exact ⟨e, rfl⟩
      | ok s =>
        cases truth.initDate with
        | none => exact ⟨_, rfl⟩
        | some d => exact ⟨.typeError, by simp [sigPosKalman, Sig.bind]⟩
    obtain ⟨e, he⟩ := this
    exact ⟨e, by rw [Manager.construct.eq_def, he]⟩
  · simp [OldManager.init, moduleAttr, observersNames]

/-- C62 fails. -/
theorem C62_construct_fails : ¬ C62_claim := by
  intro H
  obtain ⟨sat, h3, -⟩ := exSat4
  obtain ⟨⟨m, hm⟩, -⟩ := H 4 1 1 ⟨0, 0, 0, 0, 0, 0, 0⟩ (fun _ _ _ => .error .typeError) ⟨sat, some exClock, none⟩ h3
  rw [(C62_never _ _ _ _ _ _).1] at hm
  cases hm

/-- C62 partial: what remains of the constructor once there is a filter with a model: it succeeds exactly
for a model with a clock, and then no actuator is commanded. Missing: no such filter can be made
(`C62_never`). -/
theorem C62_controllers_partial (model : CtlModel) (h3 : model.sat.nMt = 3) :
    (model.clock = none → Manager.init model h3 = .error .attributeError) ∧
    (model.clock ≠ none → ∃ m, Manager.init model h3 = .ok m ∧ m.magCmd = 0 ∧ m.rwCmd = ⟨4, 0⟩ ∧
      m.mag.sat = model.sat ∧ m.rw.sat = model.sat ∧ m.mag.bangBang = false) := by
  constructor
  · intro hc
    unfold Manager.init
    split
    · rename_i e he
      rw [MagController.init, hc] at he
      simp only at he
      rw [Except.error.inj he]
    · rename_i mag he
      rw [MagController.init, hc] at he
      cases he
  · intro hc
    obtain ⟨c, hc⟩ := Option.ne_none_iff_exists'.1 hc
    obtain ⟨m, h1, h2, h4, h5, h6, -⟩ := managerInit_eq (h3 := h3) hc
    exact ⟨m, h1, h2, h4, h5, m.same.trans h5, h6⟩

/-- A model with a clock and one without. -/
example : ∃ m1 m2 : CtlModel, m1.sat.nMt = 3 ∧ m2.sat.nMt = 3 ∧ m1.clock = none ∧ m2.clock ≠ none := by
  obtain ⟨sat, h3, -⟩ := exSat4
  exact ⟨ofDynamics sat, ⟨sat, some exClock, none⟩, h3, h3, rfl, by simp⟩

/-! ## C104: the order of the mission data -/

/-- The claim: with mission data in the documented order (mode, target point, boresight), the reference
attitude of POINT has the boresight on the target. -/
def C104_claim : Prop :=
  ∀ (pos vel target boresight : V3) (att : V4), npNorm att = 1 → npNorm boresight = 1 → target ≠ pos →
    sandwich att (pointingVector pos target) ≠ -boresight →
    ∀ w q, pointReference pos vel att target boresight = .ok (w, q) →
      ∃ d : ℝ, 0 < d ∧ sandwich q (target - pos) = d • boresight

/-- C104 fails: the target is below the satellite, the instrument looks along the z axis. -/
theorem C104_order_fails : ¬ C104_claim := by
  intro H
  have hn1 : (![6378137, 0, 0] : V3) - ![7000000, 0, 0] = (621863 : ℝ) • ![-1, 0, 0] := by
    apply vec3_ext <;> norm_num
  have hne : (![6378137, 0, 0] : V3) ≠ ![7000000, 0, 0] := fun h => by
    have := congrFun h 0; norm_num at this
  have hb : npNorm (![0, 0, 1] : V3) = 1 := npNorm_vec3 (by norm_num)
  have ha : npNorm (![1, 0, 0, 0] : V4) = 1 := npNorm_vec4 (by norm_num)
  have hback : sandwich ![1, 0, 0, 0] (pointingVector ![7000000, 0, 0] ![6378137, 0, 0]) ≠ -![0, 0, 1] := by
    intro h
    have := congrFun h 2
    rw [sandwich_one, pointingVector, hn1, normalize_eq (fun h => by have := congrFun h 0; norm_num at this)] at this
    norm_num at this
  have hh : npDot ((![7000000, 0, 0] : V3) - ![0, 0, 1]) (![7000000, 0, 0] - ![0, 0, 1]) ≠ 0 := by
    rw [npDot3]; norm_num
  obtain ⟨d, hd, h⟩ := H ![7000000, 0, 0] ![0, 7500, 0] ![6378137, 0, 0] ![0, 0, 1] ![1, 0, 0, 0] ha hb hne hback
    _ _ (by simp only [pointReference, npVDiv, if_neg hh]; rfl)
  -- the reference attitude
  have hdir : (![0, 0, 1] : V3) - ![7000000, 0, 0] ≠ 0 := fun h => by
    have := congrFun h 2; norm_num at this
  set c := (npNorm ((![0, 0, 1] : V3) - ![7000000, 0, 0]))⁻¹ with hc
  have hc0 : 0 < c := inv_pos.2 (npNorm_pos hdir)
  have hc1 : (1 : ℝ) / 7000001 ≤ c := by
    rw [hc, one_div]
    apply inv_anti₀ (npNorm_pos hdir)
    rw [npNorm, Real.sqrt_le_left (by norm_num), Fin.sum_univ_three]
    norm_num
  have hp : pointingVector ![7000000, 0, 0] ![0, 0, 1] = ![c * -7000000, 0, c] := by
    rw [pointingVector, normalize_eq hdir, ← hc]
    apply vec3_ext <;> simp
  have hq : acquireTarget ![7000000, 0, 0] ![1, 0, 0, 0] ![6378137, 0, 0] ![0, 0, 1] = ![0, 0, -1, 0] := by
    have hx : npCross ![6378137, 0, 0] ![c * -7000000, 0, c] = (6378137 * c) • ![0, -1, 0] := by
      apply vec3_ext <;> simp [npCross]
    have hn : npNorm (![0, -1, 0] : V3) = 1 := npNorm_vec3 (by norm_num)
    have hx0 : (6378137 * c) • (![0, -1, 0] : V3) ≠ 0 := by
      intro h
      have := congrFun h 1
      simp at this
      exact hc0.ne' this
    have hnorm : normalizeV ((6378137 * c) • (![0, -1, 0] : V3)) = ![0, -1, 0] := by
      rw [normalize_eq hx0, npNorm_smul, hn, mul_one, abs_of_pos (by positivity), smul_smul,
        inv_mul_cancel₀ (by positivity), one_smul]
    have hclip : npClip (npDot ![6378137, 0, 0] ![c * -7000000, 0, c]) (-1) 1 = -1 := by
      rw [npDot3]
      simp only [Matrix.cons_val_zero, Matrix.cons_val_one, cons3_2, npClip]
      rw [max_eq_right (by nlinarith)]
      norm_num
    simp only [acquireTarget, hp, sandwich_one, rAxisAngle, hx, hnorm, hclip]
    simp [axisangleToQuat, Real.arccos_neg_one]
  rw [hq, one_product] at h
  have h0 := congrFun h 0
  rw [hn1, sandwich_0] at h0
  norm_num at h0

/-- C104 partial: with boresight and target the other way round, the reference attitude is a unit
quaternion that has the boresight on the target, if the target is not exactly behind the boresight.
Missing: the documented order (`C104_order_fails`). -/
theorem C104_swapped_partial (pos vel target boresight : V3) (att : V4) (ha : npNorm att = 1)
    (hb : npNorm boresight = 1) (hne : target ≠ pos)
    (hback : sandwich att (pointingVector pos target) ≠ -boresight) :
    ∃ w q, pointReference pos vel att boresight target = .ok (w, q) ∧ npNorm q = 1 ∧
      ∃ d : ℝ, 0 < d ∧ sandwich q (target - pos) = d • boresight := by
  have hh : npDot (pos - target) (pos - target) ≠ 0 := by
    rw [npDot_eq_dotProduct]
    exact fun h => hne (sub_eq_zero.1 (dotProduct_self_eq_zero.1 h)).symm
  obtain ⟨h1, d, h2, -, h3⟩ := C68_acquire_partial pos target boresight att ha hb hne hback
  exact ⟨_, _, by simp only [pointReference, npVDiv, if_neg hh]; rfl, h1, d, h2, h3⟩

/-- The hypotheses are met: a target below the satellite. -/
example : npNorm (![1, 0, 0, 0] : V4) = 1 ∧ npNorm (![0, 0, 1] : V3) = 1 ∧
    (![6378137, 0, 0] : V3) ≠ ![7000000, 0, 0] ∧
    sandwich ![1, 0, 0, 0] (pointingVector ![7000000, 0, 0] ![6378137, 0, 0]) ≠ -![0, 0, 1] := by
  have hn1 : (![6378137, 0, 0] : V3) - ![7000000, 0, 0] = (621863 : ℝ) • ![-1, 0, 0] := by
    apply vec3_ext <;> norm_num
  refine ⟨npNorm_vec4 (by norm_num), npNorm_vec3 (by norm_num), fun h => ?_, fun h => ?_⟩
  · have := congrFun h 0; norm_num at this
  · have := congrFun h 2
    rw [sandwich_one, pointingVector, hn1, normalize_eq (fun h => by have := congrFun h 0; norm_num at this)] at this
    norm_num at this

/-- What the manager does with the entries of the mission data: the first is handed to the controller as
boresight, the second as target, and the controller's answer is stored; with fewer than two entries POINT
raises `IndexError`. -/
theorem C104_entries_partial (m : Manager) (s : Measurements m.mag.sat.rw.n) (d1 d2 : V3) (rest : List V3) :
    (∀ cmd, (m.rw.pointAndStare (m.forRw s) d1 d2).1 = .ok cmd →
      (m.missionInput (.ok s) ⟨7, d1 :: d2 :: rest⟩).1 = .ok () ∧
      (m.missionInput (.ok s) ⟨7, d1 :: d2 :: rest⟩).2.rwCmd = ⟨m.rw.sat.rw.n, cmd⟩) ∧
    (∀ e, (m.rw.pointAndStare (m.forRw s) d1 d2).1 = .error e →
      (m.missionInput (.ok s) ⟨7, d1 :: d2 :: rest⟩).1 = .error e ∧
      (m.missionInput (.ok s) ⟨7, d1 :: d2 :: rest⟩).2.rwCmd = m.rwCmd) ∧
    (m.missionInput (.ok s) ⟨7, [d1]⟩).1 = .error .indexError ∧
    (m.missionInput (.ok s) ⟨7, []⟩).1 = .error .indexError := by
  have hm : m.missionInput (.ok s) ⟨7, d1 :: d2 :: rest⟩ = ({ m with magCmd := 0 } : Manager).setRw
      (m.rw.pointAndStare (m.forRw s) d1 d2) ((RwController.pointAndStare_sat ..).trans m.same) := by
    simp only [Manager.missionInput, SM.State.value]
    norm_num
  refine ⟨fun cmd h => ?_, fun e h => ?_, ?_, ?_⟩
  · rw [hm, Manager.setRw]
    simp only [h]
    exact ⟨trivial, rfl⟩
  · simp [hm, Manager.setRw, h]
  · simp only [Manager.missionInput, SM.State.value]
    norm_num
  · simp only [Manager.missionInput, SM.State.value]
    norm_num

/-! ## C110: the older manager -/

/-- The claim: for a filter that works and controllers whose methods return, `mission_input` of manager.py
returns in every mode. -/
def C110_claim : Prop :=
  ∀ (m : OldManager) (d : MissionData) (mag : Fin 3 → ℝ) (rw : Cmd), 2 ≤ d.rest.length →
    (m.missionInput d (.ok mag) (.ok rw)).1 = .ok ()

/-- It fails in both active modes: DETUMBLE and POINT raise `TypeError` for every manager and all data, and
leave the wheels' command as it was. -/
theorem C110_active_fails (m : OldManager) (d : MissionData) (mag : Py (Fin 3 → ℝ)) (rw : Py Cmd)
    (h : 2 ≤ d.rest.length) :
    (d.id = SM.State.DETUMBLE.value → m.missionInput d mag rw = (.error .typeError, m)) ∧
    (d.id = SM.State.POINT.value → m.missionInput d mag rw = (.error .typeError, { m with magCmd := 0 })) := by
  constructor
  · intro hd
    rw [OldManager.missionInput.eq_def, hd]
    simp [SM.State.value, sigDetumble, Sig.bind]
  · intro hd
    rw [OldManager.missionInput.eq_def, hd]
    rcases hr : d.rest with _ | ⟨a, _ | ⟨b, l⟩⟩
    · simp [hr] at h
    · simp [hr] at h
    · simp [SM.State.value, sigPointAndStare, Sig.bind]

/-- C110 fails: DETUMBLE with a well-formed mission raises `TypeError`. -/
theorem C110_claim_fails : ¬ C110_claim := by
  intro H
  have h1 := H ⟨0, zeros4⟩ ⟨5, [0, 0]⟩ 0 zeros4 (by simp)
  rw [((C110_active_fails _ _ _ _ (by simp)).1 rfl)] at h1
  cases h1

/-- C110 partial: the modes without control return; SLEEP and FAILED stop the actuators, all others (among
them BBQ and SPINDOWN) keep the commands. Missing: the active modes. -/
theorem C110_passive_partial (m : OldManager) (d : MissionData) (mag : Py (Fin 3 → ℝ)) (rw : Py Cmd)
    (h5 : d.id ≠ 5) (h7 : d.id ≠ 7) :
    (m.missionInput d mag rw).1 = .ok () ∧
    ((d.id = 0 ∨ d.id = 1) → (m.missionInput d mag rw).2 = ⟨0, ⟨4, 0⟩⟩) ∧
    (d.id ≠ 0 → d.id ≠ 1 → (m.missionInput d mag rw).2 = m) := by
  simp only [OldManager.missionInput, SM.State.value, h5, h7, if_false]
  by_cases h : d.id = 1 ∨ d.id = 0
  · rw [if_pos h]
    refine ⟨rfl, fun _ => rfl, fun h0 h1 => ?_⟩
    rcases h with h | h
    · exact absurd h h1
    · exact absurd h h0
  · rw [if_neg h]
    exact ⟨rfl, fun h' => absurd h'.symm h, fun _ _ => rfl⟩

example : SM.State.BBQ.value ≠ 5 ∧ SM.State.BBQ.value ≠ 7 := by decide

/-! ## C111: how far the filters are propagated -/

/-- The attitude filter after calls of `KalmanFilters.propagate` with these durations and the rate `w`. -/
inductive LoopHistory (w : V3) (dt : ℝ) : List ℝ → Obs.Att.Kalman → Obs.Att.Kalman → Prop
  | nil {a} : LoopHistory w dt [] a a
  | cons {d l a b c} : AttLoop w dt d dt a b → LoopHistory w dt l b c → LoopHistory w dt (d :: l) a c

/-- The claim: over any history of calls, the total time the attitude filter was propagated by stays
within some bound of the total duration asked for. -/
def C111_claim : Prop :=
  ∀ (w : V3) (dt : ℝ) (a : Obs.Att.Kalman), 0 < dt → ∃ B : ℝ, ∀ (ds : List ℝ) (a' : Obs.Att.Kalman),
    (∀ d ∈ ds, 0 < d) → LoopHistory w dt ds a a' →
    ∃ N : ℕ, a' = (fun k => k.propagate w dt)^[N] a ∧ |N * dt - ds.sum| ≤ B

theorem biasVariance_iterate (k : Obs.Att.Kalman) (w : V3) (dt : ℝ) (N : ℕ) :
    ((fun k => k.propagate w dt)^[N] k).P (.inr 0) (.inr 0) = k.P (.inr 0) (.inr 0) + N * (8.73e-7 ^ 2 * dt) := by
  induction N with
  | zero => simp
  | succ N ih =>
    rw [Function.iterate_succ_apply', biasVariance_step, ih, Obs.Att.driftVar]
    push_cast; ring

/-- C111 partial: one call propagates the attitude filter by as many whole steps as fit into the duration
and a millisecond, so by at most one millisecond too much and less than a step too little; the number of
steps can be told from the filter. Missing: the remainder of each call is lost (`C111_lost_fails`). -/
theorem C111_steps_partial (w : V3) (dt D : ℝ) (a : Obs.Att.Kalman) (hdt : 0 < dt) :
    ∃ N : ℕ, (N = 0 ∨ N * dt < D + 0.001) ∧ D + 0.001 ≤ (N + 1) * dt ∧
      ∀ a', AttLoop w dt D dt a a' ↔ a' = (fun k => k.propagate w dt)^[N] a := by
  obtain ⟨a0, h0⟩ := attLoop_total (w := w) (D := D) hdt dt a
  obtain ⟨N, e, h1, h2⟩ := attLoop_iterate h0
  refine ⟨N, ?_, by linarith, fun a' => ⟨fun h => ?_, ?_⟩⟩
  · rcases N with _ | N
    · exact .inl rfl
    · right; have := h1 N (by omega); push_cast; linarith
  · obtain ⟨M, e', h1', h2'⟩ := attLoop_iterate h
    have : M = N := by
      rcases lt_trichotomy M N with hlt | heq | hgt
      · have := h1 M hlt; linarith
      · exact heq
      · have := h1' N hgt; linarith
    rw [e', this]
  · rintro rfl; rwa [← e]

/-- C111 fails: with steps of one second and calls of half a second, the filter is never propagated. -/
theorem C111_lost_fails : ¬ C111_claim := by
  intro H
  obtain ⟨B, hB⟩ := H 0 1 (Obs.Att.init ![1, 0, 0, 0]) one_pos
  obtain ⟨n, hn⟩ := exists_nat_gt (2 * B)
  have hh : ∀ n : ℕ, LoopHistory 0 1 (List.replicate n 0.5) (Obs.Att.init ![1, 0, 0, 0]) (Obs.Att.init ![1, 0, 0, 0]) := by
    intro n
    induction n with
    | zero => exact .nil
    | succ n ih =>
      rw [List.replicate_succ]
      refine .cons (.stop ?_) ih
      rw [due_iff]; norm_num
  obtain ⟨N, h1, h2⟩ := hB (List.replicate n 0.5) _ (by
    intro d hd; rw [List.eq_of_mem_replicate hd]; norm_num) (hh n)
  have h3 := congrArg (fun k : Obs.Att.Kalman => k.P (.inr 0) (.inr 0)) h1
  simp only [biasVariance_iterate] at h3
  have hN : (N : ℝ) = 0 := by
    have : (N : ℝ) * (8.73e-7 ^ 2 * 1) = 0 := by linarith
    rcases mul_eq_zero.1 this with h | h
    · exact h
    · norm_num at h
  rw [hN, List.sum_replicate, nsmul_eq_mul] at h2
  rw [zero_mul, zero_sub, abs_neg, abs_of_nonneg (by positivity)] at h2
  linarith

/-- With a step that is not positive, a call with a duration that is not shorter never returns. -/
theorem C111_endless (w : V3) (dt D : ℝ) (a : Obs.Att.Kalman) (hdt : dt ≤ 0) (hD : dt < D + 0.001) :
    ∀ a', ¬ AttLoop w dt D dt a a' := by
  intro a' h
  obtain ⟨N, -, -, h2⟩ := attLoop_iterate h
  have : (N : ℝ) * dt ≤ 0 := mul_nonpos_of_nonneg_of_nonpos (by positivity) hdt
  linarith

/-- Three steps of 0.05 in 0.15 seconds, although the sum of three steps is not exactly representable. -/
example : ∃ a', AttLoop ![0, 0, 0.01] 0.05 0.15 0.05 (Obs.Att.init ![1, 0, 0, 0]) a' ∧
    a' = (fun k : Obs.Att.Kalman => k.propagate ![0, 0, 0.01] 0.05)^[3] (Obs.Att.init ![1, 0, 0, 0]) := by
  obtain ⟨N, h1, h2, h3⟩ := C111_steps_partial ![0, 0, 0.01] 0.05 0.15 (Obs.Att.init ![1, 0, 0, 0])
    (by norm_num)
  have hN : N = 3 := by
    rcases h1 with rfl | h1
    · norm_num at h2
    · have a1 : (N : ℝ) < 4 := by linarith
      have a2 : (2 : ℝ) < N := by linarith
      have b1 : N < 4 := by exact_mod_cast a1
      have b2 : 2 < N := by exact_mod_cast a2
      omega
  subst hN
  exact ⟨_, (h3 _).2 rfl, rfl⟩

/-! ## C112: propagating both filters -/

/-- The claim: once the rate is known, `KalmanFilters.propagate` returns. -/
def C112_claim : Prop :=
  ∀ (n : ℕ) (f : Filters n) (w : V3) (D : ℝ) (r : Py Unit) (f' : Filters n), f.lastW = some w →
    0 < f.gyroDt → 0 < f.gpsDt → f.pos.output.1 ≠ 0 → Propagates f D r f' → r = .ok ()

/-- It never returns when a step of the position filter is due: `AttributeError` is raised after the first
one, which stays done. -/
theorem C112_due_fails {n : ℕ} (f : Filters n) (w : V3) (D : ℝ) (hw : f.lastW = some w) (hg : 0 < f.gyroDt)
    (hdue : f.gpsDt ≤ D) (hp : f.pos.output.1 ≠ 0) :
    ∃ f', Propagates f D (.error .attributeError) f' ∧ f'.pos = (f.pos.propagate f.gpsDt).2 ∧
      ∀ r f', Propagates f D r f' → r = .error .attributeError := by
  have hd : due f.gpsDt D := due_iff.2 (by linarith)
  obtain ⟨h1, -⟩ := posPropagate_x hp f.gpsDt
  obtain ⟨a, ha⟩ := attLoop_total (w := w) (D := D) hg f.gyroDt f.att
  refine ⟨_, .noModel hw ha hd (Prod.ext h1 rfl), rfl, ?_⟩
  intro r f' h
  cases h with
  | noRate h => simp [hw] at h
  | done _ _ h => exact absurd hd h
  | posFail _ _ _ h => rw [h] at h1; simp at h1
  | noModel => rfl

/-- C112 fails: with a position step of one second, a call for one second does not return. -/
theorem C112_claim_fails : ¬ C112_claim := by
  intro H
  obtain ⟨s, hs, -⟩ := exState 4
  obtain ⟨c, lat, long, h', -, -, he⟩ := mkState_ok.1 hs
  have hp : s.attrs.position = ![6800000, 0, 0] := by rw [he]; rfl
  have hne : (Obs.Pos.init 1 s).output.1 ≠ 0 := fun h0 => by
    have := congrFun h0 0
    simp [Obs.Pos.Kalman.output, Obs.Pos.init, hp] at this
  let f : Filters 4 := ⟨⟨⟨[], []⟩, .error .typeError, none⟩, 1, 1, Obs.Pos.init 1 s, Obs.Att.init ![1, 0, 0, 0], some 0⟩
  obtain ⟨f', h1, -⟩ := C112_due_fails f 0 2 rfl one_pos (by norm_num [f]) hne
  have := H 4 f 0 2 _ f' rfl one_pos one_pos hne h1
  simp at this

/-- C112 partial: while no step of the position filter is due, `propagate` returns, and changes nothing but
the attitude filter. Missing: `C112_due_fails`. -/
theorem C112_attitude_partial {n : ℕ} (f : Filters n) (w : V3) (D : ℝ) (hw : f.lastW = some w)
    (hg : 0 < f.gyroDt) (hdue : D + 0.001 ≤ f.gpsDt) :
    (∃ f', Propagates f D (.ok ()) f') ∧ ∀ r f', Propagates f D r f' → r = .ok () ∧
      ∃ a, AttLoop w f.gyroDt D f.gyroDt f.att a ∧ f' = { f with att := a } := by
  have hd : ¬ due f.gpsDt D := fun h => by have := due_iff.1 h; linarith
  obtain ⟨a, ha⟩ := attLoop_total (w := w) (D := D) hg f.gyroDt f.att
  refine ⟨⟨_, .done hw ha hd⟩, ?_⟩
  intro r f' h
  cases h with
  | noRate h => rw [hw] at h; cases h
  | done hw' ha' _ =>
    obtain rfl := Option.some.inj (hw.symm.trans hw')
    exact ⟨rfl, _, ha', rfl⟩
  | posFail _ _ h => exact absurd h hd
  | noModel _ _ h => exact absurd h hd

/-- Before the first `output` there is no rate, and `propagate` raises. -/
theorem C112_first_call {n : ℕ} (f : Filters n) (D : ℝ) (hw : f.lastW = none) (r : Py Unit) (f' : Filters n) :
    Propagates f D r f' ↔ r = .error .attributeError ∧ f' = f := by
  constructor
  · intro h
    cases h with
    | noRate => exact ⟨rfl, rfl⟩
    | done h => rw [hw] at h; cases h
    | posFail h => rw [hw] at h; cases h
    | noModel h => rw [hw] at h; cases h
  · rintro ⟨rfl, rfl⟩; exact .noRate hw

/-- Filters that meet the hypotheses. -/
example : ∃ f : Filters 4, f.lastW = some ![0, 0, 0.01] ∧ 0 < f.gyroDt ∧ (0.5 : ℝ) + 0.001 ≤ f.gpsDt ∧
    f.pos.output.1 ≠ 0 := by
  obtain ⟨s, hs, -⟩ := exState 4
  obtain ⟨c, lat, long, h', -, -, he⟩ := mkState_ok.1 hs
  have hp : s.attrs.position = ![6800000, 0, 0] := by rw [he]; rfl
  have hne : (Obs.Pos.init 1 s).output.1 ≠ 0 := fun h0 => by
    have := congrFun h0 0
    simp [Obs.Pos.Kalman.output, Obs.Pos.init, hp] at this
  exact ⟨⟨⟨⟨[], []⟩, .error .typeError, none⟩, 0.05, 1, Obs.Pos.init 1 s, Obs.Att.init ![1, 0, 0, 0], some _⟩,
    rfl, by norm_num, by norm_num, hne⟩

end Adcs
