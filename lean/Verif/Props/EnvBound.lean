import Verif.Proofs.EnvBound
import Verif.Props.HelperSat

set_option autoImplicit false

/-! # C213: how large the torques of the environment are, and that the wheels can hold the satellite against them -/

namespace Adcs

open Str Dyn Env Quat JDay Fr Vec Examples
open scoped Matrix

/-- The attributes and the array of a state determine each other: it is the state that its array and clock give. -/
theorem Consistent.new {n : ℕ} {s : SatState n} (h : Consistent s) :
    ∃ c, s.clock = some c ∧ SatState.new s.arr (some c) = .ok s := by
  obtain ⟨c, hc, h1, h2⟩ := h.rEcef
  refine ⟨c, hc, mkState_ok.2 ⟨c, s.attrs.lat, s.attrs.long, s.attrs.h, rfl, ?_, ?_⟩⟩
  · have e : inertialToEcef c.thetaGmst *ᵥ s.arr.pos = s.attrs.rEcef := by
      rw [h1, inertialToEcef_mulVec]; apply vec3_ext <;> simp <;> ring
    rw [e]; exact h.geodetic
  · have e1 : inertialToEcef c.thetaGmst *ᵥ s.arr.pos = s.attrs.rEcef := by
      rw [h1, inertialToEcef_mulVec]; apply vec3_ext <;> simp <;> ring
    have e2 : s.attrs.gciToEcef = inertialToEcef c.thetaGmst := by
      apply Matrix.ext_of_mulVec_single
      intro i
      rw [h2, inertialToEcef_mulVec]; apply vec3_ext <;> simp <;> ring
    have e3 : s.attrs.length = npNorm s.arr.pos := by
      refine (pow_left_inj₀ h.length.1 (npNorm_nonneg _) two_ne_zero).1 ?_
      rw [h.length.2, npNorm3_sq]
    obtain ⟨arr, clock, at'⟩ := s
    obtain ⟨position, velocity, attitude, bodyAngVel, wheelVel, x, v, gci, rEcef, length, lat, long, hh⟩ := at'
    have p1 := h.position; have p2 := h.velocity; have p3 := h.attitude; have p4 := h.bodyAngVel; have p5 := h.wheelVel
    have p6 := h.x; have p7 := h.v
    simp only at hc e1 e2 e3 p1 p2 p3 p4 p5 p6 p7
    subst hc e2 e3 p1 p2 p3 p4 p5
    rw [e1, p6, p7]

theorem relativeVel_le {n : ℕ} {s : SatState n} (hs : Consistent s) :
    npNorm (Orb.relativeVel s) ≤ npNorm s.arr.vel + 7.2921158553e-5 * npNorm s.arr.pos := by
  have e : Orb.relativeVel s = s.arr.vel + (7.2921158553e-5 : ℝ) • ![s.arr.pos 1, s.arr.pos 0, 0] := by
    unfold Orb.relativeVel Orb.earthRotation
    rw [hs.v, hs.x]
    apply vec3_ext <;> simp
  rw [e]
  refine (npNorm_add' _ _).trans ?_
  rw [npNorm_smul, abs_of_pos (by norm_num)]
  have : npNorm (![s.arr.pos 1, s.arr.pos 0, 0] : V3) ≤ npNorm s.arr.pos := by
    refine abs_le_of_sq_le_sq' ?_ (npNorm_nonneg _) |>.2
    rw [npNorm3_sq, npNorm3_sq]
    simp
    nlinarith [sq_nonneg (s.arr.pos 2)]
  gcongr

/-- C213: the torque of the environment on a satellite that is a box, in terms of its size, drag coefficient, absorption and
inertia, its distance and its speed, and the moment of its magnetorquers: for all attitudes, dates and places. Quaternions need
not be of unit length, as they are not inside of the steps of the integrator. -/
theorem C213_bound {hiFi : Bool} {sat : Satellite} {mass : ℝ} {dims : V3} {ab cd : ℝ} (hb : Built sat mass dims ab cd) {J : ℝ}
    (hJ0 : 0 ≤ J) (hJ : ∀ x, npNorm (sat.totalMoment *ᵥ x) ≤ J * npNorm x) {s : SatState sat.rw.n} (hs : Consistent s)
    {q R v : ℝ} (hq : npNorm s.arr.att ≤ q) (hR : 0 < R) (hr : R ≤ npNorm s.arr.pos) (hr1 : npNorm s.arr.pos ≤ 1e9)
    (hv : npNorm s.arr.vel + 7.2921158553e-5 * npNorm s.arr.pos ≤ v) {m : V3} {env : FT}
    (he : envFT hiFi sat s m = .ok env) :
    npNorm env.T ≤ (3.624e-11 * |cd| * v ^ 2 * q ^ 6 + 4.7e-6 * |ab|) * Spec.leverage dims + 1.2e15 / R ^ 3 * J * q ^ 4 +
      1.56e16 / R ^ 3 * npNorm m * q ^ 2 := by
  obtain ⟨c, hc, hn⟩ := hs.new
  obtain ⟨S, D, Gr, B, hS, hD, hG, hB, -, eT⟩ := envFT_eq he
  have h1 := solar_torque hb hS (by rw [hs.x]; exact hr1)
  have h2 := drag_torque_le hb hD ((relativeVel_le hs).trans hv)
  have h3 := gravity_torque_le hJ0 hJ hn hG hR hr
  have h4 := magnetic_torque_le hn hB hR hr s.attrs.attitude m
  rw [hs.attitude] at h2 h4
  have q0 := npNorm_nonneg s.arr.att
  have hl := leverage_nonneg dims
  have hm := npNorm_nonneg m
  have i2 : npNorm s.arr.att ^ 6 * (3.624e-11 * |cd| * v ^ 2 * Spec.leverage dims) ≤
      q ^ 6 * (3.624e-11 * |cd| * v ^ 2 * Spec.leverage dims) := by gcongr
  have i3 : npNorm s.arr.att ^ 4 * (1.2e15 / R ^ 3 * J) ≤ q ^ 4 * (1.2e15 / R ^ 3 * J) := by gcongr
  have i4 : npNorm s.arr.att ^ 2 * (1.56e16 / R ^ 3 * npNorm m) ≤ q ^ 2 * (1.56e16 / R ^ 3 * npNorm m) := by gcongr
  rw [eT, ← npCross_eq_crossProduct, ← sandwich_eq_toBody, hs.attitude]
  have t1 := npNorm_add' (D.T + Gr.T + S.T) (npCross m (sandwich s.arr.att B))
  have t2 := npNorm_add' (D.T + Gr.T) S.T
  have t3 := npNorm_add' D.T Gr.T
  linarith only [t1, t2, t3, h1, h2, h3, h4, i2, i3, i4]

/-- So in every state that is within these limits the derivative that `vector_field` gives is one with a torque within the bound:
simulations that stay there are among those of `C212_disturbed`. -/
theorem C213_field {hiFi : Bool} {sat : Satellite} {mass : ℝ} {dims : V3} {ab cd : ℝ} (hb : Built sat mass dims ab cd) {J : ℝ}
    (hJ0 : 0 ≤ J) (hJ : ∀ x, npNorm (sat.totalMoment *ᵥ x) ≤ J * npNorm x) {s : SatState sat.rw.n} (hs : Consistent s)
    {q R v : ℝ} (hq : npNorm s.arr.att ≤ q) (hR : 0 < R) (hr : R ≤ npNorm s.arr.pos) (hr1 : npNorm s.arr.pos ≤ 1e9)
    (hv : npNorm s.arr.vel + 7.2921158553e-5 * npNorm s.arr.pos ≤ v) {cur : Fin sat.nMt → ℝ} {accl : Fin sat.rw.n → ℝ}
    {d : Raw sat.rw.n} (h : vectorField hiFi sat s cur accl = .ok d) :
    ∃ m F T, sysActuate sat.mt cur = .ok m ∧ derivative sat s ⟨F, T⟩ accl = .ok d ∧
      npNorm T ≤ (3.624e-11 * |cd| * v ^ 2 * q ^ 6 + 4.7e-6 * |ab|) * Spec.leverage dims + 1.2e15 / R ^ 3 * J * q ^ 4 +
        1.56e16 / R ^ 3 * npNorm m * q ^ 2 := by
  unfold vectorField at h
  cases hm : sysActuate sat.mt cur with
  | error e => simp [hm] at h
  | ok m =>
    cases he : envFT hiFi sat s m with
    | error e => simp [hm, he] at h
    | ok env =>
      simp only [hm, he] at h
      exact ⟨m, env.F, env.T, rfl, h, C213_bound hb hJ0 hJ hs hq hR hr hr1 hv he⟩

/-- C213: on the satellite of the examples, in low orbits, it is less than a quarter of a micronewton metre while the
magnetorquers are off. -/
theorem C213_example {hiFi : Bool} {stop : ℝ} {gains : Fin 2 → ℝ} {sat : Satellite} (h : makeSatellite stop gains = .ok sat)
    {s : SatState sat.rw.n} (hs : Consistent s) (hq : npNorm s.arr.att = 1) (hr : 6.5e6 ≤ npNorm s.arr.pos)
    (hr1 : npNorm s.arr.pos ≤ 7e6) (hv : npNorm s.arr.vel ≤ 8000) {m : V3} {env : FT} (he : envFT hiFi sat s m = .ok env) :
    npNorm env.T ≤ 2.5e-7 + 5.7e-5 * npNorm m := by
  have key := C213_bound (helper_sat h).1 (by norm_num) (helper_inertia h) hs hq.le (R := 6.5e6) (v := 8511) (by norm_num) hr
    (hr1.trans (by norm_num)) (by norm_num at hr1 ⊢; linarith) he
  refine key.trans ?_
  have hl : Spec.leverage ![0.1, 0.1, 0.2] = 5e-5 := by
    simp only [Spec.leverage, Matrix.cons_val_zero, Matrix.cons_val_one, Matrix.cons_val]
    rw [abs_of_pos (by norm_num), abs_of_pos (by norm_num)]
    norm_num
  have hm := npNorm_nonneg m
  rw [hl, abs_of_pos (by norm_num : (0 : ℝ) < 1), abs_of_pos (by norm_num : (0 : ℝ) < 0.84)]
  norm_num
  linarith

/-- C213: whatever the attitude, the place, the date and the speeds of the wheels, there are accelerations of the wheels, within
their limits, with which that satellite stays at rest against these torques, and with magnetorquers of up to ten ampere square
metres. -/
theorem C213_hold {hiFi : Bool} {stop : ℝ} {gains : Fin 2 → ℝ} {sat : Satellite} (h : makeSatellite stop gains = .ok sat)
    {s : SatState sat.rw.n} (hs : Consistent s) (hq : npNorm s.arr.att = 1) (hr : 6.5e6 ≤ npNorm s.arr.pos)
    (hr1 : npNorm s.arr.pos ≤ 7e6) (hv : npNorm s.arr.vel ≤ 8000) (hw : s.arr.rate = 0) {cur : Fin sat.nMt → ℝ} {m : V3}
    (hc : sysActuate sat.mt cur = .ok m) (hm : npNorm m ≤ 10) {env : FT} (he : envFT hiFi sat s m = .ok env) :
    ∃ a d, sat.rw.accelerations env.T = .ok a ∧ vectorField hiFi sat s cur a = .ok d ∧ d.rate = 0 ∧ d.att = 0 := by
  have hT := C213_example h hs hq hr hr1 hv he
  have h0 := (C206_torque_partial stop gains sat h).1 env.T (by
    have h2 : (1.3 : ℝ) ≤ √(12 / 7) := Real.le_sqrt_of_sq_le (by norm_num)
    norm_num at hT h2 ⊢
    linarith)
  obtain ⟨a, ha, ht⟩ := h0
  have hms : sat.mass ≠ 0 := by rw [(helper_sat h).1.mass_eq.1]; norm_num
  have hz : npCross s.arr.rate (sat.rw.momentum s.attrs.wheelVel + sat.totalMoment *ᵥ s.arr.rate) = 0 := by
    rw [hw]; apply vec3_ext <;> simp [npCross_0, npCross_1, npCross_2]
  refine ⟨a, _, ha, by simp only [vectorField, hc, he, derivative, npVDiv, if_neg hms]; rfl, ?_, ?_⟩
  · rw [hs.bodyAngVel, hz, ht, sub_self, sub_zero, Matrix.mulVec_zero]
  · rw [hs.bodyAngVel, hw]
    apply vec4_ext <;> simp [product_0, product_1, product_2, product_3]

theorem helper_mt {stop : ℝ} {gains : Fin 2 → ℝ} {sat : Satellite} (h : makeSatellite stop gains = .ok sat) :
    (∀ i I, ∃ m, (sat.mt i).actuate I = .ok m) ∧ sysActuate sat.mt (fun _ => 0) = .ok 0 := by
  obtain ⟨t, ht, -, -, -, -, -, -, t0, t1, t2⟩ := myTorquers_ok
  obtain ⟨rw', hrw⟩ := myRw_ok
  rw [makeSatellite, ht] at h
  simp only [hrw] at h
  obtain ⟨-, -, e⟩ := satInit_eq h
  subst e
  have h1 : ∀ i I, ∃ m, (t i).actuate I = .ok m ∧ (I = 0 → m = 0) := by
    intro i I
    have key : ∀ x : Magnetorquer, x.mtType = "LinearRod" ∨ x.mtType = "Square" →
        ∃ m, x.actuate I = .ok m ∧ (I = 0 → m = 0) := by
      intro x hx
      unfold Magnetorquer.actuate mtActuate
      rcases hx with hx | hx <;> rw [hx]
      · refine ⟨_, by simp; rfl, ?_⟩
        rintro rfl; funext k; simp
      · refine ⟨_, by simp; rfl, ?_⟩
        rintro rfl; funext k; simp
    fin_cases i
    · exact key _ (Or.inl t0)
    · exact key _ (Or.inl t1)
    · exact key _ (Or.inr t2)
  refine ⟨fun i I => ⟨_, (h1 i I).choose_spec.1⟩, ?_⟩
  show sysActuate t (fun _ => 0) = .ok 0
  have h2 : pyForall (fun i => (t i).actuate 0) = .ok fun _ => 0 := by
    rw [pyForall_ok]
    intro i
    obtain ⟨m, e1, e2⟩ := h1 i 0
    rw [e1, e2 rfl]
  unfold sysActuate
  simp only [h2]
  congr 1
  funext k; simp

/-- That satellite at rest at a height of 422 km meets the hypotheses of `C213_hold`, and so those of the others. -/
example (hiFi : Bool) (stop : ℝ) (gains : Fin 2 → ℝ) : ∃ (sat : Satellite) (s : SatState sat.rw.n) (env : FT),
    makeSatellite stop gains = .ok sat ∧ Consistent s ∧ npNorm s.arr.att = 1 ∧ 6.5e6 ≤ npNorm s.arr.pos ∧
    npNorm s.arr.pos ≤ 7e6 ∧ npNorm s.arr.vel ≤ 8000 ∧ s.arr.rate = 0 ∧ sysActuate sat.mt (fun _ => 0) = .ok 0 ∧
    npNorm (0 : V3) ≤ 10 ∧ envFT hiFi sat s 0 = .ok env := by
  obtain ⟨sat, h, -⟩ := C206_builds_partial stop gains
  obtain ⟨m1, m2⟩ := helper_mt h
  obtain ⟨a, ea⟩ : ∃ a : Raw sat.rw.n, a = { exRaw sat.rw.n with rate := 0 } := ⟨_, rfl⟩
  have hpos : a.pos = ![6800000, 0, 0] := by rw [ea]; rfl
  have hvel : a.vel = ![0, 6000, 4000] := by rw [ea]; rfl
  have hp2 : a.pos 0 ^ 2 + a.pos 1 ^ 2 = 6800000 ^ 2 := by rw [hpos]; simp
  obtain ⟨s, hst, hh, -, -⟩ := mkState_equator a exClock (by rw [hpos]; simp) (by rw [hp2]; norm_num)
    (by
      rw [hp2, Real.sqrt_sq (by norm_num)]
      have := wgsE2_lt; have := wgsE2_pos
      unfold Fr.wgsA; nlinarith)
  rw [hp2, Real.sqrt_sq (by norm_num)] at hh
  obtain ⟨q1, q2, q3⟩ := C80_new hst
  have hn : npNorm a.pos = 6800000 := by
    rw [hpos, npNorm, Fin.sum_univ_three]; simp
  have hv : npNorm a.vel ≤ 8000 := by
    refine abs_le_of_sq_le_sq' ?_ (by norm_num) |>.2
    rw [npNorm3_sq, hvel]; simp; norm_num
  have hsun : a.pos ≠ Orb.AU • Orb.earthToSun exClock.julianDate := by
    intro e
    have h1 := congrArg npNorm e
    rw [hn, npNorm_smul, show npNorm (Orb.earthToSun exClock.julianDate) = 1 from earthToSun_unit _, mul_one] at h1
    unfold Orb.AU at h1
    rw [abs_of_pos (by norm_num)] at h1
    norm_num at h1
  obtain ⟨env, d, he, -⟩ := C92_defined (helper_sat h).1 (by norm_num) m1 hst (by rw [hh]; norm_num)
    (by rw [hh]; norm_num) (by
      intro e
      have := congrFun e 2
      rw [hvel] at this
      simp at this) hsun hiFi (fun _ => 0) (fun _ => 0)
  refine ⟨sat, s, env, h, q1, ?_, ?_, ?_, ?_, ?_, m2, ?_, he⟩
  · rw [q2, ea]; exact npNorm_vec4 (by norm_num)
  · rw [q2, hn]; norm_num
  · rw [q2, hn]; norm_num
  · rw [q2]; exact hv
  · rw [q2, ea]
  · rw [show npNorm (0 : V3) = 0 from npNorm_eq_zero.2 rfl]; norm_num

end Adcs
