import Verif.Proofs.Dynamics

set_option autoImplicit false

/-! # C72, C73, C77, C78, C79, C92: the equations of motion -/

namespace Adcs

open Str Dyn Env Quat JDay Fr
open scoped Matrix

/-- A satellite made by the constructor, with this mass, these dimensions, absorption and drag
coefficient. -/
def Built (sat : Satellite) (mass : ℝ) (dims : V3) (ab cd : ℝ) : Prop :=
  ∃ (principal products : V3) (reduced : Bool) (rw : RWSystem) (nMt : ℕ) (mt : Fin nMt → Magnetorquer)
    (ins : List Instrument),
    Satellite.init mass dims ab cd principal products reduced rw mt ins = .ok sat

theorem Built.inverse {sat : Satellite} {mass : ℝ} {dims : V3} {ab cd : ℝ} (h : Built sat mass dims ab cd) :
    sat.totalMoment * sat.invTotMoment = 1 := by
  obtain ⟨P, p, r, rw', nMt, mt, ins, h⟩ := h
  obtain ⟨-, h2, e⟩ := satInit_eq h
  have e1 : sat.totalMoment = redMoment P p r rw' + rw'.parallelMoment := by rw [e]
  have e2 : sat.invTotMoment = (redMoment P p r rw' + rw'.parallelMoment)⁻¹ := by rw [e]
  rw [e1, e2]
  exact Matrix.mul_nonsing_inv _ (isUnit_iff_ne_zero.2 h2)

theorem Built.mass_eq {sat : Satellite} {mass : ℝ} {dims : V3} {ab cd : ℝ} (h : Built sat mass dims ab cd) :
    sat.mass = mass ∧ sat.dragCoeff = cd ∧ sat.walls = boxWalls (dims 0) (dims 1) (dims 2) ab := by
  obtain ⟨P, p, r, rw', nMt, mt, ins, h⟩ := h
  obtain ⟨-, -, e⟩ := satInit_eq h
  rw [e]; exact ⟨rfl, rfl, rfl⟩

/-! ## A concrete satellite -/

/-- Three wheels along the axes of the body. -/
def exAxes : Fin 3 → V3 := fun i => Pi.single i 1

/-- A 2 kg satellite of 10 x 10 x 20 cm with three orthogonal wheels and a torquer coil. -/
theorem exSat : ∃ sat : Satellite, Built sat 2 ![0.1, 0.1, 0.2] 0.8 2.2 ∧ sat.totalMoment.PosDef ∧
    (∀ i I, ∃ m, (sat.mt i).actuate I = .ok m) ∧
    sat.totalMoment = Matrix.diagonal ![0.0125, 0.0124, 0.0062] + (1e-5 : ℝ) • (1 : M3) +
      (4e-6 : ℝ) • (1 : M3) := by
  have ha : ∀ i, npNorm (exAxes i) = 1 := by
    intro i
    rw [npNorm_eq_one]; fin_cases i <;> simp [exAxes, Fin.sum_univ_three, Pi.single_apply]
  obtain ⟨rw', hrw⟩ := (C39_constructible exAxes (fun _ => 1e-5) (fun _ => 2e-6) (fun _ => by norm_num)
    0.002 true).2 (by
      intro x hx
      apply vec3_ext
      · simpa [exAxes] using hx 0
      · simpa [exAxes] using hx 1
      · simpa [exAxes] using hx 2)
  obtain ⟨sat, hs, h1, -, -, -, h2⟩ := C42_inertia exAxes (fun _ => 1e-5) (fun _ => 2e-6) ha
    (fun _ => by norm_num) (fun _ => by norm_num) 0.002 true rw' hrw 2 ![0.1, 0.1, 0.2] 0.8 2.2
    ![0.0125, 0.0124, 0.0062] 0 (by intro i; fin_cases i <;> norm_num)
    (fun _ : Fin 1 => coil ![1, 0, 0]) []
  refine ⟨sat, ⟨_, _, _, _, _, _, _, hs⟩, h1, ?_, ?_⟩
  · intro i I
    obtain ⟨-, -, e⟩ := satInit_eq hs
    subst e
    exact ⟨_, rfl⟩
  · rw [h2]
    ext i j
    simp only [Fin.sum_univ_three, Matrix.add_apply, Matrix.smul_apply, Matrix.sub_apply, smul_eq_mul,
      Matrix.vecMulVec_apply, exAxes, Matrix.one_apply, Matrix.diagonal_apply, Pi.single_apply]
    fin_cases i <;> fin_cases j <;> norm_num [Fin.ext_iff]

/-! ## C92: when the equations of motion can be evaluated -/

theorem pyForall_total {n : ℕ} {α : Type} {f : Fin n → Py α} (h : ∀ i, ∃ a, f i = .ok a) :
    ∃ g, pyForall f = .ok g := by
  choose g hg using h
  exact ⟨g, pyForall_ok.2 hg⟩

/-- For a satellite made by the constructor with non-zero mass and known torquer types, `vector_field`
returns a derivative at every state between 250 and 500 km height that is not at the sun and moves
relative to the air, for all commands. -/
theorem C92_defined {sat : Satellite} {mass : ℝ} {dims : V3} {ab cd : ℝ} (hb : Built sat mass dims ab cd)
    (hm : mass ≠ 0) (hmt : ∀ i I, ∃ m, (sat.mt i).actuate I = .ok m)
    {a : Raw sat.rw.n} {c : JClock} {s : SatState sat.rw.n} (h : SatState.new a (some c) = .ok s)
    (h1 : 250000 ≤ s.attrs.h) (h2 : s.attrs.h < 500000)
    (hv : ![a.vel 0 + Orb.earthRotation * a.pos 1, a.vel 1 + Orb.earthRotation * a.pos 0, a.vel 2] ≠ 0)
    (hx : a.pos ≠ Orb.AU • Orb.earthToSun c.julianDate) (hiFi : Bool)
    (cur : Fin sat.nMt → ℝ) (accl : Fin sat.rw.n → ℝ) :
    ∃ env d, envFT hiFi sat s (0 : V3) = .ok env ∧ vectorField hiFi sat s cur accl = .ok d := by
  obtain ⟨i, hi, -⟩ := sun_info h hx
  have hB := C50_rotating_dipole h
  have hne := (C48_orbital h).1
  have hr := npNorm_pos hne
  obtain ⟨hc, ha, hcl⟩ := C80_new h
  have hlen : s.attrs.length = npNorm a.pos := by
    obtain ⟨c', lat, long, hh, hc', hl, rfl⟩ := mkState_ok.1 h; rfl
  have hpos : s.attrs.position = a.pos := by rw [hc.position, ha]
  obtain ⟨ρ, -, hρ⟩ := C47_shape.defined s.attrs.h h1 h2
  have hρ' : Orb.atmoDensity s = .ok ρ := hρ
  have hvr : Orb.relativeVel s ≠ 0 := by
    have : Orb.relativeVel s = ![a.vel 0 + Orb.earthRotation * a.pos 1,
        a.vel 1 + Orb.earthRotation * a.pos 0, a.vel 2] := by
      unfold Orb.relativeVel; rw [hc.v, hc.x, ha]
    rw [this]; exact hv
  obtain ⟨S, hS⟩ : ∃ S, solarFT sat s = .ok S := by
    unfold solarFT; rw [hi]; dsimp only
    by_cases hsh : i.inShadow = true
    · rw [if_pos hsh]; exact ⟨_, rfl⟩
    · rw [if_neg hsh]; exact ⟨_, rfl⟩
  obtain ⟨D, hD⟩ : ∃ D, dragFT sat s = .ok D := by
    unfold dragFT
    simp only [npVDiv, if_neg (npNorm_pos hvr).ne', hρ']
    exact ⟨_, rfl⟩
  obtain ⟨g, hg⟩ : ∃ g, Orb.gravityAccel hiFi s = .ok g := by
    unfold Orb.gravityAccel Orb.hiFiGravity
    simp only [npDiv, npVDiv, hlen, if_neg (pow_pos hr 2).ne', if_neg hr.ne']
    cases hiFi
    · exact ⟨_, rfl⟩
    · exact ⟨_, rfl⟩
  obtain ⟨G, hG⟩ : ∃ G, gravityFT hiFi sat s = .ok G := by
    unfold gravityFT
    simp only [hg, npVDiv, npDiv, hlen, if_neg (pow_pos hr 3).ne', if_neg hr.ne']
    exact ⟨_, rfl⟩
  have henv : ∀ m, ∃ e, envFT hiFi sat s m = .ok e := by
    intro m
    unfold envFT
    simp only [hS, hD, hG, hB]
    exact ⟨_, rfl⟩
  obtain ⟨e0, he0⟩ := henv 0
  obtain ⟨ms, hms⟩ := pyForall_total (f := fun i => (sat.mt i).actuate (cur i)) fun i => hmt i (cur i)
  obtain ⟨env, he⟩ := henv fun k => ∑ i, ms i k
  refine ⟨e0, _, he0, by
    unfold vectorField sysActuate
    simp only [hms, he, derivative, npVDiv, hb.mass_eq.1, if_neg hm]
    rfl⟩

/-- Outside of those heights it always raises. -/
theorem C92_outside {sat : Satellite} {s : SatState sat.rw.n}
    (hh : s.attrs.h < 250000 ∨ 500000 ≤ s.attrs.h) (hiFi : Bool)
    (cur : Fin sat.nMt → ℝ) (accl : Fin sat.rw.n → ℝ) :
    ∃ e, vectorField hiFi sat s cur accl = .error e := by
  obtain ⟨e, he⟩ := C47_shape.raises s.attrs.h hh
  have he' : Orb.atmoDensity s = .error e := he
  have hD : ∃ e, dragFT sat s = .error e := by
    unfold dragFT
    simp only [npVDiv, he']
    split_ifs
    · exact ⟨_, rfl⟩
    · exact ⟨_, rfl⟩
  obtain ⟨e', hD⟩ := hD
  unfold vectorField
  cases sysActuate sat.mt cur with
  | error e => exact ⟨_, rfl⟩
  | ok m =>
    simp only [envFT, hD]
    cases solarFT sat s with
    | error e => exact ⟨_, rfl⟩
    | ok S => exact ⟨_, rfl⟩

theorem exRaw_not_sun {n : ℕ} {a : Raw n} (h : npNorm a.pos < 1e11) (c : JClock) :
    a.pos ≠ Orb.AU • Orb.earthToSun c.julianDate := by
  intro h'
  have h1 := congrArg npNorm h'
  rw [npNorm_smul, show npNorm (Orb.earthToSun c.julianDate) = 1 from earthToSun_unit _] at h1
  unfold Orb.AU at h1
  norm_num at h1
  rw [h1] at h
  norm_num at h

/-- The example satellite on the example orbit can be simulated. -/
theorem exVectorField : ∃ (sat : Satellite) (s : SatState sat.rw.n),
    Built sat 2 ![0.1, 0.1, 0.2] 0.8 2.2 ∧ SatState.new (exRaw sat.rw.n) (some exClock) = .ok s ∧
    s.attrs.h = 421863 ∧ ∀ hiFi cur accl, ∃ d, vectorField hiFi sat s cur accl = .ok d := by
  obtain ⟨sat, hb, -, hmt, -⟩ := exSat
  obtain ⟨s, hs, hh⟩ := exState sat.rw.n
  refine ⟨sat, s, hb, hs, hh, fun hiFi cur accl => ?_⟩
  obtain ⟨-, d, -, hd⟩ := C92_defined hb (by norm_num) hmt hs (by rw [hh]; norm_num) (by rw [hh]; norm_num)
    (by
      intro h
      have := congrFun h 2
      simp [exRaw] at this)
    (exRaw_not_sun (by
      have : npNorm (exRaw sat.rw.n).pos = 6800000 := by simp [exRaw, npNorm, Fin.sum_univ_three]
      rw [this]; norm_num) _) hiFi cur accl
  exact ⟨d, hd⟩

example : ∃ (sat : Satellite) (s : SatState sat.rw.n) (d : Raw sat.rw.n),
    vectorField true sat s (fun _ => 0.1) (fun _ => 1) = .ok d := by
  obtain ⟨sat, s, -, -, -, h⟩ := exVectorField
  obtain ⟨d, hd⟩ := h true (fun _ => 0.1) (fun _ => 1)
  exact ⟨sat, s, d, hd⟩

/-! ## C72: attitude kinematics -/

theorem vectorField_eq {hiFi : Bool} {sat : Satellite} {s : SatState sat.rw.n} {cur : Fin sat.nMt → ℝ}
    {accl : Fin sat.rw.n → ℝ} {d : Raw sat.rw.n} (h : vectorField hiFi sat s cur accl = .ok d) :
    ∃ m env, sysActuate sat.mt cur = .ok m ∧ envFT hiFi sat s m = .ok env ∧ sat.mass ≠ 0 ∧
      d = { pos := s.attrs.velocity
            vel := fun i => env.F i / sat.mass
            att := (0.5 : ℝ) • Quat.product s.attrs.attitude
              ![0, s.attrs.bodyAngVel 0, s.attrs.bodyAngVel 1, s.attrs.bodyAngVel 2]
            rate := sat.invTotMoment *ᵥ (env.T - sat.rw.torque accl - npCross s.attrs.bodyAngVel
              (sat.rw.momentum s.attrs.wheelVel + sat.totalMoment *ᵥ s.attrs.bodyAngVel))
            whl := accl } := by
  unfold vectorField at h
  cases hm : sysActuate sat.mt cur with
  | error e => rw [hm] at h; simp at h
  | ok m =>
    rw [hm] at h
    simp only at h
    cases he : envFT hiFi sat s m with
    | error e => rw [he] at h; simp at h
    | ok env =>
      rw [he] at h
      simp only [derivative, npVDiv] at h
      by_cases h0 : sat.mass = 0
      · rw [if_pos h0] at h; simp at h
      · rw [if_neg h0] at h
        simp only [Except.ok.injEq] at h
        exact ⟨m, env, rfl, he, h0, h.symm⟩

/-- The attitude derivative is orthogonal to the attitude, so the length of the quaternion is
stationary. -/
theorem C72_orthogonal {hiFi : Bool} {sat : Satellite} {s : SatState sat.rw.n} {cur : Fin sat.nMt → ℝ}
    {accl : Fin sat.rw.n → ℝ} {d : Raw sat.rw.n} (h : vectorField hiFi sat s cur accl = .ok d) :
    s.attrs.attitude ⬝ᵥ d.att = 0 := by
  obtain ⟨m, env, -, -, -, rfl⟩ := vectorField_eq h
  rw [← npDot_eq_dotProduct, npDot4]
  simp only [Pi.smul_apply, smul_eq_mul, product_0, product_1, product_2, product_3, Matrix.cons_val_zero,
    Matrix.cons_val_one, cons4_2, cons4_3]
  ring

/-- The attitude turns with the angular velocity: seen from the body, a vector fixed in space turns with
`-ω`. -/
theorem C72_kinematics {hiFi : Bool} {sat : Satellite} {s : SatState sat.rw.n} {cur : Fin sat.nMt → ℝ}
    {accl : Fin sat.rw.n → ℝ} {d : Raw sat.rw.n} (hs : Consistent s)
    (h : vectorField hiFi sat s cur accl = .ok d) (v : V3) :
    HasDerivAt (fun t : ℝ => toBody (s.arr.att + t • d.att) v)
      (-(s.arr.rate ⨯₃ toBody s.arr.att v)) 0 := by
  obtain ⟨m, env, -, -, -, rfl⟩ := vectorField_eq h
  simp only [← sandwich_eq_toBody, ← npCross_eq_crossProduct]
  rw [← hs.attitude, ← hs.bodyAngVel]
  exact hasDerivAt_sandwich _ _ _

theorem update_ok {n : ℕ} {f : SatState n → Py (Raw n)} {g g' : Integ n}
    (h : g.update f = (.ok (), g')) : ∃ next c c', rk4Step f g.dt g.state = .ok next ∧
      next.clock = some c ∧ c.tick g.dt = (.ok (), c') ∧ g'.dt = g.dt ∧
      mkState { next.arr with att := Vec.normalizeV next.arr.att } (some c') = .ok g'.state ∧
      g.gyro.propagate g.dt g.rng = .ok (g'.gyro, g'.rng) := by
  unfold Integ.update at h
  cases h1 : rk4Step f g.dt g.state with
  | error e => rw [h1] at h; simp at h
  | ok next =>
    rw [h1] at h
    simp only at h
    cases h2 : next.clock with
    | none => rw [h2] at h; simp at h
    | some c =>
      rw [h2] at h
      simp only at h
      rcases h3 : c.tick g.dt with ⟨r, c'⟩
      rw [h3] at h
      cases r with
      | error e => simp at h
      | ok u =>
        simp only [SatState.update] at h
        cases h4 : mkState { next.arr with att := Vec.normalizeV next.arr.att } (some c') with
        | error e => rw [h4] at h; simp at h
        | ok next2 =>
          rw [h4] at h
          simp only at h
          cases h5 : g.gyro.propagate g.dt g.rng with
          | error e => rw [h5] at h; simp at h
          | ok r =>
            obtain ⟨gy, rng⟩ := r
            rw [h5] at h
            simp only [Prod.mk.injEq, true_and] at h
            subst h
            exact ⟨next, c, c', rfl, h2, h3, rfl, h4, rfl⟩

/-- After an update the attitude is a unit quaternion (in the array and in the attribute), unless the
step cancelled it. -/
theorem C72_update {n : ℕ} {f : SatState n → Py (Raw n)} {g g' : Integ n}
    (h : g.update f = (.ok (), g')) :
    g'.state.attrs.attitude = g'.state.arr.att ∧
    (npNorm g'.state.arr.att = 1 ∨
      ∃ next, rk4Step f g.dt g.state = .ok next ∧ next.arr.att = 0 ∧ g'.state.arr.att = 0) := by
  obtain ⟨next, c, c', h1, h2, h3, h4, h5, -⟩ := update_ok h
  obtain ⟨hc, ha, -⟩ := mkState_consistent h5
  refine ⟨hc.attitude, ?_⟩
  rw [ha]
  by_cases h0 : next.arr.att = 0
  · exact Or.inr ⟨next, h1, h0, by simp only [h0]; exact normalize_zero⟩
  · exact Or.inl (npNorm_normalize h0)

/-- Hence after any integration of a unit attitude it is a unit quaternion or zero. -/
theorem C72_integrate {n : ℕ} {f : SatState n → Py (Raw n)} {duration : ℝ} {g g' : Integ n}
    (h : Integrates f duration g (.ok (), g'))
    (h0 : npNorm g.state.arr.att = 1 ∨ g.state.arr.att = 0) :
    npNorm g'.state.arr.att = 1 ∨ g'.state.arr.att = 0 := by
  have aux : ∀ t g r, Loop f duration t g r → r.1 = .ok () →
      (npNorm g.state.arr.att = 1 ∨ g.state.arr.att = 0) →
      npNorm r.2.state.arr.att = 1 ∨ r.2.state.arr.att = 0 := by
    intro t g r hl
    induction hl with
    | done _ => intro _ h; exact h
    | raise _ _ => intro h; simp at h
    | step _ hu _ ih =>
      intro hr h
      apply ih hr
      rcases (C72_update hu).2 with h | ⟨_, _, _, h⟩
      · exact Or.inl h
      · exact Or.inr h
  exact aux _ _ _ h rfl h0

/-! ## C73: angular momentum -/

/-- Specification: the angular momentum of body and wheels in the inertial frame (`sandwich_opp` takes
body components to inertial ones, C07), with `J_i` the spin inertia and `a_i` the axis of wheel `i`. -/
noncomputable def totalMomentum (sat : Satellite) (q : V4) (w : V3) (Ω : Fin sat.rw.n → ℝ) : V3 :=
  sandwichOpp q (sat.totalMoment *ᵥ w +
    ∑ i, ((sat.rw.wheels i).parScalar * Ω i) • (sat.rw.wheels i).axis)

theorem momentum_eq (sat : Satellite) (Ω : Fin sat.rw.n → ℝ) : sat.rw.momentum Ω =
    ∑ i, ((sat.rw.wheels i).parScalar * Ω i) • (sat.rw.wheels i).axis := by
  unfold RWSystem.momentum Wheel.momentum
  apply Finset.sum_congr rfl
  intro i _
  funext k
  simp only [Pi.smul_apply, smul_eq_mul]; ring

theorem torque_eq_momentum (sat : Satellite) (a : Fin sat.rw.n → ℝ) :
    sat.rw.torque a = sat.rw.momentum a := rfl

theorem momentum_add (sat : Satellite) (Ω a : Fin sat.rw.n → ℝ) (t : ℝ) :
    sat.rw.momentum (Ω + t • a) = sat.rw.momentum Ω + t • sat.rw.momentum a := by
  unfold RWSystem.momentum Wheel.momentum
  rw [Finset.smul_sum, ← Finset.sum_add_distrib]
  apply Finset.sum_congr rfl
  intro i _
  funext k
  simp only [Pi.add_apply, Pi.smul_apply, smul_eq_mul]; ring

/-- The rate of change of the total angular momentum along the vector field is the environment torque
(carried to the inertial frame), for every wheel and torquer command. -/
theorem C73_momentum {hiFi : Bool} {sat : Satellite} {mass : ℝ} {dims : V3} {ab cd : ℝ}
    (hb : Built sat mass dims ab cd) {s : SatState sat.rw.n} (hs : Consistent s) {cur : Fin sat.nMt → ℝ}
    {accl : Fin sat.rw.n → ℝ} {d : Raw sat.rw.n} (h : vectorField hiFi sat s cur accl = .ok d) :
    ∃ m env, sysActuate sat.mt cur = .ok m ∧ envFT hiFi sat s m = .ok env ∧
      HasDerivAt (fun t : ℝ => totalMomentum sat (s.arr.att + t • d.att) (s.arr.rate + t • d.rate)
        (s.arr.whl + t • d.whl)) (sandwichOpp s.arr.att env.T) 0 := by
  obtain ⟨m, env, h1, h2, -, rfl⟩ := vectorField_eq h
  refine ⟨m, env, h1, h2, ?_⟩
  rw [← hs.attitude, ← hs.bodyAngVel, ← hs.wheelVel]
  set w := s.attrs.bodyAngVel
  set q := s.attrs.attitude
  set Ω := s.attrs.wheelVel
  set dw := sat.invTotMoment *ᵥ (env.T - sat.rw.torque accl - npCross w
    (sat.rw.momentum Ω + sat.totalMoment *ᵥ w)) with hdw
  have hI : sat.totalMoment *ᵥ dw = env.T - sat.rw.momentum accl - npCross w
      (sat.rw.momentum Ω + sat.totalMoment *ᵥ w) := by
    rw [hdw, Matrix.mulVec_mulVec, hb.inverse, Matrix.one_mulVec]; rfl
  have e : (fun t : ℝ => totalMomentum sat (q + t • ((0.5 : ℝ) • Quat.product q ![0, w 0, w 1, w 2]))
      (w + t • dw) (Ω + t • accl)) = fun t =>
      sandwichOpp (q + t • ((0.5 : ℝ) • Quat.product q ![0, w 0, w 1, w 2]))
        ((sat.totalMoment *ᵥ w + sat.rw.momentum Ω) +
          t • (sat.totalMoment *ᵥ dw + sat.rw.momentum accl)) := by
    funext t
    unfold totalMomentum
    rw [← momentum_eq, momentum_add, Matrix.mulVec_add, Matrix.mulVec_smul]
    congr 1
    rw [smul_add]; abel
  rw [e]
  refine (hasDerivAt_sandwichOpp q w _ _).congr_deriv ?_
  congr 1
  rw [hI, add_comm (sat.totalMoment *ᵥ w)]
  abel

/-- Without environment torque it is conserved. -/
theorem C73_conserved {sat : Satellite} {mass : ℝ} {dims : V3} {ab cd : ℝ}
    (hb : Built sat mass dims ab cd) {s : SatState sat.rw.n} (hs : Consistent s) {env : FT}
    {accl : Fin sat.rw.n → ℝ} {d : Raw sat.rw.n} (h : derivative sat s env accl = .ok d)
    (hT : env.T = 0) :
    HasDerivAt (fun t : ℝ => totalMomentum sat (s.arr.att + t • d.att) (s.arr.rate + t • d.rate)
      (s.arr.whl + t • d.whl)) 0 0 := by
  simp only [derivative, npVDiv] at h
  by_cases h0 : sat.mass = 0
  · rw [if_pos h0] at h; simp at h
  rw [if_neg h0] at h
  simp only [Except.ok.injEq] at h
  subst h
  rw [← hs.attitude, ← hs.bodyAngVel, ← hs.wheelVel, hT]
  set w := s.attrs.bodyAngVel
  set q := s.attrs.attitude
  set Ω := s.attrs.wheelVel
  set dw := sat.invTotMoment *ᵥ (0 - sat.rw.torque accl - npCross w
    (sat.rw.momentum Ω + sat.totalMoment *ᵥ w)) with hdw
  have hI : sat.totalMoment *ᵥ dw = 0 - sat.rw.momentum accl - npCross w
      (sat.rw.momentum Ω + sat.totalMoment *ᵥ w) := by
    rw [hdw, Matrix.mulVec_mulVec, hb.inverse, Matrix.one_mulVec]; rfl
  have e : (fun t : ℝ => totalMomentum sat (q + t • ((0.5 : ℝ) • Quat.product q ![0, w 0, w 1, w 2]))
      (w + t • dw) (Ω + t • accl)) = fun t =>
      sandwichOpp (q + t • ((0.5 : ℝ) • Quat.product q ![0, w 0, w 1, w 2]))
        ((sat.totalMoment *ᵥ w + sat.rw.momentum Ω) +
          t • (sat.totalMoment *ᵥ dw + sat.rw.momentum accl)) := by
    funext t
    unfold totalMomentum
    rw [← momentum_eq, momentum_add, Matrix.mulVec_add, Matrix.mulVec_smul]
    congr 1
    rw [smul_add]; abel
  rw [e]
  refine (hasDerivAt_sandwichOpp q w _ _).congr_deriv ?_
  have hz : sat.totalMoment *ᵥ dw + sat.rw.momentum accl + npCross w
      (sat.totalMoment *ᵥ w + sat.rw.momentum Ω) = 0 := by
    rw [hI, add_comm (sat.totalMoment *ᵥ w)]; abel
  rw [hz]
  apply vec3_ext <;> simp [sandwichOpp, sandwich_0, sandwich_1, sandwich_2]

/-- The rotational energy of the body changes only by the work of the environment and wheel torques: the
gyroscopic term does no work. -/
theorem C73_power {hiFi : Bool} {sat : Satellite} {mass : ℝ} {dims : V3} {ab cd : ℝ}
    (hb : Built sat mass dims ab cd) {s : SatState sat.rw.n} (hs : Consistent s) {cur : Fin sat.nMt → ℝ}
    {accl : Fin sat.rw.n → ℝ} {d : Raw sat.rw.n} (h : vectorField hiFi sat s cur accl = .ok d) :
    ∃ m env, sysActuate sat.mt cur = .ok m ∧ envFT hiFi sat s m = .ok env ∧
      s.arr.rate ⬝ᵥ (sat.totalMoment *ᵥ d.rate) = s.arr.rate ⬝ᵥ (env.T - ∑ i,
        ((sat.rw.wheels i).parScalar * accl i) • (sat.rw.wheels i).axis) := by
  obtain ⟨m, env, h1, h2, -, rfl⟩ := vectorField_eq h
  refine ⟨m, env, h1, h2, ?_⟩
  rw [← hs.bodyAngVel, ← momentum_eq]
  simp only
  rw [Matrix.mulVec_mulVec, hb.inverse, Matrix.one_mulVec, dotProduct_sub _ _ (npCross _ _),
    npCross_eq_crossProduct, dot_self_cross, sub_zero, torque_eq_momentum]

/-- The hypotheses are met by the example satellite. -/
example : ∃ (sat : Satellite) (s : SatState sat.rw.n) (d : Raw sat.rw.n),
    Built sat 2 ![0.1, 0.1, 0.2] 0.8 2.2 ∧ Consistent s ∧
    vectorField false sat s (fun _ => 0.1) (fun _ => 1) = .ok d ∧ s.arr.rate = ![0.1, 0.2, 0.3] := by
  obtain ⟨sat, s, hb, hs, -, h⟩ := exVectorField
  obtain ⟨d, hd⟩ := h false (fun _ => 0.1) (fun _ => 1)
  obtain ⟨h1, h2, -⟩ := C80_new hs
  exact ⟨sat, s, d, hb, h1, hd, by rw [h2]; rfl⟩

/-! ## C77: gravity gradient -/

/-- Specification: the textbook gravity-gradient torque in the body frame for inertia `I`, with `n` the
body components of the direction to the centre of the Earth. -/
noncomputable def gravityGradient (μ r : ℝ) (I : M3) (n : V3) : V3 := (3 * μ / r ^ 3) • (n ⨯₃ (I *ᵥ n))

theorem gravityFT_eq {hiFi : Bool} {sat : Satellite} {a : Raw sat.rw.n} {c : JClock}
    {s : SatState sat.rw.n} (h : SatState.new a (some c) = .ok s) {G : FT}
    (hG : gravityFT hiFi sat s = .ok G) :
    G.T = gravityGradient Orb.MU (npNorm a.pos) sat.totalMoment
      (toBody a.att ((-1 / npNorm a.pos) • a.pos)) ∧
    ∃ g, Orb.gravityAccel hiFi s = .ok g ∧ G.F = sat.mass • g := by
  have hne := (C48_orbital h).1
  have hr := npNorm_pos hne
  obtain ⟨hc, ha, -⟩ := C80_new h
  have hlen : s.attrs.length = npNorm a.pos := by
    obtain ⟨c', lat, long, hh, hc', hl, rfl⟩ := mkState_ok.1 h; rfl
  unfold gravityFT at hG
  cases hg : Orb.gravityAccel hiFi s with
  | error e => rw [hg] at hG; simp at hG
  | ok g =>
    simp only [hg, npVDiv, npDiv, hlen, if_neg (pow_pos hr 3).ne', if_neg hr.ne', Except.ok.injEq,
      hc.position, hc.attitude, ha] at hG
    subst hG
    refine ⟨?_, g, rfl, ?_⟩
    · unfold gravityGradient
      rw [← npCross_eq_crossProduct, ← sandwich_eq_toBody]
      have e : (fun i => (-a.pos) i / npNorm a.pos) = (-1 / npNorm a.pos) • a.pos := by
        funext i; simp only [Pi.neg_apply, Pi.smul_apply, smul_eq_mul]; ring
      rw [e]
    · funext i; simp only [Pi.smul_apply, smul_eq_mul]; ring

/-- The gravity torque is the textbook one, the force is mass times acceleration. -/
theorem C77_formula {hiFi : Bool} {sat : Satellite} {a : Raw sat.rw.n} {c : JClock}
    {s : SatState sat.rw.n} (h : SatState.new a (some c) = .ok s) :
    ∃ G g, gravityFT hiFi sat s = .ok G ∧ Orb.gravityAccel hiFi s = .ok g ∧ G.F = sat.mass • g ∧
      G.T = gravityGradient (6.6743e-11 * 5.9733328e24) (npNorm a.pos) sat.totalMoment
        (toBody a.att ((-1 / npNorm a.pos) • a.pos)) := by
  have hne := (C48_orbital h).1
  have hr := npNorm_pos hne
  have hlen : s.attrs.length = npNorm a.pos := by
    obtain ⟨c', lat, long, hh, hc', hl, rfl⟩ := mkState_ok.1 h; rfl
  obtain ⟨g, hg⟩ : ∃ g, Orb.gravityAccel hiFi s = .ok g := by
    unfold Orb.gravityAccel Orb.hiFiGravity
    simp only [npDiv, npVDiv, hlen, if_neg (pow_pos hr 2).ne', if_neg hr.ne']
    cases hiFi
    · exact ⟨_, rfl⟩
    · exact ⟨_, rfl⟩
  obtain ⟨G, hG⟩ : ∃ G, gravityFT hiFi sat s = .ok G := by
    unfold gravityFT
    simp only [hg, npVDiv, npDiv, hlen, if_neg (pow_pos hr 3).ne', if_neg hr.ne']
    exact ⟨_, rfl⟩
  obtain ⟨h1, g', h2, h3⟩ := gravityFT_eq h hG
  rw [hg] at h2
  obtain rfl := Except.ok.inj h2
  exact ⟨G, g, hG, hg, h3, h1⟩

/-- It is orthogonal to the local vertical, vanishes when the vertical is a principal axis, and does not
change when the position is replaced by its opposite. -/
theorem C77_properties (μ r : ℝ) (I : M3) (q : V4) (x : V3) (k : ℝ) :
    let n := toBody q ((-1 / r) • x)
    gravityGradient μ r I n ⬝ᵥ n = 0 ∧
    (∀ lam : ℝ, I *ᵥ n = lam • n → gravityGradient μ r I n = 0) ∧
    gravityGradient μ r (k • (1 : M3)) n = 0 ∧
    gravityGradient μ r I (toBody q ((-1 / r) • (-x))) = gravityGradient μ r I n := by
  intro n
  have hvan : ∀ (I : M3) (lam : ℝ), I *ᵥ n = lam • n → gravityGradient μ r I n = 0 := by
    intro I lam h
    unfold gravityGradient
    rw [h, map_smul, cross_self, smul_zero, smul_zero]
  refine ⟨?_, hvan I, hvan _ k (by rw [Matrix.smul_mulVec, Matrix.one_mulVec]), ?_⟩
  · unfold gravityGradient
    rw [smul_dotProduct, dotProduct_comm, dot_self_cross, smul_zero]
  · have e : toBody q ((-1 / r) • (-x)) = -n := by
      simp only [n, ← sandwich_eq_toBody]
      rw [smul_neg, ← neg_one_smul ℝ, sandwich_smul, neg_one_smul]
    rw [e]
    unfold gravityGradient
    rw [Matrix.mulVec_neg]
    simp

/-- The state does satisfy the hypothesis, and the torque is not trivially zero. -/
example : gravityGradient 1 1 (Matrix.diagonal ![1, 2, 3]) ![0.6, 0.8, 0] 2 = 3 * 0.48 := by
  simp [gravityGradient, cross_apply, Matrix.mulVec_diagonal]; norm_num

/-! ## C78: drag -/

theorem FT.sum_six (w1 w2 w3 w4 w5 w6 : FT) : Dyn.FT.sum [w1, w2, w3, w4, w5, w6] =
    ⟨0 + w1.F + w2.F + w3.F + w4.F + w5.F + w6.F, 0 + w1.T + w2.T + w3.T + w4.T + w5.T + w6.T⟩ := rfl

theorem drag_sum (dims : V3) (ab p : ℝ) (v : V3) :
    (Dyn.FT.sum ((boxWalls (dims 0) (dims 1) (dims 2) ab).map fun w => w.dragForce p v)).F =
      (p * exposedArea dims v) • v := by
  have e0 := max_pair (v 0); have e1 := max_pair (v 1); have e2 := max_pair (v 2)
  simp only [boxWalls, List.map_cons, List.map_nil, FT.sum_six, Wall.dragForce, Wall.centerOfPressure,
    Wall.projectedArea, Wall.init, npDot3, exposedArea]
  generalize hm : (max : ℝ → ℝ → ℝ) 0 = m at *
  funext i
  rw [← e0, ← e1, ← e2]
  simp
  ring

/-- The drag force at a unit attitude: `-1/2 ρ C_d A |v| v` in the inertial frame, with `v` the velocity
relative to the air as the environment computes it (but see C46) and `A` the area the satellite shows to
it. -/
theorem C78_formula {sat : Satellite} {mass : ℝ} {dims : V3} {ab cd : ℝ} (hb : Built sat mass dims ab cd)
    {a : Raw sat.rw.n} {c : JClock} {s : SatState sat.rw.n} (h : SatState.new a (some c) = .ok s)
    (hq : npNorm a.att = 1) {v : V3}
    (hv : v = ![a.vel 0 + 7.2921158553e-5 * a.pos 1, a.vel 1 + 7.2921158553e-5 * a.pos 0, a.vel 2])
    (hv0 : v ≠ 0) {ρ : ℝ} (hρ : Orb.atmoDensity s = .ok ρ) :
    ∃ D, dragFT sat s = .ok D ∧
      D.F = (-(1 / 2 * ρ * cd * exposedArea dims (toBody a.att ((1 / npNorm v) • v)) * npNorm v)) • v := by
  obtain ⟨hc, ha, -⟩ := C80_new h
  have hrel : Orb.relativeVel s = v := by
    unfold Orb.relativeVel Orb.earthRotation; rw [hc.v, hc.x, ha, hv]
  have hn := npNorm_pos hv0
  obtain ⟨-, hcd, hw⟩ := hb.mass_eq
  unfold dragFT
  simp only [hrel, npVDiv, if_neg hn.ne', hρ, hcd, hw, drag_sum, hc.attitude, ha]
  refine ⟨_, rfl, ?_⟩
  have e : (fun i => v i / npNorm v) = (1 / npNorm v) • v := by
    funext i; simp only [Pi.smul_apply, smul_eq_mul]; ring
  simp only [e]
  have hop : ∀ (k : ℝ) (u : V3), sandwichOpp a.att (k • sandwich a.att u) = k • u := by
    intro k u
    rw [← sandwich_smul, sandwichOpp_sandwich ((isUnit4_iff _).2 hq)]
  rw [hop, smul_smul, ← sandwich_eq_toBody]
  congr 1
  generalize exposedArea dims _ = A
  field_simp
  norm_num
  ring

/-- So for a non-negative drag coefficient and dimensions it never accelerates the satellite along that
velocity, and it strictly brakes it when they are positive. -/
theorem C78_dissipates {sat : Satellite} {mass : ℝ} {dims : V3} {ab cd : ℝ}
    (hb : Built sat mass dims ab cd) (hcd : 0 ≤ cd) (hd : ∀ i, 0 ≤ dims i)
    {a : Raw sat.rw.n} {c : JClock} {s : SatState sat.rw.n} (h : SatState.new a (some c) = .ok s)
    (hq : npNorm a.att = 1) {v : V3}
    (hv : v = ![a.vel 0 + 7.2921158553e-5 * a.pos 1, a.vel 1 + 7.2921158553e-5 * a.pos 0, a.vel 2])
    (hv0 : v ≠ 0) {ρ : ℝ} (hρ : Orb.atmoDensity s = .ok ρ) :
    ∃ (D : FT) (k : ℝ), dragFT sat s = .ok D ∧ k ≤ 0 ∧ D.F = k • v ∧ D.F ⬝ᵥ v ≤ 0 ∧
      (0 < cd → (∀ i, 0 < dims i) → k < 0 ∧ D.F ⬝ᵥ v < 0) := by
  obtain ⟨D, hD, hF⟩ := C78_formula hb h hq hv hv0 hρ
  have hn := npNorm_pos hv0
  have hρ0 : 0 < ρ := by
    have hρ' : Plain.atmoDensity s.attrs.h = .ok ρ := hρ
    by_cases hr : 250000 ≤ s.attrs.h ∧ s.attrs.h < 500000
    · obtain ⟨ρ', h1, h2⟩ := C47_shape.defined _ hr.1 hr.2
      rw [hρ'] at h2
      obtain rfl := Except.ok.inj h2
      exact h1
    · obtain ⟨e, he⟩ := C47_shape.raises s.attrs.h (by
        by_contra hc; push Not at hc; exact hr hc)
      rw [hρ'] at he; simp at he
  have hu : toBody a.att ((1 / npNorm v) • v) ≠ 0 := by
    rw [← sandwich_eq_toBody]
    intro h0
    have h1 := (C06_sandwich_preserves a.att hq ((1 / npNorm v) • v) 0).2.1
    rw [h0, npNorm_eq_zero.2 rfl, npNorm_smul, abs_of_pos (by positivity)] at h1
    have : 1 / npNorm v * npNorm v = 1 := by field_simp
    rw [this] at h1; norm_num at h1
  set A := exposedArea dims (toBody a.att ((1 / npNorm v) • v)) with hA
  have hA0 : 0 ≤ A := by
    rw [hA]; unfold exposedArea
    have h0 := hd 0; have h1 := hd 1; have h2 := hd 2
    positivity
  have hvv : 0 < v ⬝ᵥ v := by rw [← npDot_eq_dotProduct, ← npNorm_sq_dot]; positivity
  refine ⟨D, -(1 / 2 * ρ * cd * A * npNorm v), hD, ?_, hF, ?_, ?_⟩
  · have : 0 ≤ 1 / 2 * ρ * cd * A * npNorm v := by positivity
    linarith
  · rw [hF, smul_dotProduct, smul_eq_mul]
    have : 0 ≤ 1 / 2 * ρ * cd * A * npNorm v := by positivity
    nlinarith
  · intro hcd' hd'
    have hApos : 0 < A := by
      obtain ⟨P, p, r, rw', nMt, mt, ins, hi⟩ := hb
      obtain ⟨A', c', h1, h2, -⟩ := C43_positive hi hd' hu
      rw [C43_area hi] at h1
      split_ifs at h1 with hz
      simp only [Except.ok.injEq, Prod.mk.injEq] at h1
      rw [hA, h1.1]; exact h2
    have : 0 < 1 / 2 * ρ * cd * A * npNorm v := by positivity
    refine ⟨by linarith, ?_⟩
    rw [hF, smul_dotProduct, smul_eq_mul]
    nlinarith

/-- The hypotheses are met by the example. -/
example : ∃ (sat : Satellite) (s : SatState sat.rw.n) (ρ : ℝ),
    Built sat 2 ![0.1, 0.1, 0.2] 0.8 2.2 ∧ SatState.new (exRaw sat.rw.n) (some exClock) = .ok s ∧
    npNorm (exRaw sat.rw.n).att = 1 ∧ Orb.atmoDensity s = .ok ρ ∧
    ![(exRaw sat.rw.n).vel 0 + 7.2921158553e-5 * (exRaw sat.rw.n).pos 1,
      (exRaw sat.rw.n).vel 1 + 7.2921158553e-5 * (exRaw sat.rw.n).pos 0,
      (exRaw sat.rw.n).vel 2] ≠ 0 := by
  obtain ⟨sat, s, hb, hs, hh, -⟩ := exVectorField
  obtain ⟨ρ, -, hρ⟩ := C47_shape.defined s.attrs.h (by rw [hh]; norm_num) (by rw [hh]; norm_num)
  refine ⟨sat, s, ρ, hb, hs, npNorm_vec4 (by norm_num), hρ, ?_⟩
  intro h
  have := congrFun h 2
  simp [exRaw] at this

/-! ## C79: solar torque -/

/-- The full claim: at every state in sunlight the torque is that of the walls lit from the direction of
the sun as seen from the body. -/
def SolarTorqueFollowsAttitude : Prop :=
  ∀ (sat : Satellite) (mass : ℝ) (dims : V3) (ab cd : ℝ), Built sat mass dims ab cd →
  ∀ (a : Raw sat.rw.n) (c : JClock) (s : SatState sat.rw.n), SatState.new a (some c) = .ok s →
    npNorm a.att = 1 → ∀ i ft, Orb.srpInfo s = .ok i → i.inShadow = false → solarFT sat s = .ok ft →
    ft.T = (Dyn.FT.sum (sat.walls.map fun w => w.srpForce i.srp (toBody a.att i.S))).T

theorem solar_sum_T (dims : V3) (ab p : ℝ) (S : V3) (h0 : 0 ≤ S 0) (h1 : 0 ≤ S 1) (h2 : 0 ≤ S 2) :
    (Dyn.FT.sum ((boxWalls (dims 0) (dims 1) (dims 2) ab).map fun w => w.srpForce p S)).T =
      (-(p * ab * (dims 0 * dims 1 * dims 2) / 2)) •
        ![S 1 * S 2 * (dims 0 * dims 2 * S 1 - dims 0 * dims 1 * S 2),
          S 2 * S 0 * (dims 0 * dims 1 * S 2 - dims 1 * dims 2 * S 0),
          S 0 * S 1 * (dims 1 * dims 2 * S 0 - dims 0 * dims 2 * S 1)] := by
  have a0 : max 0 (S 0) = S 0 := max_eq_right h0
  have a1 : max 0 (S 1) = S 1 := max_eq_right h1
  have a2 : max 0 (S 2) = S 2 := max_eq_right h2
  have b0 : max 0 (-S 0) = 0 := max_eq_left (by linarith)
  have b1 : max 0 (-S 1) = 0 := max_eq_left (by linarith)
  have b2 : max 0 (-S 2) = 0 := max_eq_left (by linarith)
  simp only [boxWalls, List.map_cons, List.map_nil, FT.sum_six, Wall.srpForce, Wall.centerOfPressure,
    Wall.projectedArea, Wall.init, npDot3]
  generalize hm : (max : ℝ → ℝ → ℝ) 0 = m at *
  apply vec3_ext <;> simp [npCross_0, npCross_1, npCross_2, a0, a1, a2, b0, b1, b2] <;> ring

/-- The torque in the code does not depend on the attitude at all: it is that of the walls lit from the
inertial sun direction. -/
theorem C79_attitude_ignored {sat : Satellite} {a : Raw sat.rw.n} {c : JClock} {s : SatState sat.rw.n}
    (h : SatState.new a (some c) = .ok s) (q : V4) :
    ∃ s', SatState.new { a with att := q } (some c) = .ok s' ∧
      ∀ ft, solarFT sat s = .ok ft → ∃ ft', solarFT sat s' = .ok ft' ∧ ft'.T = ft.T := by
  obtain ⟨c', lat, long, hh, hc', hl, rfl⟩ := mkState_ok.1 h
  obtain rfl := Option.some.inj hc'
  refine ⟨_, mkState_ok.2 ⟨c, lat, long, hh, rfl, hl, rfl⟩, ?_⟩
  intro ft hft
  unfold solarFT at hft ⊢
  simp only [Orb.srpInfo] at hft ⊢
  split at hft
  · simp at hft
  · rename_i i hi
    rw [hi]
    simp only
    split_ifs at hft ⊢ with hsh
    · exact ⟨_, rfl, by rw [← Except.ok.inj hft]⟩
    · exact ⟨_, rfl, by rw [← Except.ok.inj hft]⟩

/-- A place in sunlight at a given time: 6800 km from the centre on one side of the x axis. -/
theorem exLit (n : ℕ) (c : JClock) (q : V4) : ∃ (a : Raw n) (s : SatState n) (i : SRPInfo),
    SatState.new a (some c) = .ok s ∧ a.att = q ∧ Orb.srpInfo s = .ok i ∧ i.inShadow = false ∧
    npNorm i.S = 1 ∧ 0 < i.srp := by
  set s0 := Orb.earthToSun c.julianDate with hs0
  obtain ⟨k, hk, hk2⟩ : ∃ k : ℝ, k ^ 2 = 6800000 ^ 2 ∧ 0 ≤ k * s0 0 := by
    rcases le_total 0 (s0 0) with h | h
    · exact ⟨6800000, rfl, by positivity⟩
    · exact ⟨-6800000, by norm_num, by nlinarith⟩
  set a : Raw n := ⟨![k, 0, 0], ![0, 6000, 4000], q, ![0.1, 0.2, 0.3], fun _ => 100⟩ with ha
  have e : a.pos 0 ^ 2 + a.pos 1 ^ 2 = 6800000 ^ 2 := by simp [ha, hk]
  obtain ⟨s, hs, -, -, -⟩ := mkState_equator a c (by simp [ha]) (by rw [e]; norm_num)
    (by
      rw [e, Real.sqrt_sq (by norm_num)]
      have := wgsE2_lt; have := wgsE2_pos
      unfold Fr.wgsA; nlinarith)
  have hn : npNorm a.pos = 6800000 := by
    have : npNorm a.pos ^ 2 = 6800000 ^ 2 := by
      rw [npNorm3_sq]; simp [ha, hk]
    exact (pow_left_inj₀ (npNorm_nonneg _) (by norm_num) (by norm_num)).1 this
  have hx : a.pos ≠ Plain.AU • Plain.earthToSun c.julianDate :=
    exRaw_not_sun (by rw [hn]; norm_num) c
  obtain ⟨i, hi, hp, hS, -, hsh, -⟩ := C51_sun c a.pos hx
  refine ⟨a, s, i, hs, rfl, ((C52_agree hs false 0).2.1).trans hi, ?_, hS, hp⟩
  rw [Bool.eq_false_iff]
  intro hc
  have := ((hsh (by rw [hn]; unfold Plain.earthRad; norm_num)).1 hc).1
  have e2 : a.pos ⬝ᵥ Plain.earthToSun c.julianDate = k * s0 0 := by
    rw [Matrix.vec3_dotProduct]; simp only [ha, Matrix.cons_val_zero, Matrix.cons_val_one, cons3_2, zero_mul, add_zero]; rfl
  linarith

theorem solarFT_eq {sat : Satellite} {a : Raw sat.rw.n} {c : JClock} {s : SatState sat.rw.n}
    (h : SatState.new a (some c) = .ok s) {i : SRPInfo} (hi : Orb.srpInfo s = .ok i)
    (hsh : i.inShadow = false) : ∃ ft, solarFT sat s = .ok ft ∧
      ft.T = (Dyn.FT.sum (sat.walls.map fun w => w.srpForce i.srp i.S)).T ∧
      ft.F = sandwichOpp a.att (Dyn.FT.sum (sat.walls.map fun w => w.srpForce i.srp i.S)).F := by
  obtain ⟨hc, ha, -⟩ := C80_new h
  unfold solarFT
  simp only [hi, hsh, Bool.false_eq_true, if_false]
  exact ⟨_, rfl, rfl, by rw [hc.attitude, ha]⟩

/-- The full claim is false, at every date. -/
theorem C79_attitude_fails : ¬ SolarTorqueFollowsAttitude := by
  intro H
  obtain ⟨sat, hb, -⟩ := exSat
  -- two sun directions seen from the body with different torques
  have key : ∀ u : V3, npNorm u = 1 → ∀ (c : JClock), ∀ (a : Raw sat.rw.n) (s : SatState sat.rw.n)
      (i : SRPInfo), SatState.new a (some c) = .ok s → Orb.srpInfo s = .ok i → i.inShadow = false →
      npNorm i.S = 1 → i.S ⬝ᵥ u ≠ -1 →
      (Dyn.FT.sum (sat.walls.map fun w => w.srpForce i.srp i.S)).T =
        (Dyn.FT.sum (sat.walls.map fun w => w.srpForce i.srp u)).T := by
    intro u hu c a s i hs hi hsh hS hne
    obtain ⟨q, hq, hqS⟩ := exists_attitude hS hu hne
    obtain ⟨c', lat, long, hh, hc', hl, e⟩ := mkState_ok.1 hs
    obtain rfl := Option.some.inj hc'
    obtain ⟨s', hs'⟩ : ∃ s', SatState.new { a with att := q } (some c) = .ok s' :=
      ⟨_, mkState_ok.2 ⟨c, lat, long, hh, rfl, hl, rfl⟩⟩
    have hi' : Orb.srpInfo s' = .ok i := by
      have h1 := (C52_agree hs' false 0).2.1
      have h2 := (C52_agree hs false 0).2.1
      rw [h1]; rw [h2] at hi; exact hi
    obtain ⟨ft, hft, hT, -⟩ := solarFT_eq (sat := sat) hs' hi' hsh
    have := H sat _ _ _ _ hb { a with att := q } c s' hs' hq i ft hi' hsh hft
    simp only [← sandwich_eq_toBody, hqS] at this
    rw [← this, hT]
  obtain ⟨a, s, i, hs, -, hi, hsh, hS, hp⟩ := exLit sat.rw.n exClock ![1, 0, 0, 0]
  -- three directions; at most one is opposite to the sun
  have hw := hb.mass_eq.2.2
  set u1 : V3 := ![1, 0, 0] with hu1
  set u2 : V3 := ![0, 1, 0] with hu2
  set u3 : V3 := ![0.6, 0.0, 0.8] with hu3
  set u4 : V3 := ![0.8, 0.0, 0.6] with hu4
  have T1 : (Dyn.FT.sum (sat.walls.map fun w => w.srpForce i.srp u1)).T = 0 := by
    rw [hw, solar_sum_T] <;> simp [hu1]
  have T2 : (Dyn.FT.sum (sat.walls.map fun w => w.srpForce i.srp u2)).T = 0 := by
    rw [hw, solar_sum_T] <;> simp [hu2]
  have T3 : (Dyn.FT.sum (sat.walls.map fun w => w.srpForce i.srp u3)).T 1 ≠ 0 := by
    rw [hw, solar_sum_T _ _ _ _ (by norm_num [hu3]) (by norm_num [hu3]) (by norm_num [hu3])]
    simp only [hu3]
    norm_num [hp.ne']
  have T4 : (Dyn.FT.sum (sat.walls.map fun w => w.srpForce i.srp u4)).T 1 ≠ 0 := by
    rw [hw, solar_sum_T _ _ _ _ (by norm_num [hu4]) (by norm_num [hu4]) (by norm_num [hu4])]
    simp only [hu4]
    norm_num [hp.ne']
  have n1 : npNorm u1 = 1 := npNorm_vec3 (by norm_num)
  have n2 : npNorm u2 = 1 := npNorm_vec3 (by norm_num)
  have n3 : npNorm u3 = 1 := npNorm_vec3 (by norm_num)
  have n4 : npNorm u4 = 1 := npNorm_vec3 (by norm_num)
  have hSS := npNorm_eq_one.1 hS
  rw [Fin.sum_univ_three] at hSS
  -- the torque at the state is zero
  have hz : (Dyn.FT.sum (sat.walls.map fun w => w.srpForce i.srp i.S)).T = 0 := by
    by_cases h1 : i.S ⬝ᵥ u1 = -1
    · have h2 : i.S ⬝ᵥ u2 ≠ -1 := by
        rw [Matrix.vec3_dotProduct] at h1 ⊢
        simp [hu1, hu2] at h1 ⊢
        intro h2
        rw [h1, h2] at hSS
        nlinarith [sq_nonneg (i.S 2)]
      rw [key u2 n2 exClock a s i hs hi hsh hS h2, T2]
    · rw [key u1 n1 exClock a s i hs hi hsh hS h1, T1]
  by_cases h3 : i.S ⬝ᵥ u3 = -1
  · have h4 : i.S ⬝ᵥ u4 ≠ -1 := by
      rw [Matrix.vec3_dotProduct] at h3 ⊢
      simp [hu3, hu4] at h3 ⊢
      intro h4
      have e1 : i.S 0 = -5 / 7 := by linarith
      have e2 : i.S 2 = -5 / 7 := by linarith
      rw [e1, e2] at hSS
      nlinarith [sq_nonneg (i.S 1)]
    apply T4
    rw [← key u4 n4 exClock a s i hs hi hsh hS h4, hz]; rfl
  · apply T3
    rw [← key u3 n3 exClock a s i hs hi hsh hS h3, hz]; rfl

/-- What holds: in shadow force and torque are zero, and the claim is true at the identity attitude,
where force and torque are those of the walls lit from the sun's direction. Missing: the sun vector
should be carried to the body frame first. -/
theorem C79_attitude_partial {sat : Satellite} {a : Raw sat.rw.n} {c : JClock} {s : SatState sat.rw.n}
    (h : SatState.new a (some c) = .ok s) {i : SRPInfo} (hi : Orb.srpInfo s = .ok i) :
    (i.inShadow = true → ∃ ft, solarFT sat s = .ok ft ∧ ft.F = 0 ∧ ft.T = 0) ∧
    (i.inShadow = false → a.att = ![1, 0, 0, 0] → ∃ ft, solarFT sat s = .ok ft ∧
      ft.T = (Dyn.FT.sum (sat.walls.map fun w => w.srpForce i.srp (toBody a.att i.S))).T ∧
      ft.F = (Dyn.FT.sum (sat.walls.map fun w => w.srpForce i.srp (toBody a.att i.S))).F) := by
  constructor
  · intro hsh
    exact ⟨⟨0, 0⟩, by unfold solarFT; simp only [hi, hsh, if_true], rfl, rfl⟩
  · intro hsh hq
    obtain ⟨ft, h1, h2, h3⟩ := solarFT_eq (sat := sat) h hi hsh
    refine ⟨ft, h1, ?_, ?_⟩
    · rw [h2, ← sandwich_eq_toBody, hq, sandwich_one]
    · rw [h3, ← sandwich_eq_toBody, hq, sandwich_one]
      have : sandwichOpp ![1, 0, 0, 0] = sandwich ![1, 0, 0, 0] := by
        unfold sandwichOpp
        have : conjugate ![1, 0, 0, 0] = ![1, 0, 0, 0] := by
          apply vec4_ext <;> simp [conjugate_0, conjugate_1, conjugate_2, conjugate_3]
        rw [this]
      rw [this, sandwich_one]

example (c : JClock) : ∃ (a : Raw 3) (s : SatState 3) (i : SRPInfo), SatState.new a (some c) = .ok s ∧
    Orb.srpInfo s = .ok i ∧ i.inShadow = false ∧ a.att = ![1, 0, 0, 0] := by
  obtain ⟨a, s, i, h1, h2, h3, h4, -⟩ := exLit 3 c ![1, 0, 0, 0]
  exact ⟨a, s, i, h1, h3, h4, h2⟩

end Adcs
