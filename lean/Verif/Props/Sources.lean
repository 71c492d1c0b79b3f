import Verif.Props.Dynamics

set_option autoImplicit false

/-! # C159: what moves the satellite, and what the magnetorquers can do -/

namespace Adcs

open Str Dyn Env Quat JDay Fr
open scoped Matrix

theorem envFT_eq {hiFi : Bool} {sat : Satellite} {s : SatState sat.rw.n} {m : V3} {env : FT}
    (h : envFT hiFi sat s m = .ok env) : ∃ S D Gr B, solarFT sat s = .ok S ∧ dragFT sat s = .ok D ∧
      gravityFT hiFi sat s = .ok Gr ∧ Orb.magneticField s = .ok B ∧ env.F = D.F + Gr.F + S.F ∧
      env.T = D.T + Gr.T + S.T + m ⨯₃ toBody s.attrs.attitude B := by
  unfold envFT at h
  cases hS : solarFT sat s with
  | error e => rw [hS] at h; simp at h
  | ok S =>
    cases hD : dragFT sat s with
    | error e => rw [hS, hD] at h; simp at h
    | ok D =>
      cases hG : gravityFT hiFi sat s with
      | error e => rw [hS, hD, hG] at h; simp at h
      | ok Gr =>
        cases hB : Orb.magneticField s with
        | error e => rw [hS, hD, hG, hB] at h; simp at h
        | ok B =>
          rw [hS, hD, hG, hB] at h
          simp only [Except.ok.injEq] at h
          subst h
          refine ⟨S, D, Gr, B, rfl, rfl, rfl, rfl, ?_, ?_⟩
          · simp [FT.add]
          · simp only [FT.add, ← npCross_eq_crossProduct, ← sandwich_eq_toBody]; abel

/-- Turning a cross product. -/
theorem sandwichOpp_cross {q : V4} (h : IsUnit4 q) (m B : V3) :
    sandwichOpp q (npCross m (sandwich q B)) = npCross (sandwichOpp q m) B := by
  have e : npCross m (sandwich q B) = sandwich q (npCross (sandwichOpp q m) B) := by
    rw [npCross_eq_crossProduct, npCross_eq_crossProduct, sandwich_cross h, sandwich_sandwichOpp h]
  rw [e, sandwichOpp_sandwich h]

theorem sandwichOpp_add (q : V4) (a b : V3) : sandwichOpp q (a + b) = sandwichOpp q a + sandwichOpp q b := by
  apply vec3_ext <;> simp only [sandwichOpp, sandwich_0, sandwich_1, sandwich_2, Pi.add_apply] <;> ring

/-- C159: the acceleration is that of air drag, gravity and solar pressure; the rate of change of the angular momentum
in space is their torque, and the moment of the magnetorquers times the magnetic field, all in space. -/
theorem C159_sources {hiFi : Bool} {sat : Satellite} {mass : ℝ} {dims : V3} {ab cd : ℝ}
    (hb : Built sat mass dims ab cd) {s : SatState sat.rw.n} (hs : Consistent s) (hq : IsUnit4 s.arr.att)
    {cur : Fin sat.nMt → ℝ} {accl : Fin sat.rw.n → ℝ} {d : Raw sat.rw.n}
    (h : vectorField hiFi sat s cur accl = .ok d) :
    ∃ S D Gr B m, solarFT sat s = .ok S ∧ dragFT sat s = .ok D ∧ gravityFT hiFi sat s = .ok Gr ∧
      Orb.magneticField s = .ok B ∧ sysActuate sat.mt cur = .ok m ∧
      sat.mass • d.vel = D.F + Gr.F + S.F ∧
      HasDerivAt (fun t : ℝ => totalMomentum sat (s.arr.att + t • d.att) (s.arr.rate + t • d.rate)
        (s.arr.whl + t • d.whl))
        (sandwichOpp s.arr.att (D.T + Gr.T + S.T) + sandwichOpp s.arr.att m ⨯₃ B) 0 := by
  obtain ⟨m, env, h1, h2, hd⟩ := C73_momentum hb hs h
  obtain ⟨m', env', h1', h2', hm, e⟩ := vectorField_eq h
  rw [h1] at h1'; obtain rfl := Except.ok.inj h1'
  rw [h2] at h2'; obtain rfl := Except.ok.inj h2'
  obtain ⟨S, D, Gr, B, hS, hD, hG, hB, eF, eT⟩ := envFT_eq h2
  refine ⟨S, D, Gr, B, m, hS, hD, hG, hB, h1, ?_, hd.congr_deriv ?_⟩
  · rw [e, ← eF]
    funext i
    simp only [Pi.smul_apply, smul_eq_mul]
    field_simp
  · rw [eT, sandwichOpp_add, ← npCross_eq_crossProduct, ← npCross_eq_crossProduct, ← sandwich_eq_toBody, hs.attitude,
      sandwichOpp_cross hq]

/-- C159: other currents change neither the accelerations nor the wheels, and they change the angular acceleration only
across the field. -/
theorem C159_currents {hiFi : Bool} {sat : Satellite} {mass : ℝ} {dims : V3} {ab cd : ℝ}
    (hb : Built sat mass dims ab cd) {s : SatState sat.rw.n} (hs : Consistent s) {cur cur' : Fin sat.nMt → ℝ}
    {accl : Fin sat.rw.n → ℝ} {d d' : Raw sat.rw.n} (h : vectorField hiFi sat s cur accl = .ok d)
    (h' : vectorField hiFi sat s cur' accl = .ok d') :
    d'.pos = d.pos ∧ d'.vel = d.vel ∧ d'.att = d.att ∧ d'.whl = d.whl ∧
    ∃ m m' B, sysActuate sat.mt cur = .ok m ∧ sysActuate sat.mt cur' = .ok m' ∧ Orb.magneticField s = .ok B ∧
      sat.totalMoment *ᵥ (d'.rate - d.rate) = (m' - m) ⨯₃ toBody s.arr.att B ∧
      toBody s.arr.att B ⬝ᵥ (sat.totalMoment *ᵥ (d'.rate - d.rate)) = 0 := by
  obtain ⟨m, env, h1, h2, -, rfl⟩ := vectorField_eq h
  obtain ⟨m', env', h1', h2', -, rfl⟩ := vectorField_eq h'
  obtain ⟨S, D, Gr, B, hS, hD, hG, hB, eF, eT⟩ := envFT_eq h2
  obtain ⟨S', D', Gr', B', hS', hD', hG', hB', eF', eT'⟩ := envFT_eq h2'
  rw [hS] at hS'; obtain rfl := Except.ok.inj hS'
  rw [hD] at hD'; obtain rfl := Except.ok.inj hD'
  rw [hG] at hG'; obtain rfl := Except.ok.inj hG'
  rw [hB] at hB'; obtain rfl := Except.ok.inj hB'
  have key : sat.totalMoment *ᵥ (sat.invTotMoment *ᵥ (env'.T - sat.rw.torque accl - npCross s.attrs.bodyAngVel
        (sat.rw.momentum s.attrs.wheelVel + sat.totalMoment *ᵥ s.attrs.bodyAngVel)) -
      sat.invTotMoment *ᵥ (env.T - sat.rw.torque accl - npCross s.attrs.bodyAngVel
        (sat.rw.momentum s.attrs.wheelVel + sat.totalMoment *ᵥ s.attrs.bodyAngVel))) =
      (m' - m) ⨯₃ toBody s.arr.att B := by
    rw [← Matrix.mulVec_sub, Matrix.mulVec_mulVec, hb.inverse, Matrix.one_mulVec, eT, eT', ← hs.attitude, map_sub,
      LinearMap.sub_apply]
    abel
  refine ⟨rfl, by simp only [eF, eF'], rfl, rfl, m, m', B, h1, h1', hB, key, ?_⟩
  dsimp only
  rw [key, dot_cross_self]

/-- The example satellite, with two different commands. -/
example : ∃ (sat : Satellite) (s : SatState sat.rw.n) (d d' : Raw sat.rw.n),
    Built sat 2 ![0.1, 0.1, 0.2] 0.8 2.2 ∧ Consistent s ∧ IsUnit4 s.arr.att ∧
    vectorField false sat s (fun _ => 0.1) (fun _ => 1) = .ok d ∧
    vectorField false sat s (fun _ => 0.2) (fun _ => 1) = .ok d' := by
  obtain ⟨sat, s, hb, hs, -, h⟩ := exVectorField
  obtain ⟨d, hd⟩ := h false (fun _ => 0.1) (fun _ => 1)
  obtain ⟨d', hd'⟩ := h false (fun _ => 0.2) (fun _ => 1)
  obtain ⟨h1, h2, -⟩ := C80_new hs
  exact ⟨sat, s, d, d', hb, h1, by rw [h2]; norm_num [exRaw, IsUnit4], hd, hd'⟩

end Adcs
