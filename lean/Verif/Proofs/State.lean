import Verif.Model.State
import Verif.Props.Geodetic

set_option autoImplicit false

/-! # Helper lemmas about state objects -/

namespace Adcs.Dyn

open Adcs JDay Fr
open scoped Matrix

theorem mkState_ok {n : ℕ} {a : Raw n} {clk : Option JClock} {s : SatState n} :
    mkState a clk = .ok s ↔ ∃ c lat long h, clk = some c ∧
      ecefToLla (inertialToEcef c.thetaGmst *ᵥ a.pos) = .ok (lat, long, h) ∧
      s = { arr := a, clock := some c, attrs :=
        { position := a.pos, velocity := a.vel, attitude := a.att, bodyAngVel := a.rate,
          wheelVel := a.whl, x := a.pos, v := a.vel, gciToEcef := inertialToEcef c.thetaGmst,
          rEcef := inertialToEcef c.thetaGmst *ᵥ a.pos, length := npNorm a.pos, lat := lat,
          long := long, h := h } } := by
  constructor
  · intro h
    cases clk with
    | none => simp [mkState] at h
    | some c =>
      simp only [mkState, attrsOf] at h
      cases hl : ecefToLla (inertialToEcef c.thetaGmst *ᵥ a.pos) with
      | error e => rw [hl] at h; simp at h
      | ok r =>
        obtain ⟨lat, long, hh⟩ := r
        rw [hl] at h
        simp only [Except.ok.injEq] at h
        exact ⟨c, lat, long, hh, rfl, hl, h.symm⟩
  · rintro ⟨c, lat, long, h, rfl, hl, rfl⟩
    simp [mkState, attrsOf, hl]

theorem add_arr {n : ℕ} (a b : Raw n) : a + b = Raw.add a b := rfl
theorem smul_arr {n : ℕ} (c : ℝ) (b : Raw n) : c • b = Raw.smul c b := rfl
@[simp] theorem add_pos' {n : ℕ} (a b : Raw n) : (a + b).pos = a.pos + b.pos := rfl
@[simp] theorem add_vel {n : ℕ} (a b : Raw n) : (a + b).vel = a.vel + b.vel := rfl
@[simp] theorem add_att {n : ℕ} (a b : Raw n) : (a + b).att = a.att + b.att := rfl
@[simp] theorem add_rate {n : ℕ} (a b : Raw n) : (a + b).rate = a.rate + b.rate := rfl
@[simp] theorem add_whl {n : ℕ} (a b : Raw n) : (a + b).whl = a.whl + b.whl := rfl
@[simp] theorem smul_pos' {n : ℕ} (c : ℝ) (b : Raw n) : (c • b).pos = c • b.pos := rfl
@[simp] theorem smul_vel {n : ℕ} (c : ℝ) (b : Raw n) : (c • b).vel = c • b.vel := rfl
@[simp] theorem smul_att {n : ℕ} (c : ℝ) (b : Raw n) : (c • b).att = c • b.att := rfl
@[simp] theorem smul_rate {n : ℕ} (c : ℝ) (b : Raw n) : (c • b).rate = c • b.rate := rfl
@[simp] theorem smul_whl {n : ℕ} (c : ℝ) (b : Raw n) : (c • b).whl = c • b.whl := rfl

theorem inertialToEcef_mulVec (θ : ℝ) (x : V3) : inertialToEcef θ *ᵥ x =
    ![Real.cos θ * x 0 + Real.sin θ * x 1, -Real.sin θ * x 0 + Real.cos θ * x 1, x 2] := by
  apply vec3_ext <;> simp [inertialToEcef, Matrix.mulVec, dotProduct, Fin.sum_univ_three]

/-- A state in the equatorial plane can be constructed at every time, and its height is the distance
minus the equatorial radius. -/
theorem mkState_equator {n : ℕ} (a : Raw n) (c : JClock) (hz : a.pos 2 = 0)
    (h0 : 0 < a.pos 0 ^ 2 + a.pos 1 ^ 2) (h1 : Real.sqrt (a.pos 0 ^ 2 + a.pos 1 ^ 2) ≠ wgsA * wgsE2) :
    ∃ s, mkState a (some c) = .ok s ∧ s.attrs.h = Real.sqrt (a.pos 0 ^ 2 + a.pos 1 ^ 2) - 6378137 ∧
      s.arr = a ∧ s.clock = some c := by
  set C := Real.cos c.thetaGmst with hC
  set S := Real.sin c.thetaGmst with hS
  have hcs : S ^ 2 + C ^ 2 = 1 := Real.sin_sq_add_cos_sq _
  have hsq : (C * a.pos 0 + S * a.pos 1) * (C * a.pos 0 + S * a.pos 1) +
      (-S * a.pos 0 + C * a.pos 1) * (-S * a.pos 0 + C * a.pos 1) = a.pos 0 ^ 2 + a.pos 1 ^ 2 := by
    linear_combination (a.pos 0 ^ 2 + a.pos 1 ^ 2) * hcs
  have hne : C * a.pos 0 + S * a.pos 1 ≠ 0 ∨ -S * a.pos 0 + C * a.pos 1 ≠ 0 := by
    by_contra hcon
    push Not at hcon
    rw [hcon.1, hcon.2] at hsq
    linarith
  have e := C17_equator (C * a.pos 0 + S * a.pos 1) (-S * a.pos 0 + C * a.pos 1) hne
    (by rw [hsq]; exact h1)
  rw [hsq] at e
  have e2 : inertialToEcef c.thetaGmst *ᵥ a.pos =
      ![C * a.pos 0 + S * a.pos 1, -S * a.pos 0 + C * a.pos 1, 0] := by
    rw [inertialToEcef_mulVec, hz]
  exact ⟨_, mkState_ok.2 ⟨c, _, _, _, rfl, by rw [e2]; exact e, rfl⟩, rfl, rfl, rfl⟩

end Adcs.Dyn
