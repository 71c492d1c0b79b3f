import Verif.Model.Dynamics
import Verif.Proofs.Basic
import Verif.Proofs.Wheels

set_option autoImplicit false

/-! # C43-C45: surfaces of the satellite -/

namespace Adcs

open Adcs Str Dyn Vec
open scoped Matrix

/-! ## C43: exposed area -/

/-- Specification: the area a box of these dimensions shows to the direction `v`. -/
def exposedArea (dims v : V3) : ℝ :=
  dims 1 * dims 2 * |v 0| + dims 0 * dims 2 * |v 1| + dims 0 * dims 1 * |v 2|

theorem max_pair (x : ℝ) : max 0 x + max 0 (-x) = |x| := by
  rcases le_total 0 x with h | h
  · rw [max_eq_right h, max_eq_left (by linarith), abs_of_nonneg h, add_zero]
  · rw [max_eq_left h, max_eq_right (by linarith), abs_of_nonpos h, zero_add]

theorem max_pair_sub (x : ℝ) : max 0 x - max 0 (-x) = x := by
  rcases le_total 0 x with h | h
  · rw [max_eq_right h, max_eq_left (by linarith), sub_zero]
  · rw [max_eq_left h, max_eq_right (by linarith)]; ring

theorem satInit_walls {mass : ℝ} {dims : V3} {abs drag : ℝ} {principal products : V3} {reduced : Bool}
    {rw' : RWSystem} {nMt : ℕ} {mt : Fin nMt → Magnetorquer} {ins : List Instrument} {sat : Satellite}
    (h : Satellite.init mass dims abs drag principal products reduced rw' mt ins = .ok sat) :
    sat.walls = boxWalls (dims 0) (dims 1) (dims 2) abs := by
  obtain ⟨-, -, e⟩ := satInit_eq h
  rw [e]

/-- `area_and_cop` on a constructed satellite: the projected area is that of the box, the centre of
pressure is the direction scaled by volume over twice the area, and the call gives nan exactly when no
face is exposed. -/
theorem C43_area {mass : ℝ} {dims : V3} {abs drag : ℝ} {principal products : V3} {reduced : Bool}
    {rw' : RWSystem} {nMt : ℕ} {mt : Fin nMt → Magnetorquer} {ins : List Instrument} {sat : Satellite}
    (h : Satellite.init mass dims abs drag principal products reduced rw' mt ins = .ok sat) (v : V3) :
    areaAndCop sat v =
      if exposedArea dims v = 0 then .error .nonFinite
      else .ok (exposedArea dims v,
        (dims 0 * dims 1 * dims 2 / (2 * exposedArea dims v)) • v) := by
  have hA : ((sat.walls.map fun w => w.centerOfPressure v).foldl
      (fun a b => (a.1 + b.1, a.2 + b.2)) ((0 : ℝ), (0 : V3))) =
      (exposedArea dims v, (dims 0 * dims 1 * dims 2 / 2) • v) := by
    rw [satInit_walls h]
    have e0 := max_pair (v 0); have e1 := max_pair (v 1); have e2 := max_pair (v 2)
    have d0 := max_pair_sub (v 0); have d1 := max_pair_sub (v 1); have d2 := max_pair_sub (v 2)
    simp only [boxWalls, List.map_cons, List.map_nil, List.foldl_cons, List.foldl_nil,
      Wall.centerOfPressure, Wall.projectedArea, Wall.init, npDot3, exposedArea, Prod.mk.injEq]
    generalize hm : (max : ℝ → ℝ → ℝ) 0 = m at *
    constructor
    · simp
      rw [← e0, ← e1, ← e2]; ring
    · apply vec3_ext <;> simp
      · linear_combination (dims 0 * dims 1 * dims 2 / 2) * d0
      · linear_combination (dims 0 * dims 1 * dims 2 / 2) * d1
      · linear_combination (dims 0 * dims 1 * dims 2 / 2) * d2
  unfold areaAndCop
  simp only [hA, npVDiv]
  split_ifs with h0
  · rfl
  · simp only [Except.ok.injEq, Prod.mk.injEq, true_and]
    funext i
    simp only [Pi.smul_apply, smul_eq_mul]
    field_simp

/-- The area is non-negative, the same seen from opposite sides, and positive for every non-zero
direction when the edges are positive. -/
theorem C43_positive {mass : ℝ} {dims : V3} {abs drag : ℝ} {principal products : V3} {reduced : Bool}
    {rw' : RWSystem} {nMt : ℕ} {mt : Fin nMt → Magnetorquer} {ins : List Instrument} {sat : Satellite}
    (h : Satellite.init mass dims abs drag principal products reduced rw' mt ins = .ok sat)
    (hd : ∀ i, 0 < dims i) {v : V3} (hv : v ≠ 0) :
    ∃ A c, areaAndCop sat v = .ok (A, c) ∧ 0 < A ∧ areaAndCop sat (-v) = .ok (A, -c) := by
  have hpos : 0 < exposedArea dims v := by
    have a0 := mul_pos (hd 1) (hd 2); have a1 := mul_pos (hd 0) (hd 2); have a2 := mul_pos (hd 0) (hd 1)
    have n0 := mul_nonneg a0.le (abs_nonneg (v 0)); have n1 := mul_nonneg a1.le (abs_nonneg (v 1))
    have n2 := mul_nonneg a2.le (abs_nonneg (v 2))
    unfold exposedArea
    by_contra hc
    have z0 : v 0 = 0 := by
      by_contra hne; have := mul_pos a0 (abs_pos.2 hne); linarith
    have z1 : v 1 = 0 := by
      by_contra hne; have := mul_pos a1 (abs_pos.2 hne); linarith
    have z2 : v 2 = 0 := by
      by_contra hne; have := mul_pos a2 (abs_pos.2 hne); linarith
    exact hv (vec3_ext z0 z1 z2)
  have hneg : exposedArea dims (-v) = exposedArea dims v := by simp [exposedArea]
  refine ⟨exposedArea dims v, (dims 0 * dims 1 * dims 2 / (2 * exposedArea dims v)) • v, ?_, hpos, ?_⟩
  · rw [C43_area h, if_neg hpos.ne']
  · rw [C43_area h, hneg, if_neg hpos.ne']; simp

/-- A face contributes its area times the cosine factor when it is turned toward `v`, and nothing
otherwise. -/
theorem C43_face (d : ℝ) (normal : V3) (l w α : ℝ) (v : V3) :
    (Wall.init d normal l w α).projectedArea v =
      if 0 < normal 0 * v 0 + normal 1 * v 1 + normal 2 * v 2 then
        (normal 0 * v 0 + normal 1 * v 1 + normal 2 * v 2) * (l * w) else 0 := by
  simp only [Wall.projectedArea, Wall.init, npDot3]
  split_ifs with h
  · rw [max_eq_right h.le]
  · rw [max_eq_left (not_lt.1 h), zero_mul]

/-- A satellite (of a pyramid of four wheels) meets the hypotheses. -/
example : exposedArea ![0.1, 0.1, 0.2] ![0, 0, -1] = 0.01 := by
  norm_num [exposedArea]

/-! ## C44: torque of a wall -/

/-- The full claim: the torque returned with a force is centroid cross force. -/
def WallTorqueIsLever : Prop :=
  ∀ (d : ℝ) (normal : V3) (l w α : ℝ) (p : ℝ) (v : V3),
    let wall := Wall.init d normal l w α
    (wall.dragForce p v).T = npCross (d • normal) (wall.dragForce p v).F ∧
    (wall.srpForce p v).T = npCross (d • normal) (wall.srpForce p v).F

/-- The code multiplies the centroid by the projected area, which the force already contains, so the
claim is false: here the torque of a 10 cm by 20 cm face is a factor 100 too small. -/
theorem C44_torque_fails : ¬ WallTorqueIsLever := by
  intro h
  have := (h 0.05 ![1, 0, 0] 0.1 0.2 1 1 ![0.6, 0.8, 0]).1
  have := congrFun this 2
  norm_num [Wall.init, Wall.dragForce, Wall.centerOfPressure, Wall.projectedArea, npDot3, npCross_2]
    at this

/-- What does hold: the torque is the claimed one times the projected area (in square metres), for both
kinds of force. Missing: the factor should be one. -/
theorem C44_torque_partial (d : ℝ) (normal : V3) (l w α p : ℝ) (v : V3) :
    let wall := Wall.init d normal l w α
    (wall.dragForce p v).T = wall.projectedArea v • npCross (d • normal) (wall.dragForce p v).F ∧
    (wall.srpForce p v).T = wall.projectedArea v • npCross (d • normal) (wall.srpForce p v).F := by
  intro wall
  constructor <;>
  · apply vec3_ext <;>
    simp only [wall, Wall.init, Wall.dragForce, Wall.srpForce, Wall.centerOfPressure, npCross_0, npCross_1, npCross_2,
      Pi.smul_apply, smul_eq_mul] <;> ring

/-- In particular the direction of the torque is right: it is orthogonal to the arm and to the force. -/
theorem C44_orthogonal (d : ℝ) (normal : V3) (l w α p : ℝ) (v : V3) :
    let wall := Wall.init d normal l w α
    npDot (wall.dragForce p v).T normal = 0 ∧ npDot (wall.dragForce p v).T (wall.dragForce p v).F = 0 ∧
    npDot (wall.srpForce p v).T normal = 0 ∧ npDot (wall.srpForce p v).T (wall.srpForce p v).F = 0 := by
  intro wall
  obtain ⟨h1, h2⟩ := C44_torque_partial d normal l w α p v
  simp only [wall, h1, h2]
  generalize (Wall.dragForce _ p v).F = F
  generalize (Wall.srpForce _ p v).F = G
  simp only [npDot3, Pi.smul_apply, smul_eq_mul, npCross_0, npCross_1, npCross_2]
  refine ⟨?_, ?_, ?_, ?_⟩ <;> ring

/-! ## C45: solar pressure -/

/-- The solar force on a wall with absorption in `[0, 1]` never pulls toward the sun. -/
theorem C45_away {d : ℝ} {normal : V3} {l w α p : ℝ} {S : V3} (hA : 0 ≤ l * w) (h0 : 0 ≤ α) (h1 : α ≤ 1)
    (hp : 0 ≤ p) : npDot ((Wall.init d normal l w α).srpForce p S).F S ≤ 0 := by
  have hproj : 0 ≤ (Wall.init d normal l w α).projectedArea S :=
    mul_nonneg (le_max_left _ _) hA
  have e : npDot ((Wall.init d normal l w α).srpForce p S).F S =
      -(p * (Wall.init d normal l w α).projectedArea S *
        (2 * (1 - α) * npDot normal S ^ 2 + α * (S 0 ^ 2 + S 1 ^ 2 + S 2 ^ 2))) := by
    simp only [Wall.srpForce, Wall.centerOfPressure, npDot3, Wall.init]; ring
  rw [e]
  have h2 : 0 ≤ 1 - α := by linarith
  have : 0 ≤ p * (Wall.init d normal l w α).projectedArea S *
        (2 * (1 - α) * npDot normal S ^ 2 + α * (S 0 ^ 2 + S 1 ^ 2 + S 2 ^ 2)) := by positivity
  linarith

/-- It pushes strictly away when the wall faces the sun, the pressure and the area are positive. -/
theorem C45_strict {d : ℝ} {normal : V3} {l w α p : ℝ} {S : V3} (hA : 0 < l * w) (h0 : 0 ≤ α) (h1 : α ≤ 1)
    (hp : 0 < p) (hS : 0 < npDot normal S) :
    npDot ((Wall.init d normal l w α).srpForce p S).F S < 0 := by
  have hproj : 0 < (Wall.init d normal l w α).projectedArea S := by
    simp only [Wall.projectedArea, Wall.init]
    rw [max_eq_right hS.le]; exact mul_pos hS hA
  have e : npDot ((Wall.init d normal l w α).srpForce p S).F S =
      -(p * (Wall.init d normal l w α).projectedArea S *
        (2 * (1 - α) * npDot normal S ^ 2 + α * (S 0 ^ 2 + S 1 ^ 2 + S 2 ^ 2))) := by
    simp only [Wall.srpForce, Wall.centerOfPressure, npDot3, Wall.init]; ring
  rw [e]
  have hSS : 0 < S 0 ^ 2 + S 1 ^ 2 + S 2 ^ 2 := by
    by_contra hc
    have z0 : S 0 = 0 := by nlinarith [sq_nonneg (S 0), sq_nonneg (S 1), sq_nonneg (S 2)]
    have z1 : S 1 = 0 := by nlinarith [sq_nonneg (S 0), sq_nonneg (S 1), sq_nonneg (S 2)]
    have z2 : S 2 = 0 := by nlinarith [sq_nonneg (S 0), sq_nonneg (S 1), sq_nonneg (S 2)]
    rw [npDot3, z0, z1, z2] at hS; simp at hS
  have h2 : 0 < 2 * (1 - α) * npDot normal S ^ 2 + α * (S 0 ^ 2 + S 1 ^ 2 + S 2 ^ 2) := by
    rcases h0.eq_or_lt with rfl | hα
    · have := pow_pos hS 2; simp; exact this
    · have a := mul_pos hα hSS
      have b : 0 ≤ 2 * (1 - α) * npDot normal S ^ 2 := by
        have : 0 ≤ 1 - α := by linarith
        positivity
      linarith
  have := mul_pos (mul_pos hp hproj) h2
  linarith

/-- A wall turned away from the sun feels no force and no torque. -/
theorem C45_hidden {d : ℝ} {normal : V3} {l w α p : ℝ} {S : V3} (h : npDot normal S ≤ 0) :
    ((Wall.init d normal l w α).srpForce p S).F = 0 ∧ ((Wall.init d normal l w α).srpForce p S).T = 0 := by
  have hA : (Wall.init d normal l w α).projectedArea S = 0 := by
    simp only [Wall.projectedArea, Wall.init]
    rw [max_eq_left h, zero_mul]
  constructor <;> apply vec3_ext <;>
    simp [Wall.srpForce, Wall.centerOfPressure, hA, npCross_0, npCross_1, npCross_2]

/-- The force is the textbook one for a flat surface without diffuse reflection:
`-P A cos β (2 ρ cos β n + α S)` for a unit normal and sun direction at angle `β`. -/
theorem C45_formula {d : ℝ} {normal : V3} {l w α p : ℝ} {S : V3} (h : 0 < npDot normal S) :
    ((Wall.init d normal l w α).srpForce p S).F =
      (-(p * (l * w) * npDot normal S)) • ((2 * (1 - α) * npDot normal S) • normal + α • S) := by
  funext i
  simp only [Wall.srpForce, Wall.centerOfPressure, Wall.projectedArea, Wall.init, Pi.smul_apply, Pi.add_apply,
    smul_eq_mul]
  rw [max_eq_right h.le]; ring

example : npDot ((Wall.init 0.05 ![1, 0, 0] 0.1 0.2 0.8).srpForce 4.5e-6 ![0.6, 0.8, 0]).F ![0.6, 0.8, 0] < 0 :=
  C45_strict (by norm_num) (by norm_num) (by norm_num) (by norm_num) (by norm_num [npDot3])

end Adcs
