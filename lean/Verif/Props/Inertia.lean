import Verif.Props.Dynamics

set_option autoImplicit false

/-! # C93: product moments of inertia -/

namespace Adcs

open Str
open scoped Matrix

/-- The full claim: the total inertia of a satellite that is not reduced contains the products. -/
def ProductsUsedUnlessReduced : Prop := ∀ (n : ℕ) (ax : Fin n → V3) (par orth : Fin n → ℝ) (maxT : ℝ)
  (lim : Bool) (rw : RWSystem), RWSystem.init (mkWheels ax par orth) maxT lim = .ok rw →
  ∀ (mass : ℝ) (dims : V3) (ab cd : ℝ) (principal products : V3) (nMt : ℕ) (mt : Fin nMt → Magnetorquer)
    (ins : List Instrument) (sat : Satellite),
    Satellite.init mass dims ab cd principal products false rw mt ins = .ok sat →
    sat.totalMoment = Matrix.diagonal principal +
      !![0, products 0, products 1; products 0, 0, products 2; products 1, products 2, 0] +
      ∑ i, (orth i • ((1 : M3) - Matrix.vecMulVec (ax i) (ax i)) + par i • Matrix.vecMulVec (ax i) (ax i))

/-- It is false: line 543 adds them when `reduced` is true. -/
theorem C93_products_fails : ¬ ProductsUsedUnlessReduced := by
  intro H
  have ha : ∀ i, npNorm (exAxes i) = 1 := by
    intro i
    rw [npNorm_eq_one]; fin_cases i <;> simp [exAxes, Pi.single_apply]
  obtain ⟨rw', hrw⟩ := (C39_constructible exAxes (fun _ => 1e-5) (fun _ => 2e-6) (fun _ => by norm_num)
    0.002 true).2 (by
      intro x hx
      apply vec3_ext
      · simpa [exAxes] using hx 0
      · simpa [exAxes] using hx 1
      · simpa [exAxes] using hx 2)
  obtain ⟨sat, hs, -, -, -, -, h2⟩ := C42_inertia exAxes (fun _ => 1e-5) (fun _ => 2e-6) ha
    (fun _ => by norm_num) (fun _ => by norm_num) 0.002 true rw' hrw 2 ![0.1, 0.1, 0.2] 0.8 2.2
    ![0.0125, 0.0124, 0.0062] ![0.001, 0, 0] (by intro i; fin_cases i <;> norm_num)
    (fun _ : Fin 1 => coil ![1, 0, 0]) []
  have h3 := H _ _ _ _ _ _ _ hrw _ _ _ _ _ _ _ _ _ _ hs
  rw [h2] at h3
  have h4 := congrFun (congrFun h3 0) 1
  simp at h4
  norm_num at h4

/-- What holds: the flag makes no difference when the products are zero. Missing: the meaning of the
flag, which is the opposite of the documented one (see also `C42_with_products`). -/
theorem C93_products_partial (mass : ℝ) (dims : V3) (ab cd : ℝ) (principal : V3) (rw : RWSystem) {nMt : ℕ}
    (mt : Fin nMt → Magnetorquer) (ins : List Instrument) :
    Satellite.init mass dims ab cd principal 0 true rw mt ins =
      Satellite.init mass dims ab cd principal 0 false rw mt ins := by
  have h0 : productMatrix 0 = 0 := by
    rw [C42_products]
    ext i j; fin_cases i <;> fin_cases j <;> rfl
  simp only [Satellite.init, h0, add_zero, if_true, Bool.false_eq_true, if_false]

/-- Exactly which satellites have the inertia that the claim says, for either value of the flag: those that are told that
the model is reduced, and those without products. -/
theorem C93_exact_partial {n : ℕ} (ax : Fin n → V3) (par orth : Fin n → ℝ) (maxT : ℝ) (lim : Bool) (rw : RWSystem)
    (hrw : RWSystem.init (mkWheels ax par orth) maxT lim = .ok rw) (mass : ℝ) (dims : V3) (ab cd : ℝ)
    (principal products : V3) (reduced : Bool) {nMt : ℕ} (mt : Fin nMt → Magnetorquer) (ins : List Instrument)
    (sat : Satellite) (h : Satellite.init mass dims ab cd principal products reduced rw mt ins = .ok sat) :
    sat.totalMoment = Matrix.diagonal principal +
      !![0, products 0, products 1; products 0, 0, products 2; products 1, products 2, 0] +
      ∑ i, (orth i • ((1 : M3) - Matrix.vecMulVec (ax i) (ax i)) + par i • Matrix.vecMulVec (ax i) (ax i)) ↔
    reduced = true ∨ products = 0 := by
  cases reduced with
  | true => exact ⟨fun _ => .inl rfl, fun _ => (C42_with_products ax par orth maxT lim rw hrw mass dims ab cd principal
      products mt ins sat h).2⟩
  | false =>
    have e : sat.totalMoment = Matrix.diagonal principal +
        ∑ i, (orth i • ((1 : M3) - Matrix.vecMulVec (ax i) (ax i)) + par i • Matrix.vecMulVec (ax i) (ax i)) := by
      obtain rfl := rwInit_eq hrw
      obtain ⟨-, -, rfl⟩ := satInit_eq h
      simp only [redMoment, Bool.false_eq_true, if_false, mkWheels, Wheel.init, Finset.sum_add_distrib]
      have : ∀ i, npOuter (ax i) (ax i) = Matrix.vecMulVec (ax i) (ax i) := fun _ => rfl
      simp only [this]
      abel
    rw [e, add_right_comm, left_eq_add]
    constructor
    · intro h0
      right
      have h1 := congrFun (congrFun h0 0) 1
      have h2 := congrFun (congrFun h0 0) 2
      have h3 := congrFun (congrFun h0 1) 2
      apply vec3_ext
      · exact h1
      · exact h2
      · exact h3
    · rintro (h0 | rfl)
      · cases h0
      · ext i j; fin_cases i <;> fin_cases j <;> rfl

/-- The hypotheses are met by a satellite with products that is not reduced: its inertia lacks them. -/
example : ∃ (rw : RWSystem) (sat : Satellite), RWSystem.init (mkWheels exAxes (fun _ => 1e-5) (fun _ => 2e-6)) 0.002 true = .ok rw ∧
    Satellite.init 2 ![0.1, 0.1, 0.2] 0.8 2.2 ![0.0125, 0.0124, 0.0062] ![0.001, 0, 0] false rw
      (fun _ : Fin 1 => coil ![1, 0, 0]) [] = .ok sat := by
  have ha : ∀ i, npNorm (exAxes i) = 1 := by
    intro i
    rw [npNorm_eq_one]; fin_cases i <;> simp [exAxes, Pi.single_apply]
  obtain ⟨rw', hrw⟩ := (C39_constructible exAxes (fun _ => 1e-5) (fun _ => 2e-6) (fun _ => by norm_num)
    0.002 true).2 (by
      intro x hx
      apply vec3_ext
      · simpa [exAxes] using hx 0
      · simpa [exAxes] using hx 1
      · simpa [exAxes] using hx 2)
  obtain ⟨sat, hs, -⟩ := C42_inertia exAxes (fun _ => 1e-5) (fun _ => 2e-6) ha
    (fun _ => by norm_num) (fun _ => by norm_num) 0.002 true rw' hrw 2 ![0.1, 0.1, 0.2] 0.8 2.2
    ![0.0125, 0.0124, 0.0062] ![0.001, 0, 0] (by intro i; fin_cases i <;> norm_num)
    (fun _ : Fin 1 => coil ![1, 0, 0]) []
  exact ⟨rw', sat, hrw, hs⟩

end Adcs
