import Verif.Model.Structure
import Verif.Props.Vec
import Verif.Props.Torquers
import Mathlib.Analysis.Matrix.PosDef
import Mathlib.LinearAlgebra.Matrix.ToLinearEquiv

set_option autoImplicit false

/-! # Helper lemmas about the wheel system -/

namespace Adcs

open Str
open scoped Matrix

/-- Wheels built from axes and moments. -/
def mkWheels {n : ℕ} (ax : Fin n → V3) (par orth : Fin n → ℝ) : Fin n → Wheel :=
  fun i => Wheel.init (ax i) (par i) (orth i)

/-- The matrix whose columns are the axes. -/
def axisMat {n : ℕ} (ax : Fin n → V3) : Matrix (Fin 3) (Fin n) ℝ := Matrix.of fun i j => ax j i

theorem axisMat_mulVec {n : ℕ} (ax : Fin n → V3) (t : Fin n → ℝ) :
    axisMat ax *ᵥ t = ∑ i, t i • ax i := by
  funext k
  simp [axisMat, Matrix.mulVec, dotProduct, mul_comm]

theorem axisMat_transpose_mulVec {n : ℕ} (ax : Fin n → V3) (x : V3) (i : Fin n) :
    ((axisMat ax)ᵀ *ᵥ x) i = ax i ⬝ᵥ x := by
  simp [axisMat, Matrix.mulVec, dotProduct]

theorem outer_mulVec (a x : V3) : npOuter a a *ᵥ x = (a ⬝ᵥ x) • a := by
  funext k
  simp only [npOuter, Matrix.mulVec, dotProduct, Matrix.of_apply, Pi.smul_apply, smul_eq_mul,
    Finset.sum_mul]
  apply Finset.sum_congr rfl
  intro i _; ring

theorem parMoment_mulVec {n : ℕ} (ax : Fin n → V3) (par orth : Fin n → ℝ) (x : V3) :
    (∑ i, (mkWheels ax par orth i).parallelMoment) *ᵥ x = ∑ i, (par i * (ax i ⬝ᵥ x)) • ax i := by
  rw [Matrix.sum_mulVec]
  apply Finset.sum_congr rfl
  intro i _
  simp only [mkWheels, Wheel.init, Matrix.smul_mulVec, outer_mulVec, smul_smul]

theorem orthMoment_mulVec {n : ℕ} (ax : Fin n → V3) (par orth : Fin n → ℝ) (x : V3) :
    (∑ i, (mkWheels ax par orth i).orthogonalMoment) *ᵥ x =
      ∑ i, orth i • (x - (ax i ⬝ᵥ x) • ax i) := by
  rw [Matrix.sum_mulVec]
  apply Finset.sum_congr rfl
  intro i _
  simp only [mkWheels, Wheel.init, Matrix.smul_mulVec, Matrix.sub_mulVec, Matrix.one_mulVec,
    outer_mulVec]

theorem det_ne_zero_of_inj {M : M3} (h : ∀ x, M *ᵥ x = 0 → x = 0) : M.det ≠ 0 := by
  intro hd
  obtain ⟨v, hv, hMv⟩ := Matrix.exists_mulVec_eq_zero_iff.2 hd
  exact hv (h v hMv)

theorem gram_ker {n : ℕ} (ax : Fin n → V3) {x : V3} (h : (axisMat ax * (axisMat ax)ᵀ) *ᵥ x = 0) :
    ∀ i, ax i ⬝ᵥ x = 0 := by
  have h1 : ((axisMat ax)ᵀ *ᵥ x) ⬝ᵥ ((axisMat ax)ᵀ *ᵥ x) = 0 := by
    rw [Matrix.mulVec_transpose, ← Matrix.dotProduct_mulVec, ← Matrix.mulVec_transpose,
      Matrix.mulVec_mulVec, h, dotProduct_zero]
  have h2 := dotProduct_self_eq_zero.1 h1
  intro i
  rw [← axisMat_transpose_mulVec, h2]; rfl

/-- The axes of every system that can be constructed span space. -/
theorem rwInit_spans {n : ℕ} {ax : Fin n → V3} {par orth : Fin n → ℝ} {maxT : ℝ} {lim : Bool}
    {s : RWSystem} (h : RWSystem.init (mkWheels ax par orth) maxT lim = .ok s) :
    (axisMat ax * (axisMat ax)ᵀ).det ≠ 0 := by
  have hd : (∑ i, (mkWheels ax par orth i).parallelMoment).det ≠ 0 := by
    intro hd
    simp [RWSystem.init, npInv, hd] at h
  apply det_ne_zero_of_inj
  intro x hx
  have hk := gram_ker ax hx
  by_contra hne
  apply hd
  apply Matrix.exists_mulVec_eq_zero_iff.1
  refine ⟨x, hne, ?_⟩
  rw [parMoment_mulVec]
  apply Finset.sum_eq_zero
  intro i _
  rw [hk i]; simp

theorem pinv_right {n : ℕ} {A : Matrix (Fin 3) (Fin n) ℝ} (h : (A * Aᵀ).det ≠ 0) : A * npPinv A = 1 := by
  unfold npPinv
  rw [← Matrix.mul_assoc]
  exact Matrix.mul_nonsing_inv _ (isUnit_iff_ne_zero.2 h)

/-- The formula of the model is the Moore-Penrose pseudo-inverse (the four Penrose equations). -/
theorem pinv_penrose {n : ℕ} {A : Matrix (Fin 3) (Fin n) ℝ} (h : (A * Aᵀ).det ≠ 0) :
    A * npPinv A * A = A ∧ npPinv A * A * npPinv A = npPinv A ∧ (A * npPinv A)ᵀ = A * npPinv A ∧
      (npPinv A * A)ᵀ = npPinv A * A := by
  have h1 := pinv_right h
  refine ⟨by rw [h1, Matrix.one_mul], by rw [Matrix.mul_assoc, h1, Matrix.mul_one],
    by rw [h1, Matrix.transpose_one], ?_⟩
  unfold npPinv
  rw [Matrix.transpose_mul, Matrix.transpose_mul, Matrix.transpose_nonsing_inv, Matrix.transpose_mul,
    Matrix.transpose_transpose, Matrix.mul_assoc]

/-- The shape of a constructed system. -/
theorem rwInit_eq {n : ℕ} {wheels : Fin n → Wheel} {maxT : ℝ} {lim : Bool} {s : RWSystem}
    (h : RWSystem.init wheels maxT lim = .ok s) :
    s = { n := n, wheels := wheels, maxT := maxT, torqueLimited := lim,
          axes := Matrix.of fun i j => (wheels j).axis i,
          distribution := npPinv (Matrix.of fun i j => (wheels j).axis i),
          parallelMoment := ∑ i, (wheels i).parallelMoment,
          orthogonalMoment := ∑ i, (wheels i).orthogonalMoment,
          invParMoment := (∑ i, (wheels i).parallelMoment)⁻¹ } := by
  unfold RWSystem.init at h
  simp only [npInv] at h
  split_ifs at h with hd
  cases h
  rfl

/-- Positive moments and spanning axes: the constructor succeeds. -/
theorem parMoment_posDef {n : ℕ} (ax : Fin n → V3) (par orth : Fin n → ℝ) (hp : ∀ i, 0 < par i)
    (hs : (axisMat ax * (axisMat ax)ᵀ).det ≠ 0) :
    (∑ i, (mkWheels ax par orth i).parallelMoment).PosDef := by
  apply Matrix.PosDef.of_dotProduct_mulVec_pos
  · rw [Matrix.IsHermitian]
    ext i j
    simp only [Matrix.conjTranspose_apply, Matrix.sum_apply, star_trivial, mkWheels, Wheel.init,
      npOuter, Matrix.smul_apply, Matrix.of_apply]
    apply Finset.sum_congr rfl; intro k _; simp [mul_comm]
  · intro x hx
    rw [parMoment_mulVec, star_trivial, dotProduct_sum]
    have hnn : ∀ i ∈ Finset.univ, 0 ≤ x ⬝ᵥ (par i * (ax i ⬝ᵥ x)) • ax i := by
      intro i _
      rw [dotProduct_smul, smul_eq_mul, dotProduct_comm x, mul_assoc]
      exact mul_nonneg (hp i).le (mul_self_nonneg _)
    apply lt_of_le_of_ne (Finset.sum_nonneg hnn)
    intro h0
    have hz := (Finset.sum_eq_zero_iff_of_nonneg hnn).1 h0.symm
    have hall : ∀ i, ax i ⬝ᵥ x = 0 := by
      intro i
      have := hz i (Finset.mem_univ i)
      rw [dotProduct_smul, smul_eq_mul, dotProduct_comm x, mul_assoc] at this
      rcases mul_eq_zero.1 this with h | h
      · exact absurd h (hp i).ne'
      · exact mul_self_eq_zero.1 h
    apply hs
    apply Matrix.exists_mulVec_eq_zero_iff.1
    refine ⟨x, hx, ?_⟩
    rw [← Matrix.mulVec_mulVec]
    have : (axisMat ax)ᵀ *ᵥ x = 0 := by
      funext i; rw [axisMat_transpose_mulVec, hall i]; rfl
    rw [this, Matrix.mulVec_zero]

/-- The reduced inertia. -/
def redMoment (principal products : V3) (reduced : Bool) (rw : RWSystem) : M3 :=
  if reduced then Matrix.diagonal principal + rw.orthogonalMoment + productMatrix products
  else Matrix.diagonal principal + rw.orthogonalMoment

theorem satInit_ok (mass : ℝ) (dims : V3) (ab cd : ℝ) (principal products : V3) (reduced : Bool)
    (rw : RWSystem) {nMt : ℕ} (mt : Fin nMt → Magnetorquer) (ins : List Instrument)
    (h1 : (redMoment principal products reduced rw).det ≠ 0)
    (h2 : (redMoment principal products reduced rw + rw.parallelMoment).det ≠ 0) :
    ∃ sat, Satellite.init mass dims ab cd principal products reduced rw mt ins = .ok sat := by
  unfold redMoment at h1 h2
  simp only [Satellite.init, npInv, if_neg h1, if_neg h2]
  exact ⟨_, rfl⟩

/-- What the constructor stores. -/
theorem satInit_eq {mass : ℝ} {dims : V3} {ab cd : ℝ} {principal products : V3} {reduced : Bool}
    {rw : RWSystem} {nMt : ℕ} {mt : Fin nMt → Magnetorquer} {ins : List Instrument} {sat : Satellite}
    (h : Satellite.init mass dims ab cd principal products reduced rw mt ins = .ok sat) :
    (redMoment principal products reduced rw).det ≠ 0 ∧
    (redMoment principal products reduced rw + rw.parallelMoment).det ≠ 0 ∧
    sat = { walls := boxWalls (dims 0) (dims 1) (dims 2) ab, dragCoeff := cd, mass := mass, rw := rw,
            nMt := nMt, mt := mt, instruments := ins, wheelMoment := rw.parallelMoment,
            reducedMoment := redMoment principal products reduced rw,
            totalMoment := redMoment principal products reduced rw + rw.parallelMoment,
            invRedMoment := (redMoment principal products reduced rw)⁻¹,
            invTotMoment := (redMoment principal products reduced rw + rw.parallelMoment)⁻¹ } := by
  unfold Satellite.init at h
  simp only [npInv] at h
  by_cases h1 : (redMoment principal products reduced rw).det = 0
  · rw [redMoment] at h1; rw [if_pos h1] at h; cases h
  · by_cases h2 : (redMoment principal products reduced rw + rw.parallelMoment).det = 0
    · rw [redMoment] at h1 h2; rw [if_neg h1, if_pos h2] at h; cases h
    · refine ⟨h1, h2, ?_⟩
      rw [redMoment] at h1 h2; rw [if_neg h1, if_neg h2, Except.ok.injEq] at h
      rw [← h]; rfl

end Adcs
