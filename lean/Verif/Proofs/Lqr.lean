import Verif.Model.FlightSoftware
import Mathlib.Analysis.Matrix.PosDef
import Mathlib.Topology.Instances.Matrix
import Mathlib.Tactic.NoncommRing

set_option autoImplicit false

/-! # Helper lemmas about discrete algebraic Riccati equations -/

namespace Adcs

open scoped Matrix
open Lqr Obs

section general
variable {n p : Type} [Fintype n] [Fintype p] [DecidableEq n] [DecidableEq p]
variable {a : Matrix n n ℝ} {b : Matrix n p ℝ} {q : Matrix n n ℝ} {r : Matrix p p ℝ} {P : Matrix n n ℝ}

theorem dare_S (hr : r.PosDef) (hP : IsDare a b q r P) : (r + bᵀ * P * b).PosDef := by
  have h := hP.psd.conjTranspose_mul_mul_same b
  rw [Matrix.conjTranspose_eq_transpose_of_trivial] at h
  exact hr.add_posSemidef h

theorem dare_gain (hr : r.PosDef) (hP : IsDare a b q r P) :
    gain a b r P = .ok ((r + bᵀ * P * b)⁻¹ * bᵀ * P * a) := by
  have hd : (r + bᵀ * P * b).det ≠ 0 := (dare_S hr hP).det_pos.ne'
  simp only [gain, gain.npInv', if_neg hd]

/-- Completing the square. -/
theorem dare_square (hr : r.PosDef) (hP : IsDare a b q r P) {K : Matrix p n ℝ} (hK : gain a b r P = .ok K)
    (x : n → ℝ) (u : p → ℝ) :
    x ⬝ᵥ q *ᵥ x + u ⬝ᵥ r *ᵥ u + (a *ᵥ x + b *ᵥ u) ⬝ᵥ P *ᵥ (a *ᵥ x + b *ᵥ u) =
      x ⬝ᵥ P *ᵥ x + (u + K *ᵥ x) ⬝ᵥ (r + bᵀ * P * b) *ᵥ (u + K *ᵥ x) := by
  rw [dare_gain hr hP] at hK
  set S := r + bᵀ * P * b with hS
  have hSd : IsUnit S.det := isUnit_iff_ne_zero.2 (dare_S hr hP).det_pos.ne'
  have hSt : Sᵀ = S := by
    have := (dare_S hr hP).isHermitian
    rw [Matrix.IsHermitian, Matrix.conjTranspose_eq_transpose_of_trivial] at this
    exact this
  have hPt : Pᵀ = P := by
    have := hP.psd.isHermitian
    rw [Matrix.IsHermitian, Matrix.conjTranspose_eq_transpose_of_trivial] at this
    exact this
  have hSK : S * K = bᵀ * P * a := by
    rw [← Except.ok.inj hK, Matrix.mul_assoc, Matrix.mul_assoc, Matrix.mul_nonsing_inv_cancel_left _ _ hSd,
      Matrix.mul_assoc]
  have hq : q = P - aᵀ * P * a + aᵀ * P * b * K := by
    have h := hP.eq
    rw [← hS] at h
    have e : aᵀ * P * b * S⁻¹ * (bᵀ * P * a) = aᵀ * P * b * K := by
      rw [← Except.ok.inj hK]; simp only [Matrix.mul_assoc]
    rw [e] at h
    have := eq_neg_of_add_eq_zero_right h
    rw [this]; abel
  have hKS : Kᵀ * S = aᵀ * P * b := by
    have := congrArg Matrix.transpose hSK
    rw [Matrix.transpose_mul, hSt, Matrix.transpose_mul, Matrix.transpose_mul, Matrix.transpose_transpose,
      hPt, ← Matrix.mul_assoc] at this
    exact this
  -- the bilinear forms as matrices
  have mv : ∀ {m k l : Type} [Fintype m] [Fintype k] [Fintype l] (A : Matrix m k ℝ) (B : Matrix m l ℝ)
      (y : k → ℝ) (z : l → ℝ), (A *ᵥ y) ⬝ᵥ (B *ᵥ z) = y ⬝ᵥ (Aᵀ * B) *ᵥ z := by
    intro m k l _ _ _ A B y z
    rw [← Matrix.mulVec_mulVec, Matrix.dotProduct_mulVec, Matrix.dotProduct_mulVec, Matrix.vecMul_transpose]
    rw [← Matrix.dotProduct_mulVec]
  have hr' : r = S - bᵀ * P * b := by rw [hS]; abel
  simp only [Matrix.mulVec_add, add_dotProduct, dotProduct_add, Matrix.mulVec_mulVec, mv]
  rw [hq]
  nth_rewrite 1 [hr']
  have e1 : u ⬝ᵥ (bᵀ * (P * a)) *ᵥ x = u ⬝ᵥ (S * K) *ᵥ x := by rw [hSK, Matrix.mul_assoc]
  have e2 : x ⬝ᵥ (aᵀ * (P * b)) *ᵥ u = x ⬝ᵥ (Kᵀ * S) *ᵥ u := by rw [hKS, Matrix.mul_assoc]
  have e3 : aᵀ * P * b * K = Kᵀ * (S * K) := by rw [← hKS, Matrix.mul_assoc]
  rw [e1, e2, e3]
  simp only [Matrix.sub_mulVec, Matrix.add_mulVec, dotProduct_sub, dotProduct_add, Matrix.mul_assoc]
  ring

end general

end Adcs
