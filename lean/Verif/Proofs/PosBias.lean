import Verif.Proofs.PosTracking

set_option autoImplicit false

/-! # An upper bound on the covariance of the position filter with a fix each second -/

namespace Adcs

open Spec Vec Dyn JDay Fr Obs Obs.Pos
open scoped Matrix

/-- A quadratic form of position and velocity that is the same in each axis. -/
noncomputable def axisForm (α β γ : ℝ) (w : I6 → ℝ) : ℝ :=
  ∑ i : Fin 3, (α * w (.inl i) ^ 2 + 2 * β * (w (.inl i) * w (.inr i)) + γ * w (.inr i) ^ 2)

/-- The updated covariance is the least that any use of the fix gives. -/
theorem kpost_least {P : M6} (hP : Covariance P) {y s u : I6 → ℝ} (h : s + u = y) :
    y ⬝ᵥ (kpost P Pos.R 1 *ᵥ y) ≤ s ⬝ᵥ (P *ᵥ s) + u ⬝ᵥ (Pos.R *ᵥ u) := by
  obtain ⟨s0, u0, h0, hsu, hq, -⟩ := gain_parts hP y
  rw [hq]
  obtain ⟨d, hd⟩ : ∃ d, d = s - s0 := ⟨_, rfl⟩
  have hs : s = s0 + d := by rw [hd]; abel
  have hu : u = u0 - d := by rw [hd, eq_sub_of_add_eq' h, eq_sub_of_add_eq' h0]; abel
  have symP : d ⬝ᵥ (P *ᵥ s0) = s0 ⬝ᵥ (P *ᵥ d) := by
    rw [Matrix.dotProduct_mulVec s0, ← Matrix.mulVec_transpose, hP.1, dotProduct_comm]
  have symR : d ⬝ᵥ (Pos.R *ᵥ u0) = u0 ⬝ᵥ (Pos.R *ᵥ d) := by
    rw [Matrix.dotProduct_mulVec u0, ← Matrix.mulVec_transpose, posR_strict.1, dotProduct_comm]
  have h1 := hP.2 d
  have h2 := posR_strict.weaken.2 d
  have h3 : d ⬝ᵥ (P *ᵥ s0) = d ⬝ᵥ (Pos.R *ᵥ u0) := by rw [hsu]
  rw [hs, hu]
  simp only [Matrix.mulVec_add, Matrix.mulVec_sub, dotProduct_add, dotProduct_sub, add_dotProduct, sub_dotProduct]
  linarith

theorem form_perturb {α β γ : ℝ} (hα : 0 < α) (hd : β ^ 2 ≤ α * γ) (s t s' t' : ℝ) :
    α * (s + s') ^ 2 + 2 * β * ((s + s') * (t + t')) + γ * (t + t') ^ 2 ≤
      1.001 * (α * s ^ 2 + 2 * β * (s * t) + γ * t ^ 2) + 1001 * (α * s' ^ 2 + 2 * β * (s' * t') + γ * t' ^ 2) := by
  have key : ∀ a b : ℝ, 0 ≤ α * a ^ 2 + 2 * β * (a * b) + γ * b ^ 2 := by
    intro a b
    have h1 : 0 ≤ α * (α * a ^ 2 + 2 * β * (a * b) + γ * b ^ 2) := by
      nlinarith [sq_nonneg (α * a + β * b), mul_nonneg (sub_nonneg.2 hd) (sq_nonneg b)]
    exact nonneg_of_mul_nonneg_right h1 hα
  have := key (s - 1000 * s') (t - 1000 * t')
  norm_num
  nlinarith only [this]

theorem up_component (x y f g : ℝ) :
    4.37 * (0.96 * (x + f) - 0.001 * (x + y + g)) ^ 2 +
      2 * 0.113 * ((0.96 * (x + f) - 0.001 * (x + y + g)) * (-0.38 * (x + f) + 0.972 * (x + y + g))) +
      0.00793 * (-0.38 * (x + f) + 0.972 * (x + y + g)) ^ 2 +
      (10.0598 ^ 2 * (0.04 * (x + f) + 0.001 * (x + y + g)) ^ 2 +
        0.52038 ^ 2 * (0.38 * (x + f) + 0.028 * (x + y + g)) ^ 2) + 0.018166 ^ 2 * y ^ 2 + 1e-6 * (x ^ 2 + y ^ 2) ≤
    4.37 * x ^ 2 + 2 * 0.113 * (x * y) + 0.00793 * y ^ 2 + 5005 * (f ^ 2 + g ^ 2) := by
  have h1 := form_perturb (α := 4.37) (β := 0.113) (γ := 0.00793) (by norm_num) (by norm_num)
    (0.96 * x - 0.001 * (x + y)) (-0.38 * x + 0.972 * (x + y)) (0.96 * f - 0.001 * g) (-0.38 * f + 0.972 * g)
  have h2 := form_perturb (α := 10.0598 ^ 2) (β := 0) (γ := 0.52038 ^ 2) (by norm_num) (by norm_num)
    (0.04 * x + 0.001 * (x + y)) (0.38 * x + 0.028 * (x + y)) (0.04 * f + 0.001 * g) (0.38 * f + 0.028 * g)
  have h3 : 4.37 * (0.96 * f - 0.001 * g) ^ 2 + 2 * 0.113 * ((0.96 * f - 0.001 * g) * (-0.38 * f + 0.972 * g)) +
      0.00793 * (-0.38 * f + 0.972 * g) ^ 2 + (10.0598 ^ 2 * (0.04 * f + 0.001 * g) ^ 2 +
        2 * 0 * ((0.04 * f + 0.001 * g) * (0.38 * f + 0.028 * g)) + 0.52038 ^ 2 * (0.38 * f + 0.028 * g) ^ 2) ≤
      5 * (f ^ 2 + g ^ 2) := by
    nlinarith [sq_nonneg (f - g), sq_nonneg f, sq_nonneg g]
  have h4 : 1.001 * (4.37 * (0.96 * x - 0.001 * (x + y)) ^ 2 +
      2 * 0.113 * ((0.96 * x - 0.001 * (x + y)) * (-0.38 * x + 0.972 * (x + y))) +
      0.00793 * (-0.38 * x + 0.972 * (x + y)) ^ 2) +
      1.001 * (10.0598 ^ 2 * (0.04 * x + 0.001 * (x + y)) ^ 2 +
        2 * 0 * ((0.04 * x + 0.001 * (x + y)) * (0.38 * x + 0.028 * (x + y))) +
        0.52038 ^ 2 * (0.38 * x + 0.028 * (x + y)) ^ 2) + 0.018166 ^ 2 * y ^ 2 + 1e-6 * (x ^ 2 + y ^ 2) ≤
      4.37 * x ^ 2 + 2 * 0.113 * (x * y) + 0.00793 * y ^ 2 := by
    nlinarith [sq_nonneg (x + 0.018 * y), sq_nonneg y, sq_nonneg x]
  norm_num at h1 h2 h3 h4 ⊢
  nlinarith only [h1, h2, h3, h4]

theorem far_component (x y f g : ℝ) :
    560 * (0.96 * (x + f) - 0.001 * (x + y + g)) ^ 2 +
      2 * 22 * ((0.96 * (x + f) - 0.001 * (x + y + g)) * (-0.38 * (x + f) + 0.972 * (x + y + g))) +
      2.17 * (-0.38 * (x + f) + 0.972 * (x + y + g)) ^ 2 + 3e-5 * (x ^ 2 + y ^ 2) ≤
    0.97 * (560 * x ^ 2 + 2 * 22 * (x * y) + 2.17 * y ^ 2) + 6e5 * (f ^ 2 + g ^ 2) := by
  have h1 := form_perturb (α := 560) (β := 22) (γ := 2.17) (by norm_num) (by norm_num)
    (0.96 * x - 0.001 * (x + y)) (-0.38 * x + 0.972 * (x + y)) (0.96 * f - 0.001 * g) (-0.38 * f + 0.972 * g)
  have h3 : 560 * (0.96 * f - 0.001 * g) ^ 2 + 2 * 22 * ((0.96 * f - 0.001 * g) * (-0.38 * f + 0.972 * g)) +
      2.17 * (-0.38 * f + 0.972 * g) ^ 2 ≤ 590 * (f ^ 2 + g ^ 2) := by
    nlinarith [sq_nonneg (f - g), sq_nonneg f, sq_nonneg g]
  have h4 : 1.001 * (560 * (0.96 * x - 0.001 * (x + y)) ^ 2 +
      2 * 22 * ((0.96 * x - 0.001 * (x + y)) * (-0.38 * x + 0.972 * (x + y))) +
      2.17 * (-0.38 * x + 0.972 * (x + y)) ^ 2) + 3e-5 * (x ^ 2 + y ^ 2) ≤
      0.97 * (560 * x ^ 2 + 2 * 22 * (x * y) + 2.17 * y ^ 2) := by
    nlinarith [sq_nonneg (x + 0.06 * y), sq_nonneg y, sq_nonneg x]
  norm_num at h1 h3 h4 ⊢
  nlinarith only [h1, h3, h4]

/-- The covariance is at most a fixed one and something that a share `t` is left of. -/
def Up (P : M6) (t : ℝ) : Prop := ∀ w, w ⬝ᵥ (P *ᵥ w) ≤ axisForm 4.37 0.113 0.00793 w + t * axisForm 560 22 2.17 w

theorem up_one : Up 1 1 := by
  intro w
  rw [Matrix.one_mulVec, dotProduct, Fintype.sum_sum_type, ← Finset.sum_add_distrib, axisForm, axisForm, one_mul,
    ← Finset.sum_add_distrib]
  refine Finset.sum_le_sum fun i _ => ?_
  nlinarith [sq_nonneg (w (.inl i) + 0.0393 * w (.inr i)), sq_nonneg (w (.inr i))]

theorem axisForm_nonneg {α β γ : ℝ} (hα : 0 < α) (hd : β ^ 2 ≤ α * γ) (w : I6 → ℝ) : 0 ≤ axisForm α β γ w := by
  refine Finset.sum_nonneg fun i _ => ?_
  have h1 : 0 ≤ α * (α * w (.inl i) ^ 2 + 2 * β * (w (.inl i) * w (.inr i)) + γ * w (.inr i) ^ 2) := by
    nlinarith [sq_nonneg (α * w (.inl i) + β * w (.inr i)), mul_nonneg (sub_nonneg.2 hd) (sq_nonneg (w (.inr i)))]
  exact nonneg_of_mul_nonneg_right h1 hα

/-- The share shrinks with every fix and prediction of the next second. -/
theorem up_step {P : M6} (hP : Covariance P) {t : ℝ} (ht0 : 0 ≤ t) (hU : Up P t) {J : M3} (hJT : Jᵀ = J)
    (hJ : ∀ v, npNorm (J *ᵥ v) ≤ 3.06e-6 * npNorm v) :
    Up (stepF J * (kpost P Pos.R 1 * (stepF J)ᵀ) + Pos.Q) (0.97 * t) := by
  intro w
  obtain ⟨p, q, rfl⟩ := sum_elim_parts w
  rw [Matrix.add_mulVec, dotProduct_add, quad_conj, quad_Q, stepF_mulVecT, hJT]
  have h2 := perturb_pos hJ p q
  have h3 := perturb_vel hJ p q
  obtain ⟨f, hf⟩ : ∃ f : V3, f = J *ᵥ q + (0.5 : ℝ) • (J *ᵥ (p + Pos.b • q)) := ⟨_, rfl⟩
  obtain ⟨g, hg⟩ : ∃ g : V3, g = Pos.b • q + (0.5 : ℝ) • (J *ᵥ q + Pos.b • (p + Pos.b • q)) := ⟨_, rfl⟩
  rw [← hf] at h2
  rw [← hg] at h3
  have hy : (Sum.elim (p + J *ᵥ q + (0.5 : ℝ) • (J *ᵥ (p + Pos.b • q)))
      (q + (p + Pos.b • q) + (0.5 : ℝ) • (J *ᵥ q + Pos.b • (p + Pos.b • q))) : I6 → ℝ) =
      Sum.elim (p + f) (p + q + g) := by
    rw [hf, hg]
    funext i
    rcases i with i | i <;> simp <;> ring
  rw [hy]
  obtain ⟨s, hs⟩ : ∃ s : I6 → ℝ, s = Sum.elim (fun i => 0.96 * (p i + f i) - 0.001 * (p i + q i + g i))
    (fun i => -0.38 * (p i + f i) + 0.972 * (p i + q i + g i)) := ⟨_, rfl⟩
  obtain ⟨u, hu⟩ : ∃ u : I6 → ℝ, u = Sum.elim (fun i => 0.04 * (p i + f i) + 0.001 * (p i + q i + g i))
    (fun i => 0.38 * (p i + f i) + 0.028 * (p i + q i + g i)) := ⟨_, rfl⟩
  have hsu : s + u = Sum.elim (p + f) (p + q + g) := by
    rw [hs, hu]
    funext i
    rcases i with i | i <;> simp <;> ring
  have h1 := kpost_least hP hsu
  have h0 := hU s
  have e : ((Sum.elim p q : I6 → ℝ) ∘ Sum.inr) = q := rfl
  rw [e]
  have a1 : axisForm 4.37 0.113 0.00793 s + u ⬝ᵥ (Pos.R *ᵥ u) + 0.018166 ^ 2 * npNorm q ^ 2 +
      1e-6 * (npNorm p ^ 2 + npNorm q ^ 2) ≤
      axisForm 4.37 0.113 0.00793 (Sum.elim p q) + 5005 * (npNorm f ^ 2 + npNorm g ^ 2) := by
    rw [quad_R, axisForm, axisForm, hs, hu]
    simp only [npNorm_sq, Finset.mul_sum, ← Finset.sum_add_distrib, Function.comp_apply, Sum.elim_inl, Sum.elim_inr]
    exact Finset.sum_le_sum fun i _ => up_component (p i) (q i) (f i) (g i)
  have a2 : axisForm 560 22 2.17 s + 3e-5 * (npNorm p ^ 2 + npNorm q ^ 2) ≤
      0.97 * axisForm 560 22 2.17 (Sum.elim p q) + 6e5 * (npNorm f ^ 2 + npNorm g ^ 2) := by
    rw [axisForm, axisForm, hs]
    simp only [npNorm_sq, Finset.mul_sum, ← Finset.sum_add_distrib, Function.comp_apply, Sum.elim_inl, Sum.elim_inr]
    refine Finset.sum_le_sum fun i _ => ?_
    exact far_component (p i) (q i) (f i) (g i)
  have h5 : 0 ≤ npNorm p ^ 2 + npNorm q ^ 2 := by positivity
  have b1 : axisForm 4.37 0.113 0.00793 s + u ⬝ᵥ (Pos.R *ᵥ u) + 0.018166 ^ 2 * npNorm q ^ 2 ≤
      axisForm 4.37 0.113 0.00793 (Sum.elim p q) := by
    generalize axisForm 4.37 0.113 0.00793 s = A at a1 ⊢
    generalize axisForm 4.37 0.113 0.00793 (Sum.elim p q) = B at a1 ⊢
    norm_num at h2 h3 a1 ⊢
    linarith only [h2, h3, a1, h5]
  have b2 : axisForm 560 22 2.17 s ≤ 0.97 * axisForm 560 22 2.17 (Sum.elim p q) := by
    generalize axisForm 560 22 2.17 s = A at a2 ⊢
    generalize axisForm 560 22 2.17 (Sum.elim p q) = B at a2 ⊢
    norm_num at h2 h3 a2 ⊢
    linarith only [h2, h3, a2, h5]
  have b3 := mul_le_mul_of_nonneg_left b2 ht0
  linarith only [h0, h1, b1, b3]

end Adcs
