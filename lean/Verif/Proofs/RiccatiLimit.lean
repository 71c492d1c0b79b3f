import Verif.Proofs.Riccati

set_option autoImplicit false
set_option linter.unusedSectionVars false

/-! # The Riccati iteration converges from every start -/

namespace Adcs

open scoped Matrix Topology
open Filter Lqr Obs

section general
variable {n p : Type} [Fintype n] [Fintype p] [DecidableEq n] [DecidableEq p]
variable {a : Matrix n n ℝ} {b : Matrix n p ℝ} {q : Matrix n n ℝ} {r : Matrix p p ℝ} {P : Matrix n n ℝ}

theorem pd_pos {M : Matrix n n ℝ} (h : M.PosDef) {x : n → ℝ} (hx : x ≠ 0) : 0 < x ⬝ᵥ M *ᵥ x := by
  have := h.dotProduct_mulVec_pos hx
  rwa [star_trivial] at this

/-- Cauchy and Schwarz for a positive semidefinite form. -/
theorem psd_cauchy {M : Matrix n n ℝ} (h : M.PosSemidef) (x y : n → ℝ) :
    (x ⬝ᵥ M *ᵥ y) ^ 2 ≤ (x ⬝ᵥ M *ᵥ x) * (y ⬝ᵥ M *ᵥ y) := by
  have hs : y ⬝ᵥ M *ᵥ x = x ⬝ᵥ M *ᵥ y := by
    rw [Matrix.dotProduct_mulVec, ← Matrix.mulVec_transpose, psd_symm h, dotProduct_comm]
  have key : ∀ t : ℝ, 0 ≤ (x ⬝ᵥ M *ᵥ x) * (t * t) + (2 * (x ⬝ᵥ M *ᵥ y)) * t + y ⬝ᵥ M *ᵥ y := by
    intro t
    have := psd_nonneg h (t • x + y)
    rw [Matrix.mulVec_add, Matrix.mulVec_smul, add_dotProduct, dotProduct_add, dotProduct_add, smul_dotProduct,
      smul_dotProduct, dotProduct_smul, dotProduct_smul, hs] at this
    simp only [smul_eq_mul] at this
    linarith
  have := discrim_le_zero key
  rw [discrim] at this
  nlinarith

/-- A positive definite form bounds every coordinate. -/
theorem pd_coord (hq : q.PosDef) (i : n) : ∃ c, ∀ y : n → ℝ, y i ^ 2 ≤ c * (y ⬝ᵥ q *ᵥ y) := by
  refine ⟨(q⁻¹ *ᵥ Pi.single i 1) ⬝ᵥ q *ᵥ (q⁻¹ *ᵥ Pi.single i 1), fun y => ?_⟩
  have h := psd_cauchy hq.posSemidef (q⁻¹ *ᵥ Pi.single i 1) y
  have hu : IsUnit q.det := isUnit_iff_ne_zero.2 hq.det_pos.ne'
  have e : (q⁻¹ *ᵥ Pi.single i 1) ⬝ᵥ q *ᵥ y = y i := by
    rw [Matrix.dotProduct_mulVec, ← Matrix.mulVec_transpose, psd_symm hq.posSemidef, Matrix.mulVec_mulVec,
      Matrix.mul_nonsing_inv _ hu, Matrix.one_mulVec, single_one_dotProduct]
  rwa [e] at h

/-- The optimal feedback stabilises when every error costs something. -/
theorem lqr_stable_pd (hq : q.PosDef) (hr : r.PosDef) (hP : IsDare a b q r P) {K : Matrix p n ℝ}
    (hK : gain a b r P = .ok K) (x : n → ℝ) :
    Tendsto (fun k => ((a - b * K) ^ k) *ᵥ x) atTop (𝓝 0) := by
  set y : ℕ → n → ℝ := fun k => ((a - b * K) ^ k) *ᵥ x with hy
  have hstep : ∀ k, y (k + 1) = a *ᵥ y k + b *ᵥ (-(K *ᵥ y k)) := fun k => by
    rw [hy]
    simp only [pow_succ', ← Matrix.mulVec_mulVec, Matrix.sub_mulVec, Matrix.mulVec_neg]
    rw [sub_eq_add_neg]
  set V : ℕ → ℝ := fun k => y k ⬝ᵥ P *ᵥ y k with hV
  have hV0 : ∀ k, 0 ≤ V k := fun k => psd_nonneg hP.psd _
  have hdec : ∀ k, y k ⬝ᵥ q *ᵥ y k ≤ V k - V (k + 1) := fun k => by
    have h := dare_square hr hP hK (y k) (-(K *ᵥ y k))
    rw [neg_add_cancel, zero_dotProduct, add_zero, ← hstep] at h
    have h3 := psd_nonneg hr.posSemidef (-(K *ᵥ y k))
    simp only [hV]
    linarith
  have hsq0 : ∀ k, 0 ≤ y k ⬝ᵥ q *ᵥ y k := fun k => psd_nonneg hq.posSemidef _
  have hanti : Antitone V := antitone_nat_of_succ_le fun k => by linarith [hdec k, hsq0 k]
  have hlim := tendsto_atTop_ciInf hanti ⟨0, by rintro _ ⟨k, rfl⟩; exact hV0 k⟩
  have hdiff : Tendsto (fun k => V k - V (k + 1)) atTop (𝓝 0) := by
    have := hlim.sub (hlim.comp (tendsto_add_atTop_nat 1))
    rwa [sub_self] at this
  have hqz : Tendsto (fun k => y k ⬝ᵥ q *ᵥ y k) atTop (𝓝 0) := squeeze_zero hsq0 hdec hdiff
  rw [tendsto_pi_nhds]
  intro i
  obtain ⟨c, hc⟩ := pd_coord hq i
  have hi : Tendsto (fun k => y k i ^ 2) atTop (𝓝 0) := by
    refine squeeze_zero (fun k => sq_nonneg _) (fun k => hc (y k)) ?_
    have := hqz.const_mul c
    rwa [mul_zero] at this
  have habs := hi.sqrt
  simp only [Real.sqrt_sq_eq_abs, Real.sqrt_zero] at habs
  exact (tendsto_zero_iff_abs_tendsto_zero _).2 habs

theorem iter_psd (hr : r.PosDef) (hq : q.PosSemidef) {P₀ : Matrix n n ℝ} (h0 : P₀.PosSemidef) (k : ℕ) :
    ((ric a b q r)^[k] P₀).PosSemidef := by
  induction k with
  | zero => exact h0
  | succ k ih => rw [Function.iterate_succ_apply']; exact ric_psd hr hq ih

/-- The iterates from any start are above those from zero. -/
theorem iter_ge (hr : r.PosDef) (hq : q.PosSemidef) {P₀ : Matrix n n ℝ} (h0 : P₀.PosSemidef) (k : ℕ) (x : n → ℝ) :
    x ⬝ᵥ ricIter a b q r k *ᵥ x ≤ x ⬝ᵥ (ric a b q r)^[k] P₀ *ᵥ x := by
  induction k generalizing x with
  | zero =>
    simp only [ricIter, Matrix.zero_mulVec, dotProduct_zero, Function.iterate_zero_apply]
    exact psd_nonneg h0 x
  | succ k ih =>
    rw [Function.iterate_succ_apply', ricIter]
    exact ric_mono hr (ricIter_psd hr hq k) (iter_psd hr hq h0 k) ih x

/-- They cost no more than any inputs. -/
theorem iter_le (hr : r.PosDef) (hq : q.PosSemidef) {P₀ : Matrix n n ℝ} (h0 : P₀.PosSemidef) (us : List (p → ℝ))
    (x : n → ℝ) : x ⬝ᵥ (ric a b q r)^[us.length] P₀ *ᵥ x ≤ Spec.lqrCost a b q P₀ r us x := by
  induction us generalizing x with
  | nil => exact le_rfl
  | cons u us ih =>
    rw [List.length_cons, Function.iterate_succ_apply', Spec.lqrCost]
    have := ric_le (a := a) (b := b) (q := q) hr (iter_psd (a := a) (b := b) hr hq h0 us.length) x u
    have h2 := ih (a *ᵥ x + b *ᵥ u)
    linarith

theorem feedback_length (K : Matrix p n ℝ) (N : ℕ) (x : n → ℝ) : (Spec.feedback a b K N x).length = N := by
  induction N generalizing x with
  | zero => rfl
  | succ N ih => rw [Spec.feedback, List.length_cons, ih]

/-- A system that can be brought to rest from every state, with a positive definite cost: the Riccati iteration
converges to one matrix, whatever the start. -/
theorem ric_tendsto (hr : r.PosDef) (hq : q.PosDef) (hrest : ∀ x, ∃ us, Spec.final a b us x = 0) :
    ∃ P, P.PosSemidef ∧ ric a b q r P = P ∧
      ∀ P₀ : Matrix n n ℝ, P₀.PosSemidef → Tendsto (fun k => (ric a b q r)^[k] P₀) atTop (𝓝 P) := by
  obtain ⟨P, hP, hlow⟩ := dare_exists hr hq.posSemidef hrest
  refine ⟨P, hP.psd, (isDare_iff.1 hP).2, fun P₀ h0 => ?_⟩
  have hforms : ∀ x : n → ℝ, Tendsto (fun k => x ⬝ᵥ (ric a b q r)^[k] P₀ *ᵥ x) atTop (𝓝 (x ⬝ᵥ P *ᵥ x)) := by
    intro x
    obtain ⟨K, hK, hopt⟩ := C120_optimal hr hP
    have ht := lqr_stable_pd hq hr hP hK x
    have hf : ∀ M : Matrix n n ℝ, Tendsto (fun N => (((a - b * K) ^ N) *ᵥ x) ⬝ᵥ M *ᵥ (((a - b * K) ^ N) *ᵥ x)) atTop (𝓝 0) := by
      intro M
      have hc : Continuous fun y : n → ℝ => y ⬝ᵥ M *ᵥ y :=
        continuous_id.dotProduct (continuous_const.matrix_mulVec continuous_id)
      have := (hc.tendsto 0).comp ht
      rw [zero_dotProduct] at this
      exact this
    have hlim : Tendsto (fun N => x ⬝ᵥ P *ᵥ x - (((a - b * K) ^ N) *ᵥ x) ⬝ᵥ P *ᵥ (((a - b * K) ^ N) *ᵥ x) +
        (((a - b * K) ^ N) *ᵥ x) ⬝ᵥ P₀ *ᵥ (((a - b * K) ^ N) *ᵥ x)) atTop (𝓝 (x ⬝ᵥ P *ᵥ x)) := by
      have := ((tendsto_const_nhds (x := x ⬝ᵥ P *ᵥ x)).sub (hf P)).add (hf P₀)
      simpa using this
    refine tendsto_of_tendsto_of_tendsto_of_le_of_le (form_tendsto hlow x) hlim
      (fun k => iter_ge hr hq.posSemidef h0 k x) fun k => ?_
    have h1 := iter_le (a := a) (b := b) hr hq.posSemidef h0 (Spec.feedback a b K k x) x
    rw [feedback_length, cost_split K P P₀ k x, (hopt x).2 k] at h1
    exact h1
  refine tendsto_pi_nhds.2 fun i => tendsto_pi_nhds.2 fun j => ?_
  have := ((hforms (Pi.single i 1 + Pi.single j 1)).sub (hforms (Pi.single i 1 - Pi.single j 1))).div_const 4
  rw [← polar (psd_symm hP.psd) i j] at this
  refine this.congr fun k => ?_
  exact (polar (psd_symm (iter_psd hr hq.posSemidef h0 k)) i j).symm

end general

end Adcs
