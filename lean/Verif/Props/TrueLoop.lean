import Verif.Proofs.CoastExists

set_option autoImplicit false

/-! # C160: the whole loop of the simulation near its target

The flight software samples attitude, rates and wheel speeds, and its torques act on the satellite until the next
sample. The satellite moves by the equations of a rigid body with reaction wheels, without approximation. -/

namespace Adcs

open scoped Matrix Quaternion Topology
open Set Filter Sim Obs Lqr

/-- A run of the loop: in the interval `k`, of length `T`, the flight software is `f k` before its sample. -/
structure Spec.Run (I : M3) (Js : ℝ) (G : Matrix (Fin 3) (Fin 4) ℝ) (m : V4) (T : ℝ) (f : ℕ → Fsw)
    (q : ℕ → ℝ → V4) (ω : ℕ → ℝ → V3) (Ω : ℕ → ℝ → Fin 4 → ℝ) : Prop where
  sample : ∀ k, f (k + 1) = ((f k).updateState (Spec.starReading (q k 0) m) (ω k 0) (Ω k 0)).2
  coast : ∀ k, Spec.Coast I Js G (f (k + 1)).torqueVals T (q k) (ω k) (Ω k)
  attitude : ∀ k, q (k + 1) 0 = q k T
  rate : ∀ k, ω (k + 1) 0 = ω k T
  wheels : ∀ k, Ω (k + 1) 0 = Ω k T

/-- Close to the attitude `t`, at rest. -/
def Spec.Close (t : V4) (σ η : ℝ) (q : V4) (ω : V3) : Prop := ‖q - σ • t‖ ≤ η ∧ ‖ω‖ ≤ η

/-- A start within `ε` of the target `t` at rest and of the wheel speeds `v`, without total angular momentum. -/
structure Spec.Start (I : M3) (Js : ℝ) (G : Matrix (Fin 3) (Fin 4) ℝ) (t : V4) (v : Fin 4 → ℝ) (σ ε : ℝ) (q : V4)
    (ω : V3) (Ω : Fin 4 → ℝ) : Prop where
  unit : npNorm q = 1
  momentum : I *ᵥ ω + Js • (G *ᵥ Ω) = 0
  close : Spec.Close t σ ε q ω
  wheels : ‖Ω - v‖ ≤ ε

/-- As near as wanted to the target there are starts from which every run leaves a fixed neighbourhood of the target,
without ever having got to the target. -/
def Spec.Repels (f₀ : Fsw) (I : M3) (Js : ℝ) (G : Matrix (Fin 3) (Fin 4) ℝ) (t m : V4) (v : Fin 4 → ℝ) (σ : ℝ) :
    Prop :=
  ∃ η > 0, ∀ ε > 0, ∃ q₀ ω₀ Ω₀, Spec.Start I Js G t v σ ε q₀ ω₀ Ω₀ ∧
    ∀ f q ω Ω, Spec.Run I Js G m f₀.updateTime f q ω Ω → f 0 = f₀ → q 0 0 = q₀ → ω 0 0 = ω₀ → Ω 0 0 = Ω₀ →
      ∃ k, ¬ Spec.Close t σ η (q k 0) (ω k 0) ∧ ∀ j ≤ k, (f j).qTarget = f₀.qTarget

/-- All runs that start near the target stay near it, at the samples, as long as the target is not changed. -/
def Spec.Steady (f₀ : Fsw) (I : M3) (Js : ℝ) (G : Matrix (Fin 3) (Fin 4) ℝ) (t m : V4) (v : Fin 4 → ℝ) (σ : ℝ) :
    Prop :=
  ∀ η > 0, ∃ ε > 0, ∀ f q ω Ω, Spec.Run I Js G m f₀.updateTime f q ω Ω → f 0 = f₀ →
    Spec.Start I Js G t v σ ε (q 0 0) (ω 0 0) (Ω 0 0) →
      ∀ k, (∀ j ≤ k, (f j).qTarget = f₀.qTarget) → Spec.Close t σ η (q k 0) (ω k 0)

/-- All runs that start near the target get to it in the end, unless it is changed. -/
def Spec.Attracts (f₀ : Fsw) (I : M3) (Js : ℝ) (G : Matrix (Fin 3) (Fin 4) ℝ) (t m : V4) (v : Fin 4 → ℝ) (σ : ℝ) :
    Prop :=
  ∃ ε > 0, ∀ f q ω Ω, Spec.Run I Js G m f₀.updateTime f q ω Ω → f 0 = f₀ →
    Spec.Start I Js G t v σ ε (q 0 0) (ω 0 0) (Ω 0 0) → (∀ k, (f k).qTarget = f₀.qTarget) →
      Tendsto (fun k => q k 0) atTop (𝓝 (σ • t)) ∧ Tendsto (fun k => ω k 0) atTop (𝓝 0)

open Spec

/-! ### The loop as an iteration -/

/-- One sample of the linear loop. -/
noncomputable def stepMatrix (J S D : M3) (T : ℝ) : Matrix (Fin 3 ⊕ Fin 3) (Fin 3 ⊕ Fin 3) ℝ :=
  Matrix.fromBlocks (1 - (T ^ 2 / 2) • (J⁻¹ * S)) (T • 1 - (T ^ 2 / 2) • (J⁻¹ * D))
    (-(T • (J⁻¹ * S))) (1 - T • (J⁻¹ * D))

theorem stepMatrix_mulVec (J S D : M3) (T : ℝ) (δ ω : V3) : stepMatrix J S D T *ᵥ Sum.elim δ ω =
    Sum.elim (δ + (T / 2) • (ω + (ω + T • (J⁻¹ *ᵥ (-(S *ᵥ δ) - D *ᵥ ω)))))
      (ω + T • (J⁻¹ *ᵥ (-(S *ᵥ δ) - D *ᵥ ω))) := by
  rw [stepMatrix, Matrix.fromBlocks_mulVec]
  simp only [Sum.elim_comp_inl, Sum.elim_comp_inr, Matrix.sub_mulVec, Matrix.neg_mulVec, Matrix.smul_mulVec,
    Matrix.one_mulVec, ← Matrix.mulVec_mulVec, Matrix.mulVec_sub, Matrix.mulVec_neg]
  congr 1 <;> module

theorem held_iff {J S D : M3} {T : ℝ} (hJ : J.det ≠ 0) (δ ω : ℕ → V3) : Held J S D T δ ω ↔
    ∀ k, Sum.elim (δ (k + 1)) (ω (k + 1)) = stepMatrix J S D T *ᵥ Sum.elim (δ k) (ω k) := by
  have hu := isUnit_iff_ne_zero.2 hJ
  have hr : ∀ k, J *ᵥ (ω (k + 1) - ω k) = T • (-(S *ᵥ δ k) - D *ᵥ ω k) ↔
      ω (k + 1) = ω k + T • (J⁻¹ *ᵥ (-(S *ᵥ δ k) - D *ᵥ ω k)) := by
    intro k
    constructor
    · intro h
      have h1 := congrArg (fun z => J⁻¹ *ᵥ z) h
      simp only [Matrix.mulVec_mulVec, Matrix.nonsing_inv_mul J hu, Matrix.one_mulVec, Matrix.mulVec_smul] at h1
      rw [← h1]; abel
    · intro h
      rw [h, add_sub_cancel_left, Matrix.mulVec_smul, Matrix.mulVec_mulVec, Matrix.mul_nonsing_inv J hu,
        Matrix.one_mulVec]
  constructor
  · intro h k
    rw [stepMatrix_mulVec, ← (hr k).1 (h.rate k), ← h.angle k]
  · intro h
    refine ⟨fun k => ?_, fun k => ?_⟩
    · rw [hr]
      have := h k
      rw [stepMatrix_mulVec] at this
      funext i
      exact congrFun this (.inr i)
    · have := h k
      rw [stepMatrix_mulVec] at this
      have h2 : ω (k + 1) = ω k + T • (J⁻¹ *ᵥ (-(S *ᵥ δ k) - D *ᵥ ω k)) := by
        funext i; exact congrFun this (.inr i)
      rw [h2]
      funext i
      exact congrFun this (.inl i)

theorem elim_norm_le (δ ω : V3) : ‖δ‖ ≤ ‖Sum.elim δ ω‖ ∧ ‖ω‖ ≤ ‖Sum.elim δ ω‖ := by
  constructor
  · rw [pi_norm_le_iff_of_nonneg (norm_nonneg _)]
    intro i; exact norm_le_pi_norm (Sum.elim δ ω) (.inl i)
  · rw [pi_norm_le_iff_of_nonneg (norm_nonneg _)]
    intro i; exact norm_le_pi_norm (Sum.elim δ ω) (.inr i)

theorem elim_norm_iff {δ ω : V3} {r : ℝ} : ‖Sum.elim δ ω‖ ≤ r ↔ ‖δ‖ ≤ r ∧ ‖ω‖ ≤ r := by
  constructor
  · intro h; exact ⟨(elim_norm_le δ ω).1.trans h, (elim_norm_le δ ω).2.trans h⟩
  · rintro ⟨h1, h2⟩
    rw [pi_norm_le_iff_of_nonneg ((norm_nonneg _).trans h1)]
    rintro (i | i)
    · exact (norm_le_pi_norm δ i).trans h1
    · exact (norm_le_pi_norm ω i).trans h2

theorem elim_powers {J S D : M3} {T : ℝ} (hJ : J.det ≠ 0) {δ ω : ℕ → V3} (h : Held J S D T δ ω) (k : ℕ) :
    Sum.elim (δ k) (ω k) = (stepMatrix J S D T ^ k) *ᵥ Sum.elim (δ 0) (ω 0) := by
  induction k with
  | zero => simp
  | succ k ih => rw [(held_iff hJ δ ω).1 h k, ih, Matrix.mulVec_mulVec, ← pow_succ']

theorem growth_of_grows {J S D : M3} {T : ℝ} (hJ : J.det ≠ 0) (h : Grows J S D T) :
    ∃ μ > (1 : ℝ), ∃ x, ∀ B : ℝ, ∃ k, B * μ ^ k < ‖(stepMatrix J S D T ^ k) *ᵥ x‖ := by
  obtain ⟨μ, hμ, h⟩ := h
  obtain ⟨δ, ω, hh, -, hb⟩ := h 1 one_pos
  refine ⟨μ, hμ, Sum.elim (δ 0) (ω 0), fun B => ?_⟩
  obtain ⟨k, i, hk⟩ := hb B
  refine ⟨k, ?_⟩
  rw [← elim_powers hJ hh]
  rcases hk with hk | hk
  · exact hk.trans_le (abs_le_norm (Sum.elim (δ k) (ω k)) (.inl i))
  · exact hk.trans_le (abs_le_norm (Sum.elim (δ k) (ω k)) (.inr i))

theorem decay_of_diesOut {J S D : M3} {T : ℝ} (hJ : J.det ≠ 0) (h : DiesOut J S D T) (x : Fin 3 ⊕ Fin 3 → ℝ) :
    Tendsto (fun k => (stepMatrix J S D T ^ k) *ᵥ x) atTop (𝓝 0) := by
  set X : ℕ → Fin 3 ⊕ Fin 3 → ℝ := fun k => (stepMatrix J S D T ^ k) *ᵥ x with hX
  have hh : Held J S D T (fun k i => X k (.inl i)) (fun k i => X k (.inr i)) := by
    rw [held_iff hJ]
    intro k
    have e : ∀ k, Sum.elim (fun i => X k (.inl i)) (fun i => X k (.inr i)) = X k := by
      intro k; funext i; rcases i with i | i <;> rfl
    rw [e, e, hX]
    dsimp only
    rw [Matrix.mulVec_mulVec, ← pow_succ']
  obtain ⟨h1, h2⟩ := h _ _ hh
  rw [tendsto_pi_nhds]
  rintro (i | i)
  · exact (tendsto_pi_nhds.1 h1) i
  · exact (tendsto_pi_nhds.1 h2) i

theorem mulVec_le' {m n : Type} [Fintype m] [Fintype n] (A : Matrix m n ℝ) : ∃ c ≥ 0, ∀ x : n → ℝ, ‖A *ᵥ x‖ ≤ c * ‖x‖ := by
  classical
  obtain ⟨c, hc, h⟩ := ((Matrix.mulVecLin A).toContinuousLinearMap).bound
  exact ⟨c, hc.le, h⟩

theorem le_of_le_div {M κ x : ℝ} (hM : 0 < M) (h : x ≤ κ / M) : M * x ≤ κ := by
  rw [le_div_iff₀ hM] at h; linarith

theorem small_sq {N x : ℝ} (hN : 1 ≤ N) (hx : 0 ≤ x) (h : N * x ≤ 1) : 0 ≤ 1 - N * x ^ 2 := by
  have h1 : x ≤ 1 := by nlinarith
  have h2 : N * x * x ≤ 1 * 1 := mul_le_mul h h1 hx zero_le_one
  nlinarith

section

variable {f₀ : Fsw} {I : M3} {Js : ℝ} {G : Matrix (Fin 3) (Fin 4) ℝ} {t m : V4} {v : Fin 4 → ℝ} {σ : ℝ}

/-- The state of the iteration. -/
noncomputable def loopState (t : V4) (σ : ℝ) (q : V4) (ω : V3) : Fin 3 ⊕ Fin 3 → ℝ := Sum.elim (relδ t σ q) ω

/-- The matrix of the linear loop. -/
noncomputable def loopMatrix (f₀ : Fsw) (I : M3) (Js : ℝ) (G : Matrix (Fin 3) (Fin 4) ℝ) (t : V4) (σ : ℝ) :
    Matrix (Fin 3 ⊕ Fin 3) (Fin 3 ⊕ Fin 3) ℝ :=
  stepMatrix (loopInertia I Js G) (-(σ / 2) • (kq f₀ * axes t)) (kw f₀) f₀.updateTime

/-- How the wheel speeds follow the rates. -/
noncomputable def wheelGain (f₀ : Fsw) (I : M3) (Js : ℝ) (G : Matrix (Fin 3) (Fin 4) ℝ) : Matrix (Fin 4) (Fin 3) ℝ :=
  Js⁻¹ • (f₀.Gpinv * loopInertia I Js G) - Gᵀ

/-- One sample of the true loop. -/
theorem true_step (h : Aimed f₀ G t m) (hv : ∀ i, |v i| < f₀.maxSpeed) (hσ : σ = 1 ∨ σ = -1) (hJs : Js ≠ 0)
    (hJ : (loopInertia I Js G).det ≠ 0) {κ : ℝ} (hκ : 0 < κ) :
    ∃ ρ > 0, ∀ (f : Fsw) (q : ℝ → V4) (ω : ℝ → V3) (Ω : ℝ → Fin 4 → ℝ), SameSetup f₀ f → f.qTarget = f₀.qTarget →
      Coast I Js G (f.updateState (starReading (q 0) m) (ω 0) (Ω 0)).2.torqueVals f₀.updateTime q ω Ω →
      npNorm (q 0) = 1 → 0 ≤ relc t σ (q 0) → I *ᵥ ω 0 + Js • (G *ᵥ Ω 0) = 0 →
      ‖loopState t σ (q 0) (ω 0)‖ ≤ ρ → ‖Ω 0 - v‖ ≤ ρ →
      SameSetup f₀ (f.updateState (starReading (q 0) m) (ω 0) (Ω 0)).2 ∧
      ((f.updateState (starReading (q 0) m) (ω 0) (Ω 0)).2.qTarget = f₀.qTarget ∨ loopState t σ (q 0) (ω 0) = 0) ∧
      npNorm (q f₀.updateTime) = 1 ∧ 0 ≤ relc t σ (q f₀.updateTime) ∧
      I *ᵥ ω f₀.updateTime + Js • (G *ᵥ Ω f₀.updateTime) = 0 ∧
      Ω f₀.updateTime - Ω 0 = wheelGain f₀ I Js G *ᵥ (ω f₀.updateTime - ω 0) ∧
      ‖loopState t σ (q f₀.updateTime) (ω f₀.updateTime) - loopMatrix f₀ I Js G t σ *ᵥ loopState t σ (q 0) (ω 0)‖ ≤
        κ * ‖loopState t σ (q 0) (ω 0)‖ := by
  set T := f₀.updateTime with hT
  set J := loopInertia I Js G with hJdef
  set S : M3 := -(σ / 2) • (kq f₀ * axes t) with hS
  have hT0 : 0 < T := h.time
  obtain ⟨ρ₀, hρ₀, hball⟩ := Metric.eventually_nhds_iff.1 (near_step h hv hσ)
  obtain ⟨cS, hcS, hS'⟩ := mulVec_le' (J⁻¹ * S)
  obtain ⟨cD, hcD, hD'⟩ := mulVec_le' (J⁻¹ * kw f₀)
  set C : ℝ := 1 + T * (cS + cD) with hC
  have hC1 : 1 ≤ C := by
    have : 0 ≤ T * (cS + cD) := by positivity
    linarith
  set M : ℝ := (2 + 4 * T + 3 * T ^ 2) * T * C ^ 2 with hM
  have hM0 : 0 < M := by positivity
  set N : ℝ := (1 + T + 3 * T ^ 2) * C ^ 2 with hN
  have hN0 : 0 < N := by positivity
  have hN1 : 1 ≤ N := by
    have h1 : 1 ≤ C ^ 2 := one_le_pow₀ hC1
    have h2 : (1 : ℝ) ≤ 1 + T + 3 * T ^ 2 := by nlinarith [sq_nonneg T]
    nlinarith
  refine ⟨min (ρ₀ / 2) (min (κ / M) (min (1 / C) (1 / N))), by positivity, ?_⟩
  intro f q ω Ω hsame htar hco hq hc hm hX hΩ
  set X := loopState t σ (q 0) (ω 0) with hXdef
  have hX1 : ‖X‖ ≤ ρ₀ / 2 := hX.trans (min_le_left _ _)
  have hX2 : ‖X‖ ≤ κ / M := hX.trans ((min_le_right _ _).trans (min_le_left _ _))
  have hX3 : ‖X‖ ≤ 1 / C := hX.trans ((min_le_right _ _).trans ((min_le_right _ _).trans (min_le_left _ _)))
  have hX4 : ‖X‖ ≤ 1 / N := hX.trans ((min_le_right _ _).trans ((min_le_right _ _).trans (min_le_right _ _)))
  have hΩ1 : ‖Ω 0 - v‖ ≤ ρ₀ / 2 := hΩ.trans (min_le_left _ _)
  set δ₀ := relδ t σ (q 0) with hδ₀
  have hXe : X = Sum.elim δ₀ (ω 0) := rfl
  have hδn : ‖δ₀‖ ≤ ‖X‖ := (elim_norm_le δ₀ (ω 0)).1
  have hωn : ‖ω 0‖ ≤ ‖X‖ := (elim_norm_le δ₀ (ω 0)).2
  have hd : dist (((δ₀, ω 0), Ω 0) : (V3 × V3) × (Fin 4 → ℝ)) (0, v) < ρ₀ := by
    rw [dist_eq_norm, Prod.norm_def]
    apply max_lt
    · show ‖((δ₀, ω 0) : V3 × V3) - 0‖ < ρ₀
      rw [sub_zero, Prod.norm_def]
      apply max_lt
      · show ‖δ₀‖ < ρ₀; linarith
      · show ‖ω 0‖ < ρ₀; linarith
    · show ‖Ω 0 - v‖ < ρ₀; linarith
  obtain ⟨g, hg, hgs, hgt, hgq⟩ := hball hd f hsame htar
  dsimp only at hg hgt hgq
  rw [← near_rel h.unit hσ hq hc] at hg
  rw [hg] at hco ⊢
  dsimp only at hco ⊢
  set τ : V3 := -(S *ᵥ δ₀) - kw f₀ *ᵥ ω 0 with hτ
  have hGu : -(G *ᵥ g.torqueVals) = τ := by
    rw [hgt, Matrix.mulVec_mulVec, h.wheels, Matrix.neg_mulVec, Matrix.one_mulVec, neg_neg]
  set a : V3 := J⁻¹ *ᵥ τ with ha
  have mT : T ∈ Icc 0 T := ⟨hT0.le, le_rfl⟩
  have hlin : ∀ s ∈ Icc 0 T, ω s = ω 0 + s • a ∧ Ω s = Ω 0 + s • (Js⁻¹ • g.torqueVals - Gᵀ *ᵥ a) := by
    intro s hs
    have := coast_linear hco hm hJs hJ hs
    rw [hGu] at this
    exact this
  have han : ‖a‖ ≤ (cS + cD) * ‖X‖ := by
    have e : a = -((J⁻¹ * S) *ᵥ δ₀) - (J⁻¹ * kw f₀) *ᵥ ω 0 := by
      rw [ha, hτ, Matrix.mulVec_sub, Matrix.mulVec_neg, Matrix.mulVec_mulVec, Matrix.mulVec_mulVec]
    rw [e]
    have h1 : ‖(J⁻¹ * S) *ᵥ δ₀‖ ≤ cS * ‖X‖ := (hS' δ₀).trans (by gcongr)
    have h2 : ‖(J⁻¹ * kw f₀) *ᵥ ω 0‖ ≤ cD * ‖X‖ := (hD' (ω 0)).trans (by gcongr)
    have h3 := norm_sub_le (-((J⁻¹ * S) *ᵥ δ₀)) ((J⁻¹ * kw f₀) *ᵥ ω 0)
    rw [norm_neg] at h3
    linarith
  have hr1 : C * ‖X‖ ≤ 1 :=
    le_of_le_div (by linarith) hX3
  have hωr : ∀ s ∈ Icc 0 T, ‖ω 0 + s • a‖ ≤ C * ‖X‖ := by
    intro s hs
    have h1 : ‖s • a‖ ≤ T * ((cS + cD) * ‖X‖) := by
      rw [norm_smul, Real.norm_of_nonneg hs.1]
      have := hs.2
      have := hs.1
      gcongr
    have h2 := norm_add_le (ω 0) (s • a)
    rw [hC]
    linarith
  have hder : ∀ s ∈ Icc 0 T, HasDerivWithinAt (fun s => relδ t σ (q s))
        (relc t σ (q s) • (ω 0 + s • a) + (1/2 : ℝ) • (relδ t σ (q s) ⨯₃ (ω 0 + s • a))) (Icc 0 T) s ∧
      HasDerivWithinAt (fun s => relc t σ (q s)) (-(1/4) * (relδ t σ (q s) ⬝ᵥ (ω 0 + s • a))) (Icc 0 T) s := by
    intro s hs
    obtain ⟨q', ω', Ω', h1, -, -, h4, -, -⟩ := hco s hs
    rw [(hlin s hs).1] at h4
    exact rel_deriv h1 h4
  obtain ⟨hest, hcT⟩ := rel_estimate hT0.le hr1 hωr
    (hδn.trans (le_mul_of_one_le_left (norm_nonneg _) hC1)) hc
    (fun s hs => rel_sq h.unit hσ (coast_unit hco hq hs)) (fun s hs => (hder s hs).1) (fun s hs => (hder s hs).2)
  refine ⟨hgs, ?_, coast_unit hco hq mT, ?_, coast_momentum hco hm mT, ?_, ?_⟩
  · rcases hgq with hgq | hgq
    · exact Or.inl hgq
    right
    have h1 : δ₀ = 0 := congrArg Prod.fst hgq
    have h2 : ω 0 = 0 := congrArg Prod.snd hgq
    rw [hXe, h1, h2]
    funext i; rcases i with i | i <;> rfl
  · refine le_trans ?_ hcT
    have h1 : (1 + T + 3 * T ^ 2) * (C * ‖X‖) ^ 2 = N * ‖X‖ ^ 2 := by rw [hN]; ring
    rw [h1]
    exact small_sq hN1 (norm_nonneg X) (le_of_le_div hN0 hX4)
  · rw [(hlin T mT).1, (hlin T mT).2, add_sub_cancel_left, add_sub_cancel_left, Matrix.mulVec_smul, wheelGain,
      Matrix.sub_mulVec, Matrix.smul_mulVec, ← Matrix.mulVec_mulVec, ← hJdef]
    have e : J *ᵥ a = τ := by
      rw [ha, Matrix.mulVec_mulVec, Matrix.mul_nonsing_inv J (isUnit_iff_ne_zero.2 hJ), Matrix.one_mulVec]
    rw [e, hgt]
  · have e : loopState t σ (q T) (ω T) - loopMatrix f₀ I Js G t σ *ᵥ X =
        Sum.elim (relδ t σ (q T) - δ₀ - (T / 2) • (ω 0 + (ω 0 + T • a))) 0 := by
      rw [loopMatrix, hXe, stepMatrix_mulVec, loopState, (hlin T mT).1]
      funext i
      rcases i with i | i
      · simp only [Pi.sub_apply, Sum.elim_inl, Pi.add_apply]
        rw [← hJdef, ← hS, ← hτ, ← ha, ← hT]
        ring
      · simp only [Pi.sub_apply, Sum.elim_inr, Pi.add_apply, Pi.zero_apply]
        rw [← hJdef, ← hS, ← hτ, ← ha, ← hT]
        ring
    rw [e, elim_norm_iff, norm_zero]
    refine ⟨hest.trans ?_, by positivity⟩
    have h1 : (2 + 4 * T + 3 * T ^ 2) * T * (C * ‖X‖) ^ 2 = (M * ‖X‖) * ‖X‖ := by rw [hM]; ring
    rw [h1]
    exact mul_le_mul_of_nonneg_right (le_of_le_div hM0 hX2) (norm_nonneg X)

/-- What a run keeps as long as it stays near the target: the iteration, and all that it needs. -/
theorem run_step (h : Aimed f₀ G t m) (hv : ∀ i, |v i| < f₀.maxSpeed) (hσ : σ = 1 ∨ σ = -1) (hJs : Js ≠ 0)
    (hJ : (loopInertia I Js G).det ≠ 0) {κ : ℝ} (hκ : 0 < κ) :
    ∃ ρ > 0, ∀ (f : ℕ → Fsw) (q : ℕ → ℝ → V4) (ω : ℕ → ℝ → V3) (Ω : ℕ → ℝ → Fin 4 → ℝ),
      Run I Js G m f₀.updateTime f q ω Ω → f 0 = f₀ → npNorm (q 0 0) = 1 → 0 ≤ relc t σ (q 0 0) →
      I *ᵥ ω 0 0 + Js • (G *ᵥ Ω 0 0) = 0 → ‖Ω 0 0 - v‖ ≤ ρ →
      ∀ k, (∀ j ≤ k, ‖loopState t σ (q j 0) (ω j 0)‖ ≤ ρ ∧
          (loopState t σ (q j 0) (ω j 0) ≠ 0 ∨ (f (j + 1)).qTarget = f₀.qTarget)) →
        ‖loopState t σ (q (k + 1) 0) (ω (k + 1) 0) - loopMatrix f₀ I Js G t σ *ᵥ loopState t σ (q k 0) (ω k 0)‖ ≤
          κ * ‖loopState t σ (q k 0) (ω k 0)‖ ∧ (f (k + 1)).qTarget = f₀.qTarget ∧
        npNorm (q (k + 1) 0) = 1 ∧ 0 ≤ relc t σ (q (k + 1) 0) := by
  obtain ⟨ρ₀, hρ₀, hstep⟩ := true_step h hv hσ hJs hJ hκ
  obtain ⟨c, hc, hW⟩ := mulVec_le' (wheelGain f₀ I Js G)
  have hρ : 0 < ρ₀ / (1 + 2 * c) := by positivity
  have hρle : ρ₀ / (1 + 2 * c) ≤ ρ₀ := div_le_self hρ₀.le (by linarith)
  refine ⟨ρ₀ / (1 + 2 * c), hρ, ?_⟩
  intro f q ω Ω hrun hf0 hq0 hc0 hm0 hΩ0
  have inv : ∀ k, (∀ j < k, ‖loopState t σ (q j 0) (ω j 0)‖ ≤ ρ₀ / (1 + 2 * c) ∧
      (loopState t σ (q j 0) (ω j 0) ≠ 0 ∨ (f (j + 1)).qTarget = f₀.qTarget)) →
      SameSetup f₀ (f k) ∧ (f k).qTarget = f₀.qTarget ∧ npNorm (q k 0) = 1 ∧ 0 ≤ relc t σ (q k 0) ∧
        I *ᵥ ω k 0 + Js • (G *ᵥ Ω k 0) = 0 ∧ Ω k 0 - Ω 0 0 = wheelGain f₀ I Js G *ᵥ (ω k 0 - ω 0 0) ∧
        ∀ j, k = j + 1 → ‖loopState t σ (q (j + 1) 0) (ω (j + 1) 0) -
          loopMatrix f₀ I Js G t σ *ᵥ loopState t σ (q j 0) (ω j 0)‖ ≤ κ * ‖loopState t σ (q j 0) (ω j 0)‖ := by
    intro k
    induction k with
    | zero =>
      intro _
      refine ⟨by rw [hf0]; exact ⟨rfl, rfl, rfl, rfl, rfl, rfl, rfl, rfl⟩, by rw [hf0], hq0, hc0, hm0, by simp, ?_⟩
      intro j hj; omega
    | succ k ih =>
      intro hj
      obtain ⟨h1, h2, h3, h4, h5, h6, -⟩ := ih fun j hjk => hj j (by omega)
      obtain ⟨hXk, hne⟩ := hj k (by omega)
      have hΩk : ‖Ω k 0 - v‖ ≤ ρ₀ := by
        have e : Ω k 0 - v = wheelGain f₀ I Js G *ᵥ (ω k 0 - ω 0 0) + (Ω 0 0 - v) := by rw [← h6]; abel
        have hn1 : ‖ω k 0‖ ≤ ρ₀ / (1 + 2 * c) := (elim_norm_le _ _).2.trans hXk
        have hn0 : ‖ω 0 0‖ ≤ ρ₀ / (1 + 2 * c) := (elim_norm_le _ _).2.trans (hj 0 (by omega)).1
        have hn2 : ‖ω k 0 - ω 0 0‖ ≤ 2 * (ρ₀ / (1 + 2 * c)) := by
          have := norm_sub_le (ω k 0) (ω 0 0)
          linarith
        rw [e]
        calc _ ≤ ‖wheelGain f₀ I Js G *ᵥ (ω k 0 - ω 0 0)‖ + ‖Ω 0 0 - v‖ := norm_add_le _ _
          _ ≤ c * (2 * (ρ₀ / (1 + 2 * c))) + ρ₀ / (1 + 2 * c) := by
            refine add_le_add ((hW _).trans ?_) hΩ0
            gcongr
          _ = ρ₀ := by field_simp; ring
      have hco := hrun.coast k
      rw [hrun.sample k] at hco
      obtain ⟨g1, g2, g3, g4, g5, g6, g7⟩ := hstep (f k) (q k) (ω k) (Ω k) h1 h2 hco h3 h4 h5 (hXk.trans hρle) hΩk
      rw [← hrun.sample k] at g1 g2
      rw [← hrun.attitude k] at g3 g4 g7
      rw [← hrun.rate k] at g5 g6 g7
      rw [← hrun.wheels k] at g5 g6
      refine ⟨g1, ?_, g3, g4, g5, ?_, ?_⟩
      · rcases hne with hne | hne
        · exact g2.resolve_right hne
        · exact hne
      · have e : Ω (k + 1) 0 - Ω 0 0 = (Ω (k + 1) 0 - Ω k 0) + (Ω k 0 - Ω 0 0) := by abel
        rw [e, g6, h6, ← Matrix.mulVec_add]
        congr 1
        abel
      · intro j hjk
        obtain rfl : k = j := by omega
        exact g7
  intro k hk
  obtain ⟨-, h2, h3, h4, -, -, h7⟩ := inv (k + 1) fun j hj => hk j (by omega)
  exact ⟨h7 k rfl, h2, h3, h4⟩

/-! ### The state and the attitude -/

theorem close_state (ht : npNorm t = 1) (hσ : σ = 1 ∨ σ = -1) {η : ℝ} {q : V4} {ω : V3} (h : Close t σ η q ω) :
    ‖loopState t σ q ω‖ ≤ 8 * η ∧ 1 - 4 * η ≤ relc t σ q := by
  obtain ⟨h1, h2⟩ := h
  have hη : 0 ≤ η := (norm_nonneg _).trans h2
  have hs : σ * σ = 1 := by rcases hσ with rfl | rfl <;> norm_num
  have hsa : |σ| = 1 := by rcases hσ with rfl | rfl <;> norm_num
  have hn : t 0 ^ 2 + t 1 ^ 2 + t 2 ^ 2 + t 3 ^ 2 = 1 := by rw [← npNorm4_sq, ht]; norm_num
  set d := q - σ • t with hd
  have hq : q = σ • t + d := by rw [hd]; abel
  have hti : ∀ i, |t i| ≤ 1 := by
    intro i
    rw [← sq_le_one_iff_abs_le_one]
    have n0 := sq_nonneg (t 0)
    have n1 := sq_nonneg (t 1)
    have n2 := sq_nonneg (t 2)
    have n3 := sq_nonneg (t 3)
    fin_cases i
    · show t 0 ^ 2 ≤ 1; linarith
    · show t 1 ^ 2 ≤ 1; linarith
    · show t 2 ^ 2 ≤ 1; linarith
    · show t 3 ^ 2 ≤ 1; linarith
  have hdi : ∀ i, |d i| ≤ η := fun i => (abs_le_norm d i).trans h1
  have hp : ∀ i j, |t i * d j| ≤ η := by
    intro i j
    rw [abs_mul]
    calc |t i| * |d j| ≤ 1 * η := mul_le_mul (hti i) (hdi j) (abs_nonneg _) zero_le_one
      _ = η := one_mul _
  have hσ' : ∀ x y : ℝ, |x| ≤ y → |σ * x| ≤ y := by
    intro x y hxy; rwa [abs_mul, hsa, one_mul]
  have four : ∀ a b c e : ℝ, |a| ≤ η → |b| ≤ η → |c| ≤ η → |e| ≤ η → |a + b + c + e| ≤ 4 * η := by
    intro a b c e ha hb hc he
    rw [abs_le] at *
    constructor <;> linarith [ha.1, ha.2, hb.1, hb.2, hc.1, hc.2, he.1, he.2]
  have neg : ∀ i j, |-(t i * d j)| ≤ η := by intro i j; rw [abs_neg]; exact hp i j
  have hδ : ‖relδ t σ q‖ ≤ 8 * η := by
    rw [pi_norm_le_iff_of_nonneg (by linarith)]
    intro i
    rw [Real.norm_eq_abs]
    have two : ∀ x : ℝ, |x| ≤ 4 * η → |2 * (σ * x)| ≤ 8 * η := by
      intro x hx
      rw [abs_mul, abs_two]
      have := hσ' x _ hx
      linarith
    fin_cases i
    · have e : relδ t σ q 0 = 2 * (σ * (t 3 * d 0 + t 2 * d 1 + -(t 1 * d 2) + -(t 0 * d 3))) := by
        rw [hq]; simp [relδ, rawMult, quatConjugate]; ring
      show |relδ t σ q 0| ≤ _
      rw [e]
      exact two _ (four _ _ _ _ (hp _ _) (hp _ _) (neg _ _) (neg _ _))
    · have e : relδ t σ q 1 = 2 * (σ * (-(t 2 * d 0) + t 3 * d 1 + t 0 * d 2 + -(t 1 * d 3))) := by
        rw [hq]; simp [relδ, rawMult, quatConjugate]; ring
      show |relδ t σ q 1| ≤ _
      rw [e]
      exact two _ (four _ _ _ _ (neg _ _) (hp _ _) (hp _ _) (neg _ _))
    · have e : relδ t σ q 2 = 2 * (σ * (t 1 * d 0 + -(t 0 * d 1) + t 3 * d 2 + -(t 2 * d 3))) := by
        rw [hq]; simp [relδ, rawMult, quatConjugate]; ring
      show |relδ t σ q 2| ≤ _
      rw [e]
      exact two _ (four _ _ _ _ (hp _ _) (neg _ _) (hp _ _) (neg _ _))
  refine ⟨elim_norm_iff.2 ⟨hδ, by linarith⟩, ?_⟩
  have e : relc t σ q = 1 + σ * (t 0 * d 0 + t 1 * d 1 + t 2 * d 2 + t 3 * d 3) := by
    rw [hq]
    simp [relc, rawMult, quatConjugate]
    linear_combination (σ * σ) * hn + hs
  rw [e]
  have := (abs_le.1 (hσ' _ _ (four _ _ _ _ (hp 0 0) (hp 1 1) (hp 2 2) (hp 3 3)))).1
  linarith

theorem near_continuous (t : V4) : Continuous fun δ : V3 => near t δ := by
  unfold near rawMult
  fun_prop

theorem near_zero (t : V4) : near t 0 = t := by
  apply vec4_ext <;> simp [near, rawMult]

/-- Near in the state is near in the attitude. -/
theorem state_close (t : V4) (hσ : σ = 1 ∨ σ = -1) {η : ℝ} (hη : 0 < η) :
    ∃ r > 0, ∀ δ : V3, ‖δ‖ ≤ r → ‖σ • near t δ - σ • t‖ ≤ η := by
  have hc := (near_continuous t).continuousAt (x := 0)
  rw [Metric.continuousAt_iff] at hc
  obtain ⟨r, hr, h⟩ := hc η hη
  refine ⟨r / 2, by linarith, fun δ hδ => ?_⟩
  have h1 := h (x := δ) (by rw [dist_zero_right]; linarith)
  rw [near_zero, dist_eq_norm] at h1
  rw [← smul_sub, norm_smul, Real.norm_eq_abs]
  have : |σ| = 1 := by rcases hσ with rfl | rfl <;> norm_num
  rw [this, one_mul]
  exact h1.le

/-- From every start without total angular momentum there is a run. -/
theorem run_exists (hT : 0 ≤ f₀.updateTime) (hJs : Js ≠ 0) (hJ : (loopInertia I Js G).det ≠ 0) {q₀ : V4} {ω₀ : V3}
    {Ω₀ : Fin 4 → ℝ} (hq : npNorm q₀ = 1) (hm : I *ᵥ ω₀ + Js • (G *ᵥ Ω₀) = 0) :
    ∃ f q ω Ω, Run I Js G m f₀.updateTime f q ω Ω ∧ f 0 = f₀ ∧ q 0 0 = q₀ ∧ ω 0 0 = ω₀ ∧ Ω 0 0 = Ω₀ := by
  let St := {s : Fsw × V4 × V3 × (Fin 4 → ℝ) // npNorm s.2.1 = 1 ∧ I *ᵥ s.2.2.1 + Js • (G *ᵥ s.2.2.2) = 0}
  let upd : St → Fsw := fun s => (s.1.1.updateState (starReading s.1.2.1 m) s.1.2.2.1 s.1.2.2.2).2
  have ex : ∀ s : St, ∃ p : (ℝ → V4) × (ℝ → V3) × (ℝ → Fin 4 → ℝ),
      Coast I Js G (upd s).torqueVals f₀.updateTime p.1 p.2.1 p.2.2 ∧ p.1 0 = s.1.2.1 ∧ p.2.1 0 = s.1.2.2.1 ∧
        p.2.2 0 = s.1.2.2.2 := by
    intro s
    obtain ⟨q, ω, Ω, h⟩ := coast_exists hT hJs hJ (upd s).torqueVals s.2.1 s.2.2
    exact ⟨(q, ω, Ω), h⟩
  choose mot hmot using ex
  let nxt : St → St := fun s => ⟨(upd s, (mot s).1 f₀.updateTime, (mot s).2.1 f₀.updateTime, (mot s).2.2 f₀.updateTime),
    coast_unit (hmot s).1 (by rw [(hmot s).2.1]; exact s.2.1) ⟨hT, le_rfl⟩,
    coast_momentum (hmot s).1 (by rw [(hmot s).2.2.1, (hmot s).2.2.2]; exact s.2.2) ⟨hT, le_rfl⟩⟩
  let seq : ℕ → St := fun k => nxt^[k] ⟨(f₀, q₀, ω₀, Ω₀), hq, hm⟩
  have hs : ∀ k, seq (k + 1) = nxt (seq k) := fun k => Function.iterate_succ_apply' _ _ _
  refine ⟨fun k => (seq k).1.1, fun k => (mot (seq k)).1, fun k => (mot (seq k)).2.1, fun k => (mot (seq k)).2.2,
    ⟨fun k => ?_, fun k => ?_, fun k => ?_, fun k => ?_, fun k => ?_⟩, rfl, (hmot _).2.1, (hmot _).2.2.1,
    (hmot _).2.2.2⟩
  · rw [hs, (hmot (seq k)).2.1, (hmot (seq k)).2.2.1, (hmot (seq k)).2.2.2]
  · rw [hs]
    exact (hmot (seq k)).1
  · rw [(hmot (seq (k + 1))).2.1, hs]
  · rw [(hmot (seq (k + 1))).2.2.1, hs]
  · rw [(hmot (seq (k + 1))).2.2.2, hs]

/-- C160: where small errors grow in the linear loop, the true loop leaves the target. -/
theorem C160_leaves (h : Aimed f₀ G t m) (hv : ∀ i, |v i| < f₀.maxSpeed) (hGv : G *ᵥ v = 0) (hσ : σ = 1 ∨ σ = -1)
    (hJs : Js ≠ 0) (hJ : (loopInertia I Js G).det ≠ 0) (hl : Leaves f₀ G t m v σ (loopInertia I Js G)) :
    Repels f₀ I Js G t m v σ := by
  rw [(settles_iff h hv hσ _).2] at hl
  obtain ⟨μ, hμ, x, hx⟩ := growth_of_grows hJ hl
  obtain ⟨κ, hκ, z, hz⟩ := leaves_of_growth (loopMatrix f₀ I Js G t σ) hμ hx
  obtain ⟨ρ, hρ, hrun⟩ := run_step (I := I) h hv hσ hJs hJ hκ
  refine ⟨ρ / 8, by positivity, fun ε hε => ?_⟩
  set zδ : V3 := fun i => z (.inl i) with hzδ
  set zω : V3 := fun i => z (.inr i) with hzω
  obtain ⟨r, hr, hclose⟩ := state_close t hσ hε
  set w : Fin 4 → ℝ := Js⁻¹ • (f₀.Gpinv *ᵥ (I *ᵥ zω)) with hw
  -- a small step in the direction of growth
  obtain ⟨s, hs0, hs1, hs2, hs3, hs4⟩ : ∃ s > (0 : ℝ), s * ‖zδ‖ ≤ min r 1 ∧ s * ‖zω‖ ≤ ε ∧ s * ‖w‖ ≤ ε ∧
      s * ‖w‖ ≤ ρ := by
    set b := 1 + ‖zδ‖ + ‖zω‖ + ‖w‖ with hb
    have hb0 : 0 < b := by positivity
    have hmin : 0 < min (min r 1) (min ε ρ) := by positivity
    have key : ∀ y : ℝ, 0 ≤ y → y ≤ b → min (min r 1) (min ε ρ) / b * y ≤ min (min r 1) (min ε ρ) := by
      intro y hy hyb
      rw [div_mul_eq_mul_div, div_le_iff₀ hb0]
      gcongr
    have n1 := norm_nonneg zδ
    have n2 := norm_nonneg zω
    have n3 := norm_nonneg w
    refine ⟨min (min r 1) (min ε ρ) / b, by positivity, (key _ n1 (by linarith)).trans (min_le_left _ _),
      (key _ n2 (by linarith)).trans ((min_le_right _ _).trans (min_le_left _ _)),
      (key _ n3 (by linarith)).trans ((min_le_right _ _).trans (min_le_left _ _)),
      (key _ n3 (by linarith)).trans ((min_le_right _ _).trans (min_le_right _ _))⟩
  have hδn : ‖s • zδ‖ ≤ min r 1 := by rw [norm_smul, Real.norm_of_nonneg hs0.le]; exact hs1
  have hδ4 : (s • zδ) 0 ^ 2 + (s • zδ) 1 ^ 2 + (s • zδ) 2 ^ 2 ≤ 4 := by
    have h1 : ∀ i, (s • zδ) i ^ 2 ≤ 1 := by
      intro i
      rw [sq_le_one_iff_abs_le_one]
      exact (abs_le_norm _ i).trans (hδn.trans (min_le_right _ _))
    linarith [h1 0, h1 1, h1 2]
  have hunit : npNorm (σ • near t (s • zδ)) = 1 := by
    rw [npNorm_smul, near_norm h.unit hδ4]; rcases hσ with rfl | rfl <;> norm_num
  have hmom : I *ᵥ (s • zω) + Js • (G *ᵥ (v + s • w)) = 0 := by
    rw [Matrix.mulVec_add, hGv, zero_add, Matrix.mulVec_smul, Matrix.mulVec_smul, hw, Matrix.mulVec_smul,
      Matrix.mulVec_mulVec, h.wheels, Matrix.neg_mulVec, Matrix.one_mulVec]
    have : Js • s • Js⁻¹ • -(I *ᵥ zω) = -(s • I *ᵥ zω) := by
      rw [smul_comm s, smul_smul, mul_inv_cancel₀ hJs, one_smul, smul_neg]
    rw [this, add_neg_cancel]
  refine ⟨σ • near t (s • zδ), s • zω, v + s • w, ⟨hunit, hmom, ⟨hclose _ (hδn.trans (min_le_left _ _)), ?_⟩, ?_⟩, ?_⟩
  · rw [norm_smul, Real.norm_of_nonneg hs0.le]; exact hs2
  · rw [add_sub_cancel_left, norm_smul, Real.norm_of_nonneg hs0.le]; exact hs3
  intro f q ω Ω hr hf0 hq0 hω0 hΩ0
  have hstep := hrun f q ω Ω hr hf0 (by rw [hq0]; exact hunit)
    (by rw [hq0, (rel_near h.unit hσ _).2]; exact Real.sqrt_nonneg _) (by rw [hω0, hΩ0]; exact hmom)
    (by rw [hΩ0, add_sub_cancel_left, norm_smul, Real.norm_of_nonneg hs0.le]; exact hs4)
  obtain ⟨k, hk, hmin⟩ := hz s hs0 ρ (fun k => loopState t σ (q k 0) (ω k 0)) (by
    rw [hq0, hω0, loopState, (rel_near h.unit hσ _).1]
    funext i
    rcases i with i | i <;> rfl) (fun k hk => (hstep k fun j hj => ⟨(hk j hj).1, Or.inl (hk j hj).2⟩).1)
  refine ⟨k, fun hcl => ?_, fun j hj => ?_⟩
  · have := (close_state h.unit hσ hcl).1
    linarith
  · rcases j with - | j
    · rw [hf0]
    · exact (hstep j fun i hi => ⟨(hmin i (by omega)).1, Or.inl (hmin i (by omega)).2⟩).2.1

/-- C160: where small errors die out in the linear loop, the true loop stays near the target and goes there. -/
theorem C160_settles (h : Aimed f₀ G t m) (hv : ∀ i, |v i| < f₀.maxSpeed) (hσ : σ = 1 ∨ σ = -1)
    (hJs : Js ≠ 0) (hJ : (loopInertia I Js G).det ≠ 0) (hl : Settles f₀ G t m v σ (loopInertia I Js G)) :
    Steady f₀ I Js G t m v σ ∧ Attracts f₀ I Js G t m v σ := by
  rw [(settles_iff h hv hσ _).1] at hl
  obtain ⟨κ, hκ, c, hc, hz⟩ := settles_of_decay (loopMatrix f₀ I Js G t σ) (decay_of_diesOut hJ hl)
  obtain ⟨ρ, hρ, hrun⟩ := run_step (I := I) h hv hσ hJs hJ hκ
  have main : ∀ η > 0, η ≤ ρ → ∃ ε > 0, ∀ f q ω Ω, Run I Js G m f₀.updateTime f q ω Ω → f 0 = f₀ →
      Start I Js G t v σ ε (q 0 0) (ω 0 0) (Ω 0 0) → ∀ M : ℕ∞, (∀ j : ℕ, (j : ℕ∞) ≤ M → (f j).qTarget = f₀.qTarget) →
        (∀ k : ℕ, (k : ℕ∞) ≤ M → ‖loopState t σ (q k 0) (ω k 0)‖ ≤ η ∧ q k 0 = σ • near t (relδ t σ (q k 0))) ∧
        (M = ⊤ → Tendsto (fun k => loopState t σ (q k 0) (ω k 0)) atTop (𝓝 0)) := by
    intro η hη hηρ
    refine ⟨min (min (η / (8 * c)) ρ) (1 / 4), by positivity, ?_⟩
    intro f q ω Ω hr hf0 hst M htar
    obtain ⟨hx0, hc0⟩ := close_state h.unit hσ hst.close
    have e1 : min (min (η / (8 * c)) ρ) (1 / 4) ≤ η / (8 * c) := (min_le_left _ _).trans (min_le_left _ _)
    have e2 : min (min (η / (8 * c)) ρ) (1 / 4) ≤ ρ := (min_le_left _ _).trans (min_le_right _ _)
    have e3 : min (min (η / (8 * c)) ρ) (1 / 4) ≤ 1 / 4 := min_le_right _ _
    have hc0' : 0 ≤ relc t σ (q 0 0) := by linarith
    have hstep := hrun f q ω Ω hr hf0 hst.unit hc0' hst.momentum (hst.wheels.trans e2)
    have h1 : c * ‖loopState t σ (q 0 0) (ω 0 0)‖ ≤ η := by
      calc c * ‖loopState t σ (q 0 0) (ω 0 0)‖ ≤ c * (8 * (η / (8 * c))) := by
            have := hx0.trans (mul_le_mul_of_nonneg_left e1 (by norm_num : (0 : ℝ) ≤ 8))
            gcongr
        _ = η := by field_simp
    have hnext : ∀ k : ℕ, (k : ℕ∞) < M → ((k + 1 : ℕ) : ℕ∞) ≤ M := by
      intro k hk
      have := Order.add_one_le_of_lt hk
      exact_mod_cast this
    have hgo : ∀ k : ℕ, (k : ℕ∞) < M → (∀ j ≤ k, ‖loopState t σ (q j 0) (ω j 0)‖ ≤ η) → _ := fun k hk hj =>
      hstep k fun j hjk => ⟨(hj j hjk).trans hηρ, Or.inr (htar (j + 1) (hnext j
        (lt_of_le_of_lt (by exact_mod_cast hjk) hk)))⟩
    obtain ⟨h2, h3⟩ := hz η (fun k => loopState t σ (q k 0) (ω k 0)) h1 M fun k hk hj => (hgo k hk hj).1
    refine ⟨fun k hk => ⟨h2 k hk, ?_⟩, h3⟩
    rcases k with - | k
    · exact near_rel h.unit hσ hst.unit hc0'
    · have hk' : (k : ℕ∞) < M := lt_of_lt_of_le (by exact_mod_cast Nat.lt_succ_self k) hk
      have := hgo k hk' fun j hj => h2 j (le_trans (by exact_mod_cast hj) hk'.le)
      exact near_rel h.unit hσ this.2.2.1 this.2.2.2
  constructor
  · intro η hη
    obtain ⟨r, hr, hclose⟩ := state_close t hσ hη
    obtain ⟨ε, hε, hmain⟩ := main (min (min r η) ρ) (by positivity) (min_le_right _ _)
    refine ⟨ε, hε, fun f q ω Ω hrn hf0 hst k hk => ?_⟩
    obtain ⟨hX, hq⟩ := (hmain f q ω Ω hrn hf0 hst k fun j hj => hk j (by exact_mod_cast hj)).1 k le_rfl
    obtain ⟨h1, h2⟩ := elim_norm_iff.1 hX
    refine ⟨?_, h2.trans ((min_le_left _ _).trans (min_le_right _ _))⟩
    rw [hq]
    exact hclose _ (h1.trans ((min_le_left _ _).trans (min_le_left _ _)))
  · obtain ⟨ε, hε, hmain⟩ := main ρ hρ le_rfl
    refine ⟨ε, hε, fun f q ω Ω hrn hf0 hst htar => ?_⟩
    obtain ⟨h1, h2⟩ := hmain f q ω Ω hrn hf0 hst ⊤ fun j _ => htar j
    have h3 := h2 rfl
    have hδ : Tendsto (fun k => relδ t σ (q k 0)) atTop (𝓝 0) :=
      tendsto_pi_nhds.2 fun i => (tendsto_pi_nhds.1 h3) (.inl i)
    have hω : Tendsto (fun k => ω k 0) atTop (𝓝 0) := tendsto_pi_nhds.2 fun i => (tendsto_pi_nhds.1 h3) (.inr i)
    refine ⟨?_, hω⟩
    have hnear := ((near_continuous t).tendsto 0).comp hδ
    rw [near_zero] at hnear
    refine (hnear.const_smul σ).congr fun k => ?_
    exact ((h1 k le_top).2).symm

/-- C160: from every attitude and rate with wheel speeds that balance the angular momentum there is a run, so the
statements about all runs are about something. -/
theorem C160_runs (h : Aimed f₀ G t m) (hJs : Js ≠ 0) (hJ : (loopInertia I Js G).det ≠ 0) {q₀ : V4}
    {ω₀ : V3} {Ω₀ : Fin 4 → ℝ} (hq : npNorm q₀ = 1) (hm : I *ᵥ ω₀ + Js • (G *ᵥ Ω₀) = 0) :
    ∃ f q ω Ω, Run I Js G m f₀.updateTime f q ω Ω ∧ f 0 = f₀ ∧ q 0 0 = q₀ ∧ ω 0 0 = ω₀ ∧ Ω 0 0 = Ω₀ :=
  run_exists h.time.le hJs hJ hq hm

/-- The two behaviours exclude each other. -/
theorem repels_not_steady (h : Aimed f₀ G t m) (hJs : Js ≠ 0) (hJ : (loopInertia I Js G).det ≠ 0)
    (hr : Repels f₀ I Js G t m v σ) : ¬ Steady f₀ I Js G t m v σ := by
  intro hs
  obtain ⟨η, hη, hr⟩ := hr
  obtain ⟨ε, hε, hs⟩ := hs η hη
  obtain ⟨q₀, ω₀, Ω₀, hst, hr⟩ := hr ε hε
  obtain ⟨f, q, ω, Ω, hrun, h0, h1, h2, h3⟩ := C160_runs h hJs hJ hst.unit hst.momentum
  obtain ⟨k, hk, hj⟩ := hr f q ω Ω hrun h0 h1 h2 h3
  exact hk (hs f q ω Ω hrun h0 (by rw [h1, h2, h3]; exact hst) k hj)

/-! ### The wheels of the satellite -/

/-- The inertia that the wheels leave to the satellite. -/
theorem loopInertia_wheels (d : V3) (Js xy z : ℝ) : loopInertia (Matrix.diagonal d) Js (wheelMatrix xy z) =
    Matrix.diagonal ![d 0 - 4 * Js * xy ^ 2, d 1 - 4 * Js * xy ^ 2, d 2 - 4 * Js * z ^ 2] := by
  have h : wheelMatrix xy z * (wheelMatrix xy z)ᵀ = Matrix.diagonal ![4 * xy ^ 2, 4 * xy ^ 2, 4 * z ^ 2] := by
    ext i j
    rw [Matrix.mul_apply]
    simp only [Matrix.transpose_apply]
    fin_cases i <;> fin_cases j <;> simp [wheelMatrix, Fin.sum_univ_four] <;> ring
  rw [loopInertia, h]
  ext i j
  fin_cases i <;> fin_cases j <;> simp <;> ring

/-- C160: for the gain of `get_gain_matrix`, four wheels arranged as on the satellite and whatever the target, the true
loop stays near the target from all starts near it, at least for one of the two quaternions of the attitude. -/
def C160_claim : Prop :=
  ∀ (d : V3) (T e w : ℝ), (∀ i, 0 < d i) → 0 < T →
    ∀ (f : Fsw) (Js xy z : ℝ) (t m : V4) (v : Fin 4 → ℝ), GetGain (Matrix.diagonal d) T e w f.K →
      Aimed f (wheelMatrix xy z) t m → f.updateTime = T → (∀ i, |v i| < f.maxSpeed) → wheelMatrix xy z *ᵥ v = 0 →
      0 < Js → (∀ i, 4 * Js * xy ^ 2 < d i ∧ 4 * Js * z ^ 2 < d i) →
      ∃ σ : ℝ, (σ = 1 ∨ σ = -1) ∧ Steady f (Matrix.diagonal d) Js (wheelMatrix xy z) t m v σ

theorem wheel_moments {d : V3} {Js xy z : ℝ} (h : ∀ i, 4 * Js * xy ^ 2 < d i ∧ 4 * Js * z ^ 2 < d i) (i : Fin 3) :
    0 < (![d 0 - 4 * Js * xy ^ 2, d 1 - 4 * Js * xy ^ 2, d 2 - 4 * Js * z ^ 2] : V3) i := by
  fin_cases i
  · simpa using (h 0).1
  · simpa using (h 1).1
  · simpa using (h 2).2

theorem wheel_det {d : V3} {Js xy z : ℝ} (h : ∀ i, 4 * Js * xy ^ 2 < d i ∧ 4 * Js * z ^ 2 < d i) :
    (loopInertia (Matrix.diagonal d) Js (wheelMatrix xy z)).det ≠ 0 := by
  rw [loopInertia_wheels, Matrix.det_diagonal]
  exact Finset.prod_ne_zero_iff.2 fun i _ => (wheel_moments h i).ne'

/-- C160: near both targets of the simulation the true loop is repelled by the target: for every satellite with
principal moments of inertia, every gain of `get_gain_matrix`, every sampling time, every wheel inertia, and both
quaternions. -/
theorem C160_shipped_partial {d : V3} (hd : ∀ i, 0 < d i) {T e w : ℝ} (hT : 0 < T) {f : Fsw} {Js xy z : ℝ}
    (hK : GetGain (Matrix.diagonal d) T e w f.K) {v : Fin 4 → ℝ} (hG : wheelMatrix xy z * f.Gpinv = -1)
    (hr : f.omegaTarget = 0) (hI : 0 < f.rwInertia) (hm : 0 < f.maxTorque) (hfT : f.updateTime = T)
    (hv : ∀ i, |v i| < f.maxSpeed) (hGv : wheelMatrix xy z *ᵥ v = 0) (hJs : 0 < Js)
    (hw : ∀ i, 4 * Js * xy ^ 2 < d i ∧ 4 * Js * z ^ 2 < d i) {σ : ℝ} (hσ : σ = 1 ∨ σ = -1) :
    (initialTarget ![0, 1, 0] 90 (aaq ![0, 1, 0] 90) = .ok f.qTarget →
      Repels f (Matrix.diagonal d) Js (wheelMatrix xy z) (aaq ![0, 1, 0] 90) (aaq ![0, 1, 0] 90) v σ) ∧
    (f.qTarget = secondTarget →
      Repels f (Matrix.diagonal d) Js (wheelMatrix xy z) (aaq ![0, 1, 0] 180) (aaq ![0, 1, 0] 90) v σ) := by
  have hl := C158_shipped_partial hd (fun i => (wheel_moments hw i).ne') hT hK hG hr hI hm hfT hv hσ
  rw [← loopInertia_wheels] at hl
  have e : ∀ deg : ℝ, aaq ![0, 1, 0] deg = spin (npRadians deg) := by
    intro deg
    apply vec4_ext <;> simp [aaq, spin]
  have h90 : npRadians 90 = Real.pi / 2 := by rw [npRadians]; ring
  have h180 : npRadians 180 = Real.pi := by rw [npRadians]; ring
  constructor
  · intro ht
    refine C160_leaves ⟨?_, aaq_norm yAxis_norm _, aaq_norm yAxis_norm _, hr, hI, by rw [hfT]; exact hT, hm, hG⟩ hv hGv
      hσ hJs.ne' (wheel_det hw) (hl.1 ht)
    rw [shipped_targets.1] at ht
    rw [← Except.ok.inj ht, e, h90]
  · intro ht
    refine C160_leaves ⟨?_, aaq_norm yAxis_norm _, aaq_norm yAxis_norm _, hr, hI, by rw [hfT]; exact hT, hm, hG⟩ hv hGv
      hσ hJs.ne' (wheel_det hw) (hl.2 ht)
    rw [ht, shipped_targets.2, e 180, h180]

/-- C160 fails: for the moments of inertia of the satellite and its wheels, and the first target of the simulation. -/
theorem C160_steady_fails : ¬ C160_claim := by
  intro H
  obtain ⟨K, hK⟩ := exGain
  have hw : ∀ i, 4 * (4.2946e-6 : ℝ) * (1 / 2) ^ 2 < (![0.0165, 0.016, 0.0065] : V3) i ∧
      4 * (4.2946e-6 : ℝ) * (1 / 2) ^ 2 < (![0.0165, 0.016, 0.0065] : V3) i := by
    intro i
    fin_cases i <;> norm_num
  have ha := exAim_aimed K (spin_norm (Real.pi / 2)) (aaq_norm yAxis_norm 90)
  obtain ⟨σ, hσ, hs⟩ := H _ 0.1 0.1 0.05 exMoments (by norm_num) (exAim K (spin (Real.pi / 2)) (aaq ![0, 1, 0] 90))
    4.2946e-6 (1 / 2) (1 / 2) (spin (Real.pi / 2)) (aaq ![0, 1, 0] 90) 0 hK ha rfl (exAim_speed _ _ _)
    (Matrix.mulVec_zero _) (by norm_num) hw
  have hl := C158_quarter_partial exMoments (fun i => (wheel_moments hw i).ne') (by norm_num)
    (f := exAim K (spin (Real.pi / 2)) (aaq ![0, 1, 0] 90)) hK ha rfl (exAim_speed _ _ _) hσ
  rw [← loopInertia_wheels] at hl
  exact repels_not_steady ha (by norm_num) (wheel_det hw)
    (C160_leaves ha (exAim_speed _ _ _) (Matrix.mulVec_zero _) hσ (by norm_num) (wheel_det hw) hl) hs

/-! ### The upright target -/

/-- Small errors of separate axes die out if the damping is small enough for the sampling time. -/
theorem diesOut_axes {d k c : V3} {T : ℝ} (hT : 0 < T) (hd : ∀ i, 0 < d i) (hk : ∀ i, 0 < k i)
    (h1 : ∀ i, T / 4 * k i < c i) (h2 : ∀ i, T * c i < 2 * d i) :
    DiesOut (Matrix.diagonal d) ((1 / 2 : ℝ) • Matrix.diagonal k) (Matrix.diagonal c) T := by
  refine diesOut_of_modes (by rw [Matrix.det_diagonal]; exact Finset.prod_ne_zero_iff.2 fun i _ => (hd i).ne') ?_
  intro l x y hne e1 e2
  have f1 : ∀ i, (l - 1) * (d i * y i) = T * (-(1 / 2 * k i * x i) - c i * y i) := by
    intro i
    have := congrFun e1 i
    simpa [Matrix.mulVec, dotProduct, Matrix.diagonal_apply, Fin.sum_univ_three, ← Matrix.smul_one_eq_diagonal,
      apply_ite] using this
  have f2 : ∀ i, (l - 1) * x i = T / 2 * (1 + l) * y i := fun i => congrFun e2 i
  obtain ⟨i, hi⟩ : ∃ i, y i ≠ 0 := by
    by_contra hn
    push Not at hn
    have hx : x = 0 := by
      funext i
      have h := f1 i
      rw [hn i] at h
      have hT' : (T : ℂ) ≠ 0 := Complex.ofReal_ne_zero.2 hT.ne'
      have hk' : (k i : ℂ) ≠ 0 := Complex.ofReal_ne_zero.2 (hk i).ne'
      have : (T : ℂ) * (k i * x i) = 0 := by linear_combination 2 * h
      simpa [hT', hk'] using this
    rcases hne with h | h
    · exact h hx
    · exact h (funext hn)
  have hd' : (d i : ℂ) ≠ 0 := Complex.ofReal_ne_zero.2 (hd i).ne'
  set a : ℝ := T * c i / d i with ha
  set b : ℝ := T ^ 2 * k i / (4 * d i) with hb
  have hda := hd i
  have hka := hk i
  refine (jury (2 - a - b) (1 - a + b)).2 ⟨?_, ?_, ?_⟩ l ?_
  · have : b < a := by
      rw [ha, hb, div_lt_div_iff₀ (by positivity) hda]
      nlinarith [mul_lt_mul_of_pos_left (h1 i) (mul_pos hT hda)]
    linarith
  · have : 0 < b := by positivity
    linarith
  · have : a < 2 := by rw [ha, div_lt_iff₀ hda]; exact h2 i
    linarith
  · have h3 : ((l - 1) ^ 2 * d i + T * c i * (l - 1) + T ^ 2 / 4 * k i * (1 + l)) * y i = 0 := by
      linear_combination (l - 1) * f1 i - 1 / 2 * T * k i * f2 i
    have h4 := (mul_eq_zero.1 h3).resolve_right hi
    have ea : (a : ℂ) * d i = T * c i := by rw [ha]; push_cast; field_simp
    have eb : (b : ℂ) * (4 * d i) = T ^ 2 * k i := by rw [hb]; push_cast; field_simp
    apply mul_right_cancel₀ hd'
    push_cast
    linear_combination h4 + (l - 1) * ea + 1 / 4 * (1 + l) * eb

/-- C160 holds where the body axes of the target are the inertial axes: with the quaternion of the attitude that has a
negative scalar part, the true loop stays near the target and goes there, if the damping is small enough for the
moments of inertia that the wheels leave. Missing: other targets. -/
theorem C160_upright_partial {d : V3} (hd : ∀ i, 0 < d i) {T e w : ℝ} (hT : 0 < T) {f : Fsw} {Js xy z : ℝ}
    (hK : GetGain (Matrix.diagonal d) T e w f.K) {m : V4} (h : Aimed f (wheelMatrix xy z) ![0, 0, 0, 1] m)
    {v : Fin 4 → ℝ} (hfT : f.updateTime = T) (hv : ∀ i, |v i| < f.maxSpeed) (hJs : 0 < Js)
    (hw : ∀ i, 4 * Js * xy ^ 2 < d i ∧ 4 * Js * z ^ 2 < d i)
    (hc : ∀ i, 4 * Js * xy ^ 2 < d i - T * f.K i (.inr i) / 2 ∧ 4 * Js * z ^ 2 < d i - T * f.K i (.inr i) / 2) :
    Steady f (Matrix.diagonal d) Js (wheelMatrix xy z) ![0, 0, 0, 1] m v (-1) ∧
    Attracts f (Matrix.diagonal d) Js (wheelMatrix xy z) ![0, 0, 0, 1] m v (-1) := by
  refine C160_settles h hv (Or.inr rfl) hJs.ne' (wheel_det hw) ?_
  rw [(settles_iff h hv (Or.inr rfl) _).1, axes_id, hfT, Matrix.mul_one, neg_div, neg_neg, loopInertia_wheels]
  obtain ⟨e1, e2⟩ := gain_blocks (fun i => (hd i).ne') hT.ne' hK
  rw [e1, e2]
  have hg := C150_positive d hd T e w hT f.K hK
  refine diesOut_axes hT (wheel_moments hw) (fun i => (hg i).1) (fun i => (hg i).2.1) fun i => ?_
  fin_cases i
  · have := (hc 0).1; simp; linarith
  · have := (hc 1).1; simp; linarith
  · have := (hc 2).2; simp; linarith

/-- For the satellite of the simulation with wheels light enough the hypotheses hold, for both kinds of targets. -/
example : ∃ K, ∃ Js > 0, GetGain (Matrix.diagonal ![0.0165, 0.016, 0.0065]) 0.1 0.1 0.05 K ∧
    Aimed (exAim K ![0, 0, 0, 1] ![0, 0.6, 0, 0.8]) (wheelMatrix (1/2) (1/2)) ![0, 0, 0, 1] ![0, 0.6, 0, 0.8] ∧
    ∀ i, 4 * Js * (1 / 2) ^ 2 < (![0.0165, 0.016, 0.0065] : V3) i - 0.1 * K i (.inr i) / 2 ∧
      4 * Js * (1 / 2) ^ 2 < (![0.0165, 0.016, 0.0065] : V3) i := by
  obtain ⟨K, hK⟩ := exGain
  have hg := C150_positive _ exMoments 0.1 0.1 0.05 (by norm_num) K hK
  set d : V3 := ![0.0165, 0.016, 0.0065] with hd
  have hp : ∀ i, 0 < d i - 0.1 * K i (.inr i) / 2 := by
    intro i
    have := (hg i).2.2
    rw [lt_div_iff₀ (by norm_num)] at this
    linarith
  have hq : ∀ i, d i - 0.1 * K i (.inr i) / 2 ≤ d i := by
    intro i
    have h1 := (hg i).1
    have h2 := (hg i).2.1
    have : 0 < K i (.inr i) := by nlinarith
    linarith
  set s := min (d 0 - 0.1 * K 0 (.inr 0) / 2) (min (d 1 - 0.1 * K 1 (.inr 1) / 2) (d 2 - 0.1 * K 2 (.inr 2) / 2)) with hs
  have hs0 : 0 < s := lt_min (hp 0) (lt_min (hp 1) (hp 2))
  have hsi : ∀ i, s ≤ d i - 0.1 * K i (.inr i) / 2 := by
    intro i
    fin_cases i
    · exact min_le_left _ _
    · exact (min_le_right _ _).trans (min_le_left _ _)
    · exact (min_le_right _ _).trans (min_le_right _ _)
  refine ⟨K, s / 2, by positivity, hK, exAim_aimed K (npNorm_vec4 (by norm_num)) (npNorm_vec4 (by norm_num)), fun i => ?_⟩
  have h1 := hsi i
  have h2 := hq i
  have : 4 * (s / 2) * (1 / 2) ^ 2 = s / 2 := by ring
  rw [this]
  exact ⟨by linarith, by linarith⟩

end

end Adcs
