import Mathlib.LinearAlgebra.Matrix.Charpoly.Eigs
import Mathlib.LinearAlgebra.Matrix.ToLinearEquiv
import Mathlib.Analysis.Complex.Polynomial.Basic
import Mathlib.Analysis.SpecificLimits.Normed
import Mathlib.Analysis.Normed.Algebra.GelfandFormula
import Mathlib.Analysis.Matrix.Normed

set_option autoImplicit false

/-! # Sampled loops with a torque held between the samples -/

namespace Adcs

open scoped Matrix
open Filter Topology

/-- Small errors `δ` (a rotation vector) and rates `ω` of a body of inertia `J` at the times `0, T, 2T, ...`, under
the torque `-S δ - D ω` of each sample, which is held until the next one: the rate changes at a constant pace, so
that the error changes by the mean of the two rates. -/
structure Spec.Held {n : Type} [Fintype n] (J S D : Matrix n n ℝ) (T : ℝ) (δ ω : ℕ → n → ℝ) : Prop where
  rate : ∀ k, J *ᵥ (ω (k + 1) - ω k) = T • (-(S *ᵥ δ k) - D *ᵥ ω k)
  angle : ∀ k, δ (k + 1) = δ k + (T / 2) • (ω k + ω (k + 1))

/-- All small errors die out. -/
def Spec.DiesOut {n : Type} [Fintype n] (J S D : Matrix n n ℝ) (T : ℝ) : Prop :=
  ∀ δ ω, Spec.Held J S D T δ ω → Tendsto δ atTop (𝓝 0) ∧ Tendsto ω atTop (𝓝 0)

/-- Some error, as small as wanted at the start, grows exponentially. -/
def Spec.Grows {n : Type} [Fintype n] (J S D : Matrix n n ℝ) (T : ℝ) : Prop :=
  ∃ μ > (1 : ℝ), ∀ ε > 0, ∃ δ ω, Spec.Held J S D T δ ω ∧ (∀ i, |δ 0 i| ≤ ε ∧ |ω 0 i| ≤ ε) ∧
    ∀ B : ℝ, ∃ k i, B * μ ^ k < |δ k i| ∨ B * μ ^ k < |ω k i|

namespace Spec.Held

variable {n : Type} [Fintype n] {J S D : Matrix n n ℝ} {T : ℝ} {δ ω : ℕ → n → ℝ}

theorem smul (h : Spec.Held J S D T δ ω) (c : ℝ) : Spec.Held J S D T (fun k => c • δ k) (fun k => c • ω k) := by
  refine ⟨fun k => ?_, fun k => ?_⟩
  · have := congrArg (fun x => c • x) (h.rate k)
    simp only [← smul_sub, Matrix.mulVec_smul] at this ⊢
    rw [this]
    module
  · have := congrArg (fun x => c • x) (h.angle k)
    rw [this]
    module

end Spec.Held

theorem not_diesOut_of_grows {n : Type} [Fintype n] {J S D : Matrix n n ℝ} {T : ℝ} (h : Spec.Grows J S D T) :
    ¬ Spec.DiesOut J S D T := by
  intro hd
  obtain ⟨μ, hμ, h⟩ := h
  obtain ⟨δ, ω, hh, -, hb⟩ := h 1 one_pos
  obtain ⟨h1, h2⟩ := hd δ ω hh
  obtain ⟨B1, hB1⟩ := (Metric.isBounded_range_of_tendsto δ h1).exists_norm_le
  obtain ⟨B2, hB2⟩ := (Metric.isBounded_range_of_tendsto ω h2).exists_norm_le
  have hm : ∀ k, max B1 B2 ≤ max B1 B2 * μ ^ k := by
    intro k
    have h0 : 0 ≤ max B1 B2 := le_max_of_le_left ((norm_nonneg _).trans (hB1 _ ⟨0, rfl⟩))
    exact le_mul_of_one_le_right h0 (one_le_pow₀ hμ.le)
  obtain ⟨k, i, hk | hk⟩ := hb (max B1 B2)
  · have := (norm_le_pi_norm (δ k) i).trans (hB1 _ ⟨k, rfl⟩)
    rw [Real.norm_eq_abs] at this
    exact absurd (lt_of_le_of_lt ((le_max_left B1 B2).trans (hm k)) hk) (not_lt.2 this)
  · have := (norm_le_pi_norm (ω k) i).trans (hB2 _ ⟨k, rfl⟩)
    rw [Real.norm_eq_abs] at this
    exact absurd (lt_of_le_of_lt ((le_max_right B1 B2).trans (hm k)) hk) (not_lt.2 this)

/-- A matrix whose trace is small has an eigenvalue with a small real part. -/
theorem exists_eig_re_lt {n : Type} [Fintype n] [DecidableEq n] (N : Matrix n n ℂ) (c : ℝ)
    (h : N.trace.re < c * Fintype.card n) : ∃ (μ : ℂ) (v : n → ℂ), v ≠ 0 ∧ N *ᵥ v = μ • v ∧ μ.re < c := by
  by_contra hn
  push Not at hn
  have hr : ∀ μ ∈ N.charpoly.roots, c ≤ μ.re := by
    intro μ hμ
    have h0 : N.charpoly.eval μ = 0 := Polynomial.isRoot_of_mem_roots hμ
    rw [Matrix.eval_charpoly] at h0
    obtain ⟨v, hv, hv2⟩ := Matrix.exists_mulVec_eq_zero_iff.2 h0
    refine hn μ v hv ?_
    rw [Matrix.sub_mulVec, sub_eq_zero, Matrix.scalar_apply] at hv2
    rw [← hv2]
    funext i
    simp [Matrix.mulVec_diagonal]
  have hs : N.trace = N.charpoly.roots.sum := Matrix.trace_eq_sum_roots_charpoly N
  have hcard : N.charpoly.roots.card = Fintype.card n := by
    rw [← (IsAlgClosed.splits N.charpoly).natDegree_eq_card_roots, Matrix.charpoly_natDegree_eq_dim]
  have hre : ∀ m : Multiset ℂ, (∀ μ ∈ m, c ≤ μ.re) → c * m.card ≤ m.sum.re := by
    intro m
    induction m using Multiset.induction_on with
    | empty => simp
    | cons a m ih =>
      intro hm
      have h1 := hm a (Multiset.mem_cons_self a m)
      have h2 := ih fun μ hμ => hm μ (Multiset.mem_cons_of_mem hμ)
      simp only [Multiset.card_cons, Multiset.sum_cons, Complex.add_re]
      push_cast
      linarith
  have := hre _ hr
  rw [hcard, ← hs] at this
  linarith

/-- The real part of every multiple of a complex mode is a run of the loop. -/
theorem held_mode {n : Type} [Fintype n] {J S D : Matrix n n ℝ} {T : ℝ} (l : ℂ) (x y : n → ℂ)
    (h1 : (l - 1) • (J.map Complex.ofReal *ᵥ y) =
      (T : ℂ) • (-(S.map Complex.ofReal *ᵥ x) - D.map Complex.ofReal *ᵥ y))
    (h2 : (l - 1) • x = ((T : ℂ) / 2 * (1 + l)) • y) (c : ℂ) :
    Spec.Held J S D T (fun k i => (c * l ^ k * x i).re) (fun k i => (c * l ^ k * y i).re) := by
  have mulRe : ∀ (M : Matrix n n ℝ) (z : n → ℂ), (fun i => ((M.map Complex.ofReal *ᵥ z) i).re) =
      M *ᵥ fun i => (z i).re := by
    intro M z
    funext i
    simp [Matrix.mulVec, dotProduct]
  refine ⟨fun k => ?_, fun k => ?_⟩
  · have e := congrArg (fun z : n → ℂ => fun i => (((c * l ^ k) • z) i).re) h1
    have e1 : (fun i => (((c * l ^ k) • (l - 1) • (J.map Complex.ofReal *ᵥ y)) i).re) =
        J *ᵥ ((fun i => (c * l ^ (k + 1) * y i).re) - fun i => (c * l ^ k * y i).re) := by
      rw [smul_smul, ← Matrix.mulVec_smul, mulRe]
      congr 1
      funext i
      simp only [Pi.smul_apply, smul_eq_mul, Pi.sub_apply, ← Complex.sub_re]
      congr 1
      ring
    have e2 : (fun i => (((c * l ^ k) • (T : ℂ) • (-(S.map Complex.ofReal *ᵥ x) - D.map Complex.ofReal *ᵥ y)) i).re) =
        T • (-(S *ᵥ fun i => (c * l ^ k * x i).re) - D *ᵥ fun i => (c * l ^ k * y i).re) := by
      rw [smul_comm, smul_sub, smul_neg, ← Matrix.mulVec_smul, ← Matrix.mulVec_smul]
      have a1 := mulRe S ((c * l ^ k) • x)
      have a2 := mulRe D ((c * l ^ k) • y)
      funext i
      have b1 := congrFun a1 i
      have b2 := congrFun a2 i
      simp only [Pi.smul_apply, smul_eq_mul, Pi.sub_apply, Pi.neg_apply, Complex.re_ofReal_mul, Complex.sub_re,
        Complex.neg_re] at b1 b2 ⊢
      rw [b1, b2]
    rw [e1, e2] at e
    exact e
  · funext i
    have e := congrArg (fun z : ℂ => (c * l ^ k * z).re) (congrFun h2 i)
    simp only [Pi.smul_apply, smul_eq_mul] at e
    simp only [Pi.add_apply, Pi.smul_apply, smul_eq_mul]
    have e1 : c * l ^ k * ((l - 1) * x i) = c * l ^ (k + 1) * x i - c * l ^ k * x i := by ring
    have e2 : c * l ^ k * ((T : ℂ) / 2 * (1 + l) * y i) =
        ((T / 2 : ℝ) : ℂ) * (c * l ^ k * y i + c * l ^ (k + 1) * y i) := by push_cast; ring
    rw [e1, e2, Complex.re_ofReal_mul, Complex.sub_re, Complex.add_re] at e
    linarith

/-- A complex mode outside of the unit circle gives a real error that grows. -/
theorem grows_of_mode {n : Type} [Fintype n] {J S D : Matrix n n ℝ} {T : ℝ} (l : ℂ) (hl : 1 < ‖l‖) (x y : n → ℂ)
    (hne : x ≠ 0 ∨ y ≠ 0) (h1 : (l - 1) • (J.map Complex.ofReal *ᵥ y) =
      (T : ℂ) • (-(S.map Complex.ofReal *ᵥ x) - D.map Complex.ofReal *ᵥ y))
    (h2 : (l - 1) • x = ((T : ℂ) / 2 * (1 + l)) • y) : Spec.Grows J S D T := by
  have run := held_mode l x y h1 h2
  -- one of the multiples by `1` and `-i` grows
  obtain ⟨z, hz, hrun⟩ : ∃ z : ℂ, z ≠ 0 ∧ ((∃ i, z = x i) ∨ ∃ i, z = y i) := by
    rcases hne with h | h
    · obtain ⟨i, hi⟩ := Function.ne_iff.1 h
      exact ⟨x i, hi, .inl ⟨i, rfl⟩⟩
    · obtain ⟨i, hi⟩ := Function.ne_iff.1 h
      exact ⟨y i, hi, .inr ⟨i, rfl⟩⟩
  obtain ⟨μ, hμ, hμl⟩ := exists_between hl
  have hμ0 : 0 < μ := by linarith
  have big : ∃ c : ℂ, ∀ B : ℝ, ∃ k, B * μ ^ k < |(c * l ^ k * z).re| := by
    by_contra hn
    push Not at hn
    obtain ⟨B1, hB1⟩ := hn 1
    obtain ⟨B2, hB2⟩ := hn (-Complex.I)
    have hz' : 0 < ‖z‖ := norm_pos_iff.2 hz
    obtain ⟨k, hk⟩ := pow_unbounded_of_one_lt ((B1 + B2) / ‖z‖) ((one_lt_div hμ0).2 hμl)
    have hμk : 0 < μ ^ k := pow_pos hμ0 k
    have h1 := hB1 k
    have h2 := hB2 k
    have e : (-Complex.I * l ^ k * z).re = (l ^ k * z).im := by
      rw [mul_assoc]; simp [Complex.mul_re]
    rw [one_mul] at h1
    rw [e] at h2
    have h3 := Complex.norm_le_abs_re_add_abs_im (l ^ k * z)
    rw [norm_mul, norm_pow] at h3
    rw [div_lt_iff₀ hz', div_pow, div_mul_eq_mul_div, lt_div_iff₀ hμk] at hk
    linarith
  obtain ⟨c, hc⟩ := big
  refine ⟨μ, hμ, ?_⟩
  intro ε hε
  obtain ⟨M, hM, hM1, hM2⟩ : ∃ M : ℝ, 0 < M ∧ (∀ i, |(c * l ^ 0 * x i).re| ≤ M) ∧ ∀ i, |(c * l ^ 0 * y i).re| ≤ M := by
    refine ⟨1 + ∑ i, |(c * l ^ 0 * x i).re| + ∑ i, |(c * l ^ 0 * y i).re|, by positivity, fun i => ?_, fun i => ?_⟩
    · have := Finset.single_le_sum (f := fun i => |(c * l ^ 0 * x i).re|) (fun i _ => abs_nonneg _) (Finset.mem_univ i)
      have h2 : 0 ≤ ∑ i, |(c * l ^ 0 * y i).re| := Finset.sum_nonneg fun i _ => abs_nonneg _
      linarith
    · have := Finset.single_le_sum (f := fun i => |(c * l ^ 0 * y i).re|) (fun i _ => abs_nonneg _) (Finset.mem_univ i)
      have h2 : 0 ≤ ∑ i, |(c * l ^ 0 * x i).re| := Finset.sum_nonneg fun i _ => abs_nonneg _
      linarith
  have hs : 0 < ε / M := by positivity
  refine ⟨_, _, (run c).smul (ε / M), fun i => ⟨?_, ?_⟩, fun B => ?_⟩
  · simp only [Pi.smul_apply, smul_eq_mul, abs_mul, abs_of_pos hs]
    calc ε / M * |(c * l ^ 0 * x i).re| ≤ ε / M * M := by gcongr; exact hM1 i
      _ = ε := by field_simp
  · simp only [Pi.smul_apply, smul_eq_mul, abs_mul, abs_of_pos hs]
    calc ε / M * |(c * l ^ 0 * y i).re| ≤ ε / M * M := by gcongr; exact hM2 i
      _ = ε := by field_simp
  · obtain ⟨k, hk⟩ := hc (B / (ε / M))
    rw [div_mul_eq_mul_div, div_lt_iff₀ hs] at hk
    rcases hrun with ⟨i, rfl⟩ | ⟨i, rfl⟩
    · refine ⟨k, i, .inl ?_⟩
      simp only [Pi.smul_apply, smul_eq_mul, abs_mul, abs_of_pos hs]
      linarith
    · refine ⟨k, i, .inr ?_⟩
      simp only [Pi.smul_apply, smul_eq_mul, abs_mul, abs_of_pos hs]
      linarith

theorem trace_blocks {n : Type} [Fintype n] (A B C D : Matrix n n ℂ) :
    (Matrix.fromBlocks A B C D).trace = A.trace + D.trace := by
  simp [Matrix.trace, Fintype.sum_sum_type]

/-- Whatever the inertia: if the trace of `S⁻¹ D` is below half of the sampling time for every axis, some error
grows. -/
theorem grows_of_trace {n : Type} [Fintype n] [DecidableEq n] {J S D : Matrix n n ℝ} {T : ℝ} (hT : 0 < T)
    (hJ : J.det ≠ 0) (hS : S.det ≠ 0) (h : (S⁻¹ * D).trace < Fintype.card n * T / 2) : Spec.Grows J S D T := by
  set f : ℝ →+* ℂ := Complex.ofRealHom with hf
  have hfe : ∀ M : Matrix n n ℝ, M.map Complex.ofReal = M.map f := fun M => rfl
  have hSu : IsUnit S.det := isUnit_iff_ne_zero.2 hS
  set N : Matrix (n ⊕ n) (n ⊕ n) ℂ := Matrix.fromBlocks ((T : ℂ)⁻¹ • (S⁻¹ * D).map f)
    ((S⁻¹ * (T⁻¹ • J - (1/2 : ℝ) • D)).map f) (-((T : ℂ)⁻¹ • 1)) ((1/2 : ℂ) • 1) with hN
  have htr : N.trace.re < 1/2 * Fintype.card (n ⊕ n) := by
    have e : N.trace = ((T⁻¹ * (S⁻¹ * D).trace + Fintype.card n / 2 : ℝ) : ℂ) := by
      rw [hN, trace_blocks, Matrix.trace_smul, Matrix.trace_smul, Matrix.trace_one]
      have : ((S⁻¹ * D).map f).trace = ((S⁻¹ * D).trace : ℂ) := by
        rw [Matrix.trace, Matrix.trace, Complex.ofReal_sum]
        rfl
      rw [this]
      push_cast
      simp only [smul_eq_mul]
      ring
    rw [e, Complex.ofReal_re, Fintype.card_sum]
    push_cast
    have : T⁻¹ * (S⁻¹ * D).trace < T⁻¹ * (Fintype.card n * T / 2) := by gcongr
    have e2 : T⁻¹ * (Fintype.card n * T / 2) = (Fintype.card n : ℝ) / 2 := by field_simp
    rw [e2] at this
    linarith
  obtain ⟨μ, v, hv, hev, hμ⟩ := exists_eig_re_lt N (1/2) htr
  set x : n → ℂ := fun i => v (.inl i) with hx
  set y : n → ℂ := fun i => v (.inr i) with hy
  have hvxy : v = Sum.elim x y := by funext i; rcases i with i | i <;> rfl
  rw [hvxy, hN, Matrix.fromBlocks_mulVec] at hev
  have hTc : (T : ℂ) ≠ 0 := by exact_mod_cast hT.ne'
  have ey : -((T : ℂ)⁻¹ • x) + (1/2 : ℂ) • y = μ • y := by
    funext i
    have := congrFun hev (.inr i)
    simpa [Function.comp_def, Matrix.neg_mulVec, Matrix.smul_mulVec] using this
  have ex : (T : ℂ)⁻¹ • ((S⁻¹ * D).map f *ᵥ x) + (S⁻¹ * (T⁻¹ • J - (1/2 : ℝ) • D)).map f *ᵥ y = μ • x := by
    funext i
    have := congrFun hev (.inl i)
    simpa [Function.comp_def, Matrix.smul_mulVec] using this
  -- multiply by S
  have ex2 : (T : ℂ)⁻¹ • (D.map f *ᵥ x) + ((T : ℂ)⁻¹ • (J.map f *ᵥ y) - (1/2 : ℂ) • (D.map f *ᵥ y)) =
      μ • (S.map f *ᵥ x) := by
    have := congrArg (fun z => S.map f *ᵥ z) ex
    simp only [Matrix.mulVec_add, Matrix.mulVec_smul, Matrix.mulVec_mulVec] at this
    rw [← Matrix.map_mul, ← Matrix.map_mul, ← Matrix.mul_assoc, ← Matrix.mul_assoc, Matrix.mul_nonsing_inv S hSu,
      Matrix.one_mul, Matrix.one_mul] at this
    rw [← this]
    congr 1
    have e : (T⁻¹ • J - (1/2 : ℝ) • D).map f = (T : ℂ)⁻¹ • J.map f - (1/2 : ℂ) • D.map f := by
      ext i j; simp [hf]
    rw [e, Matrix.sub_mulVec, Matrix.smul_mulVec, Matrix.smul_mulVec]
  have ey2 : y + (-2 * μ) • y = (2 * (T : ℂ)⁻¹) • x := by
    have := congrArg (fun z => (2 : ℂ) • z) ey
    rw [← sub_eq_zero] at this ⊢
    rw [← this]
    module
  have hμ0 : μ ≠ 0 := by
    rintro rfl
    have h1 : y = (2 * (T : ℂ)⁻¹) • x := by simpa using ey2
    have h2 : ((T : ℂ)⁻¹ * (2 * (T : ℂ)⁻¹)) • (J.map f *ᵥ x) = 0 := by
      have h3 := ex2
      rw [h1, zero_smul, Matrix.mulVec_smul, Matrix.mulVec_smul] at h3
      rw [← h3]
      module
    have h3 : J.map f *ᵥ x = 0 := by
      refine (smul_eq_zero.1 h2).resolve_left ?_
      have := inv_ne_zero hTc
      exact mul_ne_zero this (mul_ne_zero two_ne_zero this)
    have hdet : (J.map f).det ≠ 0 := by
      have : (J.map f).det = f J.det := (RingHom.map_det f J).symm
      rw [this, hf]
      simpa using hJ
    have hx0 : x = 0 := by
      by_contra hne
      exact hdet (Matrix.exists_mulVec_eq_zero_iff.1 ⟨x, hne, h3⟩)
    apply hv
    rw [hvxy, h1, hx0, smul_zero]
    funext i; rcases i with i | i <;> rfl
  refine grows_of_mode (1 - μ⁻¹) ?_ x y ?_ ?_ ?_
  · have e : 1 - μ⁻¹ = (μ - 1) / μ := by field_simp
    rw [e, norm_div, one_lt_div (norm_pos_iff.2 hμ0)]
    have h1 : ‖μ‖ ^ 2 < ‖μ - 1‖ ^ 2 := by
      rw [← Complex.normSq_eq_norm_sq, ← Complex.normSq_eq_norm_sq, Complex.normSq_apply, Complex.normSq_apply]
      simp
      nlinarith
    exact lt_of_pow_lt_pow_left₀ 2 (norm_nonneg _) h1
  · by_contra hn
    push Not at hn
    apply hv
    rw [hvxy, hn.1, hn.2]
    funext i; rcases i with i | i <;> rfl
  · rw [hfe, hfe, hfe]
    have a1 := congrArg (fun z => D.map f *ᵥ z) ey2
    simp only [Matrix.mulVec_add, Matrix.mulVec_smul] at a1
    have a2 := congrArg (fun z => (-(T : ℂ) * μ⁻¹) • z) ex2
    have a3 := congrArg (fun z => (-(T : ℂ) * μ⁻¹ / 2) • z) a1
    funext i
    have b2 := congrFun a2 i
    have b3 := congrFun a3 i
    simp only [Pi.add_apply, Pi.smul_apply, Pi.sub_apply, Pi.neg_apply, smul_eq_mul] at b2 b3 ⊢
    field_simp at b2 b3 ⊢
    linear_combination (b2 + b3) / 2
  · funext i
    have b := congrFun ey2 i
    simp only [Pi.add_apply, Pi.smul_apply, smul_eq_mul] at b ⊢
    field_simp at b ⊢
    linear_combination b

/-- A mode on or outside of the unit circle gives a real error that does not die out. -/
theorem not_diesOut_of_mode {n : Type} [Fintype n] {J S D : Matrix n n ℝ} {T : ℝ} (l : ℂ) (hl : 1 ≤ ‖l‖)
    (x y : n → ℂ) (hne : x ≠ 0 ∨ y ≠ 0) (h1 : (l - 1) • (J.map Complex.ofReal *ᵥ y) =
      (T : ℂ) • (-(S.map Complex.ofReal *ᵥ x) - D.map Complex.ofReal *ᵥ y))
    (h2 : (l - 1) • x = ((T : ℂ) / 2 * (1 + l)) • y) : ¬ Spec.DiesOut J S D T := by
  intro hd
  have run := held_mode l x y h1 h2
  have key : ∀ z : ℂ, (∀ c : ℂ, Tendsto (fun k => (c * l ^ k * z).re) atTop (𝓝 0)) → z = 0 := by
    intro z hz
    have e : ∀ k, (-Complex.I * l ^ k * z).re = (l ^ k * z).im := by
      intro k; rw [mul_assoc]; simp [Complex.mul_re]
    have a1 := (hz 1).abs
    have a2 := (hz (-Complex.I)).abs
    simp only [e, one_mul, abs_zero] at a1 a2
    have a3 := a1.add a2
    rw [add_zero] at a3
    have a4 : ∀ k, ‖z‖ ≤ |(l ^ k * z).re| + |(l ^ k * z).im| := by
      intro k
      refine le_trans ?_ (Complex.norm_le_abs_re_add_abs_im _)
      rw [norm_mul, norm_pow]
      exact le_mul_of_one_le_left (norm_nonneg z) (one_le_pow₀ hl)
    have := ge_of_tendsto' a3 a4
    exact norm_le_zero_iff.1 this
  rcases hne with h | h
  · apply h
    funext i
    exact key _ fun c => by
      have := (tendsto_pi_nhds.1 (hd _ _ (run c)).1) i
      simpa using this
  · apply h
    funext i
    exact key _ fun c => by
      have := (tendsto_pi_nhds.1 (hd _ _ (run c)).2) i
      simpa using this

/-- The powers of an element of a Banach algebra with its spectrum inside of the unit circle tend to zero. -/
theorem pow_tendsto_zero {A : Type} [NormedRing A] [NormedAlgebra ℂ A] [CompleteSpace A] [Nontrivial A] (a : A)
    (h : ∀ z ∈ spectrum ℂ a, ‖z‖ < 1) : Tendsto (fun k => a ^ k) atTop (𝓝 0) := by
  have hr : spectralRadius ℂ a < 1 := by
    have := spectrum.spectralRadius_lt_of_forall_lt a (r := 1) fun z hz => by
      rw [← NNReal.coe_lt_coe]; simpa using h z hz
    simpa using this
  obtain ⟨r, hr1, hr2⟩ := ENNReal.lt_iff_exists_nnreal_btwn.1 hr
  have hr2' : (r : ℝ) < 1 := by exact_mod_cast hr2
  have ht := spectrum.pow_nnnorm_pow_one_div_tendsto_nhds_spectralRadius a
  have hev := (ht.eventually (gt_mem_nhds hr1)).and (eventually_gt_atTop 0)
  refine squeeze_zero_norm' (a := fun k => (r : ℝ) ^ k) ?_ (tendsto_pow_atTop_nhds_zero_of_lt_one r.2 hr2')
  filter_upwards [hev] with k hk
  obtain ⟨h1, h2⟩ := hk
  have hk0 : (0 : ℝ) < k := by exact_mod_cast h2
  have h3 : ((‖a ^ k‖₊ : ENNReal) ^ (1 / k : ℝ)) ^ (k : ℝ) ≤ (r : ENNReal) ^ (k : ℝ) :=
    ENNReal.rpow_le_rpow h1.le hk0.le
  rw [← ENNReal.rpow_mul, one_div_mul_cancel hk0.ne', ENNReal.rpow_one, ENNReal.rpow_natCast] at h3
  exact_mod_cast h3

attribute [local instance] Matrix.linftyOpNormedRing Matrix.linftyOpNormedAlgebra

/-- If all modes of the loop are inside of the unit circle, all errors die out. -/
theorem diesOut_of_modes {n : Type} [Fintype n] [DecidableEq n] {J S D : Matrix n n ℝ} {T : ℝ} (hJ : J.det ≠ 0)
    (h : ∀ (l : ℂ) (x y : n → ℂ), (x ≠ 0 ∨ y ≠ 0) → (l - 1) • (J.map Complex.ofReal *ᵥ y) =
        (T : ℂ) • (-(S.map Complex.ofReal *ᵥ x) - D.map Complex.ofReal *ᵥ y) →
      (l - 1) • x = ((T : ℂ) / 2 * (1 + l)) • y → ‖l‖ < 1) : Spec.DiesOut J S D T := by
  rcases isEmpty_or_nonempty n with hn | hn
  · intro δ ω _
    exact ⟨by rw [tendsto_pi_nhds]; exact fun i => hn.elim i, by rw [tendsto_pi_nhds]; exact fun i => hn.elim i⟩
  set f : ℝ →+* ℂ := Complex.ofRealHom with hf
  have hfe : ∀ M : Matrix n n ℝ, M.map Complex.ofReal = M.map f := fun M => rfl
  simp only [hfe] at h
  have hJu : IsUnit J.det := isUnit_iff_ne_zero.2 hJ
  have hJJ : J.map f * J⁻¹.map f = 1 := by
    rw [← Matrix.map_mul, Matrix.mul_nonsing_inv J hJu, Matrix.map_one f (map_zero f) (map_one f)]
  have hJJ' : J⁻¹.map f * J.map f = 1 := mul_eq_one_comm.1 hJJ
  -- the loop over the complex numbers
  set a : Matrix n n ℂ := (T : ℂ) • (J⁻¹.map f * S.map f) with ha
  set b : Matrix n n ℂ := (T : ℂ) • (J⁻¹.map f * D.map f) with hb
  set F : Matrix (n ⊕ n) (n ⊕ n) ℂ := Matrix.fromBlocks (1 - ((T : ℂ) / 2) • a) ((T : ℂ) • 1 - ((T : ℂ) / 2) • b)
    (-a) (1 - b) with hF
  have step : ∀ x y : n → ℂ, F *ᵥ Sum.elim x y = Sum.elim
      (x + ((T : ℂ) / 2) • (y + (y - (a *ᵥ x + b *ᵥ y)))) (y - (a *ᵥ x + b *ᵥ y)) := by
    intro x y
    rw [hF, Matrix.fromBlocks_mulVec]
    funext i
    rcases i with i | i
    · simp [Function.comp_def, Matrix.sub_mulVec, Matrix.smul_mulVec]; ring
    · simp [Function.comp_def, Matrix.sub_mulVec, Matrix.neg_mulVec]; ring
  have hspec : ∀ z ∈ spectrum ℂ F, ‖z‖ < 1 := by
    intro l hl
    rw [Matrix.mem_spectrum_iff_isRoot_charpoly, Polynomial.IsRoot, Matrix.eval_charpoly] at hl
    obtain ⟨v, hv, hv2⟩ := Matrix.exists_mulVec_eq_zero_iff.2 hl
    have hv3 : F *ᵥ v = l • v := by
      rw [Matrix.sub_mulVec, sub_eq_zero, Matrix.scalar_apply] at hv2
      rw [← hv2]
      funext i
      simp [Matrix.mulVec_diagonal]
    set x : n → ℂ := fun i => v (.inl i) with hx
    set y : n → ℂ := fun i => v (.inr i) with hy
    have hvxy : v = Sum.elim x y := by funext i; rcases i with i | i <;> rfl
    rw [hvxy, step] at hv3
    have e2 : y - (a *ᵥ x + b *ᵥ y) = l • y := by
      funext i; simpa using congrFun hv3 (.inr i)
    have e1 : x + ((T : ℂ) / 2) • (y + l • y) = l • x := by
      rw [← e2]
      funext i; simpa using congrFun hv3 (.inl i)
    refine h l x y ?_ ?_ ?_
    · by_contra hne
      push Not at hne
      apply hv
      rw [hvxy, hne.1, hne.2]
      funext i; rcases i with i | i <;> rfl
    · have e3 : (l - 1) • y = -(a *ᵥ x + b *ᵥ y) := by rw [sub_smul, one_smul, ← e2]; abel
      have := congrArg (fun z => J.map f *ᵥ z) e3
      simp only [Matrix.mulVec_smul, Matrix.mulVec_neg, Matrix.mulVec_add, ha, hb, Matrix.smul_mulVec,
        Matrix.mulVec_mulVec, ← Matrix.mul_assoc, hJJ, Matrix.one_mul] at this
      rw [this]
      module
    · rw [sub_smul, one_smul, ← e1]; module
  have hpow := pow_tendsto_zero F hspec
  intro δ ω hh
  set X : ℕ → n ⊕ n → ℂ := fun k => Sum.elim (fun i => (δ k i : ℂ)) fun i => (ω k i : ℂ) with hX
  have cast : ∀ (M : Matrix n n ℝ) (z : n → ℝ), (fun i => ((M *ᵥ z) i : ℂ)) = M.map f *ᵥ fun i => (z i : ℂ) := by
    intro M z
    funext i
    simp [Matrix.mulVec, dotProduct, hf]
  have hXs : ∀ k, X (k + 1) = F *ᵥ X k := by
    intro k
    have hr : (fun i => (ω (k + 1) i : ℂ)) = (fun i => (ω k i : ℂ)) -
        (a *ᵥ (fun i => (δ k i : ℂ)) + b *ᵥ fun i => (ω k i : ℂ)) := by
      have e := congrArg (fun z : n → ℝ => fun i => (z i : ℂ)) (hh.rate k)
      have e1 : (fun i => ((J *ᵥ (ω (k + 1) - ω k)) i : ℂ)) =
          J.map f *ᵥ ((fun i => (ω (k + 1) i : ℂ)) - fun i => (ω k i : ℂ)) := by
        rw [cast]; congr 1; funext i; simp
      have e2 : (fun i => ((T • (-(S *ᵥ δ k) - D *ᵥ ω k)) i : ℂ)) =
          (T : ℂ) • (-(S.map f *ᵥ fun i => (δ k i : ℂ)) - D.map f *ᵥ fun i => (ω k i : ℂ)) := by
        rw [← cast, ← cast]; funext i; simp
      rw [e1, e2] at e
      have e3 := congrArg (fun z => J⁻¹.map f *ᵥ z) e
      simp only [Matrix.mulVec_mulVec, hJJ', Matrix.one_mulVec] at e3
      rw [sub_eq_iff_eq_add] at e3
      rw [e3, ha, hb]
      simp only [Matrix.mulVec_smul, Matrix.mulVec_sub, Matrix.mulVec_neg, Matrix.smul_mulVec, Matrix.mulVec_mulVec]
      module
    rw [hX]
    dsimp only
    rw [step, ← hr]
    funext i
    rcases i with i | i
    · have := congrFun (hh.angle k) i
      simp only [Pi.add_apply, Pi.smul_apply, smul_eq_mul] at this
      simp [this]
      ring
    · rfl
  have hXp : ∀ k, X k = (F ^ k) *ᵥ X 0 := by
    intro k
    induction k with
    | zero => simp
    | succ k ih => rw [hXs, ih, Matrix.mulVec_mulVec, pow_succ']
  have hXt : Tendsto X atTop (𝓝 0) := by
    have hc : Continuous fun M : Matrix (n ⊕ n) (n ⊕ n) ℂ => M *ᵥ X 0 := by fun_prop
    have := (hc.tendsto 0).comp hpow
    rw [Matrix.zero_mulVec] at this
    refine this.congr fun k => ?_
    rw [Function.comp_apply, ← hXp]
  rw [tendsto_pi_nhds] at hXt
  constructor
  · rw [tendsto_pi_nhds]
    intro i
    have := (Complex.continuous_re.tendsto 0).comp (hXt (.inl i))
    simpa [hX, Function.comp_def] using this
  · rw [tendsto_pi_nhds]
    intro i
    have := (Complex.continuous_re.tendsto 0).comp (hXt (.inr i))
    simpa [hX, Function.comp_def] using this

/-- A loop that leaves some axes alone grows if it grows on these axes. -/
theorem grows_sub {m n : Type} [Fintype m] [Fintype n] {J S D : Matrix n n ℝ} {T : ℝ} (ι : m → n)
    (hι : Function.Injective ι) (hJ : ∀ i ∉ Set.range ι, ∀ j, J i (ι j) = 0)
    (hS : ∀ i ∉ Set.range ι, ∀ j, S i (ι j) = 0) (hD : ∀ i ∉ Set.range ι, ∀ j, D i (ι j) = 0)
    (h : Spec.Grows (J.submatrix ι ι) (S.submatrix ι ι) (D.submatrix ι ι) T) : Spec.Grows J S D T := by
  have ext0 : ∀ (z : m → ℝ) i, i ∉ Set.range ι → Function.extend ι z 0 i = 0 := by
    intro z i hi
    rw [Function.extend_apply' _ _ _ (by simpa using hi)]; rfl
  have key : ∀ (M : Matrix n n ℝ), (∀ i ∉ Set.range ι, ∀ j, M i (ι j) = 0) → ∀ z : m → ℝ,
      M *ᵥ Function.extend ι z 0 = Function.extend ι (M.submatrix ι ι *ᵥ z) 0 := by
    intro M hM z
    have hs : ∀ i, (M *ᵥ Function.extend ι z 0) i = ∑ j, M i (ι j) * z j := by
      intro i
      rw [Matrix.mulVec, dotProduct]
      symm
      refine Fintype.sum_of_injective ι hι _ _ (fun j hj => ?_) (fun j => ?_)
      · rw [ext0 z j hj, mul_zero]
      · rw [hι.extend_apply]
    funext i
    rw [hs]
    by_cases hi : i ∈ Set.range ι
    · obtain ⟨k, rfl⟩ := hi
      rw [hι.extend_apply]
      rfl
    · rw [ext0 _ i hi]
      exact Finset.sum_eq_zero fun j _ => by rw [hM i hi j, zero_mul]
  have lin : ∀ (a b : ℝ) (y z : m → ℝ), a • Function.extend ι y 0 + b • Function.extend ι z 0 =
      Function.extend ι (a • y + b • z) 0 := by
    intro a b y z
    funext i
    by_cases hi : i ∈ Set.range ι
    · obtain ⟨k, rfl⟩ := hi
      simp [hι.extend_apply]
    · simp [ext0 _ i hi]
  have one : ∀ z : m → ℝ, Function.extend ι z 0 = (1 : ℝ) • Function.extend ι z 0 := fun z => (one_smul _ _).symm
  obtain ⟨μ, hμ, h⟩ := h
  refine ⟨μ, hμ, ?_⟩
  intro ε hε
  obtain ⟨δ, ω, hh, h0, hb⟩ := h ε hε
  refine ⟨fun k => Function.extend ι (δ k) 0, fun k => Function.extend ι (ω k) 0, ⟨fun k => ?_, fun k => ?_⟩,
    fun i => ?_, fun B => ?_⟩
  · have e1 : Function.extend ι (ω (k + 1)) 0 - Function.extend ι (ω k) 0 = Function.extend ι (ω (k + 1) - ω k) 0 := by
      have := lin 1 (-1) (ω (k + 1)) (ω k)
      simpa [sub_eq_add_neg] using this
    rw [e1, key J hJ, key S hS, key D hD, hh.rate k]
    have := lin (-T) (-T) (S.submatrix ι ι *ᵥ δ k) (D.submatrix ι ι *ᵥ ω k)
    rw [show T • (-Function.extend ι (S.submatrix ι ι *ᵥ δ k) 0 - Function.extend ι (D.submatrix ι ι *ᵥ ω k) 0) =
      (-T) • Function.extend ι (S.submatrix ι ι *ᵥ δ k) 0 + (-T) • Function.extend ι (D.submatrix ι ι *ᵥ ω k) 0 by module,
      this]
    congr 1
    module
  · rw [hh.angle k]
    have e1 := lin 1 1 (ω k) (ω (k + 1))
    simp only [one_smul] at e1
    have e2 := lin 1 (T / 2) (δ k) (ω k + ω (k + 1))
    simp only [one_smul] at e2
    rw [e1, e2]
  · by_cases hi : i ∈ Set.range ι
    · obtain ⟨k, rfl⟩ := hi
      simpa [hι.extend_apply] using h0 k
    · simp [ext0 _ i hi, hε.le]
  · obtain ⟨k, i, hk⟩ := hb B
    exact ⟨k, ι i, by simpa [hι.extend_apply] using hk⟩

/-! ### Loops that are the same about all axes, up to a turn of the error -/

/-- What decides over the roots of a quadratic over the complex numbers (Schur and Cohn). -/
theorem schur_cohn (a b : ℂ) : (1 - Complex.normSq (a * b)) ^ 2 -
    Complex.normSq (a + b - a * b * (starRingEnd ℂ) (a + b)) =
      (1 - Complex.normSq a) * (1 - Complex.normSq b) * Complex.normSq (1 - a * (starRingEnd ℂ) b) := by
  simp only [Complex.normSq_apply, Complex.mul_re, Complex.mul_im, Complex.add_re, Complex.add_im, Complex.sub_re,
    Complex.sub_im, Complex.conj_re, Complex.conj_im, Complex.one_re, Complex.one_im]
  ring

/-- The quantity of `schur_cohn` for a loop of damping `u` and stiffness `v`, with the error turned by an angle of
cosine `C` and sine `r`. -/
theorem schur_loop {u v C r : ℝ} (hr : r ^ 2 = 1 - C ^ 2) {a b : ℂ}
    (hs : a + b = 2 - u - v / 2 * (C + r * Complex.I)) (hp : a * b = 1 - u + v / 2 * (C + r * Complex.I)) :
    (1 - Complex.normSq a) * (1 - Complex.normSq b) * Complex.normSq (1 - a * (starRingEnd ℂ) b) =
      2 * v * (2 - u) * (C * (u - v * C / 2) ^ 2 - v * r ^ 2 * (1 - v * C / 4)) ∧
    Complex.normSq a * Complex.normSq b = (1 - u + v * C / 2) ^ 2 + v ^ 2 * r ^ 2 / 4 := by
  have e1 : ∀ x y : ℝ, Complex.normSq (x + y * Complex.I) = x ^ 2 + y ^ 2 := fun x y => by
    simp [Complex.normSq_apply]; ring
  constructor
  · rw [← schur_cohn, hs, hp]
    have h1 : (1 : ℂ) - u + v / 2 * (C + r * Complex.I) = ((1 - u + v * C / 2 : ℝ) : ℂ) + ((v * r / 2 : ℝ) : ℂ) * Complex.I := by
      push_cast; ring
    have h2 : (2 : ℂ) - u - v / 2 * (C + r * Complex.I) = ((2 - u - v * C / 2 : ℝ) : ℂ) + ((-(v * r / 2) : ℝ) : ℂ) * Complex.I := by
      push_cast; ring
    have h3 : (2 : ℂ) - u - v / 2 * (C + r * Complex.I) -
        (1 - u + v / 2 * (C + r * Complex.I)) * (starRingEnd ℂ) (2 - u - v / 2 * (C + r * Complex.I)) =
        ((2 - u - v * C / 2 - ((1 - u + v * C / 2) * (2 - u - v * C / 2) - v ^ 2 * r ^ 2 / 4) : ℝ) : ℂ) +
          ((-(v * r / 2) * (1 + (1 - u + v * C / 2) + (2 - u - v * C / 2)) : ℝ) : ℂ) * Complex.I := by
      simp only [map_sub, map_mul, map_add, map_div₀, Complex.conj_ofReal, Complex.conj_I, map_ofNat]
      have hI := Complex.I_sq
      push_cast
      linear_combination (-(v ^ 2 * r ^ 2 / 4) : ℂ) * hI
    rw [h3, h1, e1, e1]
    linear_combination (-(v ^ 2 / 2) * (1 - (1 - u + v * C / 2) ^ 2) - v ^ 2 / 2 * (2 - u - v * C / 2) * (u - v * C / 2) -
      v ^ 2 / 4 * (4 - 2 * u) ^ 2 + 2 * v ^ 2 * (2 - u) * (1 - v * C / 4)) * hr
  · rw [← Complex.normSq_mul, hp]
    have h1 : (1 : ℂ) - u + v / 2 * (C + r * Complex.I) = ((1 - u + v * C / 2 : ℝ) : ℂ) + ((v * r / 2 : ℝ) : ℂ) * Complex.I := by
      push_cast; ring
    rw [h1, e1]
    ring

theorem quad_roots (p q : ℂ) : ∃ a b : ℂ, a + b = p ∧ a * b = q := by
  obtain ⟨d, hd⟩ := IsAlgClosed.exists_eq_mul_self (p ^ 2 - 4 * q)
  exact ⟨(p + d) / 2, (p - d) / 2, by ring, by linear_combination hd / 4⟩

theorem normSq_lt_one_iff (z : ℂ) : Complex.normSq z < 1 ↔ ‖z‖ < 1 := by
  rw [Complex.normSq_eq_norm_sq, sq_lt_one_iff₀ (norm_nonneg z)]

/-- Modes inside of the unit circle. -/
theorem mode_inside {u v C r : ℝ} (hr : r ^ 2 = 1 - C ^ 2) (hv : 0 < v) (hu : u < 2) (hC : v * C < 2 * u)
    (hE : v * r ^ 2 * (1 - v * C / 4) < C * (u - v * C / 2) ^ 2) {l : ℂ}
    (hl : l ^ 2 - (2 - u - v / 2 * (C + r * Complex.I)) * l + (1 - u + v / 2 * (C + r * Complex.I)) = 0) : ‖l‖ < 1 := by
  obtain ⟨b, hb⟩ : ∃ b : ℂ, b = 2 - u - v / 2 * (C + r * Complex.I) - l := ⟨_, rfl⟩
  have hs : l + b = 2 - u - v / 2 * (C + r * Complex.I) := by rw [hb]; ring
  have hp : l * b = 1 - u + v / 2 * (C + r * Complex.I) := by rw [hb]; linear_combination -hl
  obtain ⟨h1, h2⟩ := schur_loop hr hs hp
  have hg : 0 < 1 - v * C / 4 := by linarith
  have hh : 0 < u - v * C / 2 := by linarith
  have hlt : Complex.normSq l * Complex.normSq b < 1 := by
    rw [h2]
    have a1 : v / 4 * (v * r ^ 2 * (1 - v * C / 4)) < v / 4 * (C * (u - v * C / 2) ^ 2) := by gcongr
    have a2 : (1 - v * C / 4) * (v ^ 2 * r ^ 2 / 4) <
        (1 - v * C / 4) * (2 * (u - v * C / 2) - (u - v * C / 2) ^ 2) := by
      have : 0 ≤ (u - v * C / 2) * (2 - u) := mul_nonneg hh.le (by linarith)
      nlinarith
    have a3 := lt_of_mul_lt_mul_left a2 hg.le
    nlinarith
  have hpos : 0 < (1 - Complex.normSq l) * (1 - Complex.normSq b) * Complex.normSq (1 - l * (starRingEnd ℂ) b) := by
    rw [h1]
    exact mul_pos (mul_pos (by linarith) (by linarith)) (by linarith)
  have hn := Complex.normSq_nonneg (1 - l * (starRingEnd ℂ) b)
  have hq : 0 < (1 - Complex.normSq l) * (1 - Complex.normSq b) := by
    by_contra hc
    push Not at hc
    have := mul_nonpos_of_nonpos_of_nonneg hc hn
    linarith
  rw [← normSq_lt_one_iff]
  by_contra hc
  push Not at hc
  have hbn := Complex.normSq_nonneg b
  have : Complex.normSq b < 1 := by nlinarith
  nlinarith

/-- Modes on or outside of the unit circle. -/
theorem mode_outside {u v C r : ℝ} (hr : r ^ 2 = 1 - C ^ 2) (hv : 0 < v) (hu : u < 2)
    (hE : C * (u - v * C / 2) ^ 2 ≤ v * r ^ 2 * (1 - v * C / 4)) :
    ∃ l : ℂ, l ^ 2 - (2 - u - v / 2 * (C + r * Complex.I)) * l + (1 - u + v / 2 * (C + r * Complex.I)) = 0 ∧
      1 ≤ ‖l‖ ∧ (C * (u - v * C / 2) ^ 2 < v * r ^ 2 * (1 - v * C / 4) → 1 < ‖l‖) := by
  obtain ⟨a, b, hs, hp⟩ := quad_roots (2 - u - v / 2 * (C + r * Complex.I)) (1 - u + v / 2 * (C + r * Complex.I))
  obtain ⟨h1, -⟩ := schur_loop hr hs hp
  have root : ∀ z w : ℂ, z + w = 2 - u - v / 2 * (C + r * Complex.I) → z * w = 1 - u + v / 2 * (C + r * Complex.I) →
      z ^ 2 - (2 - u - v / 2 * (C + r * Complex.I)) * z + (1 - u + v / 2 * (C + r * Complex.I)) = 0 := by
    intro z w h1 h2; rw [← h1, ← h2]; ring
  have ra := root a b hs hp
  have rb := root b a (by rw [add_comm, hs]) (by rw [mul_comm, hp])
  have hn := Complex.normSq_nonneg (1 - a * (starRingEnd ℂ) b)
  have hvu : 0 < 2 * v * (2 - u) := mul_pos (by linarith) (by linarith)
  have big : ∀ z : ℂ, ¬ Complex.normSq z < 1 → 1 ≤ ‖z‖ := fun z hz => by
    rw [normSq_lt_one_iff] at hz; exact not_lt.1 hz
  have bigger : ∀ z : ℂ, 1 < Complex.normSq z → 1 < ‖z‖ := fun z hz => by
    rw [Complex.normSq_eq_norm_sq] at hz
    exact (one_lt_sq_iff₀ (norm_nonneg z)).1 hz
  rcases hE.lt_or_eq with hE | hE
  · have hneg : (1 - Complex.normSq a) * (1 - Complex.normSq b) * Complex.normSq (1 - a * (starRingEnd ℂ) b) < 0 := by
      rw [h1]; exact mul_neg_of_pos_of_neg hvu (by linarith)
    have hq : (1 - Complex.normSq a) * (1 - Complex.normSq b) < 0 := by
      by_contra hc
      push Not at hc
      have := mul_nonneg hc hn
      linarith
    by_cases ha : 1 < Complex.normSq a
    · exact ⟨a, ra, (bigger a ha).le, fun _ => bigger a ha⟩
    · have hb : 1 < Complex.normSq b := by
        by_contra hb
        push Not at ha hb
        have := mul_nonneg (sub_nonneg.2 ha) (sub_nonneg.2 hb)
        linarith
      exact ⟨b, rb, (bigger b hb).le, fun _ => bigger b hb⟩
  · have hz : (1 - Complex.normSq a) * (1 - Complex.normSq b) * Complex.normSq (1 - a * (starRingEnd ℂ) b) = 0 := by
      rw [h1, hE]; ring
    have no : ¬ (C * (u - v * C / 2) ^ 2 < v * r ^ 2 * (1 - v * C / 4)) := by rw [hE]; exact lt_irrefl _
    by_cases ha : Complex.normSq a < 1
    · by_cases hb : Complex.normSq b < 1
      · exfalso
        have h3 : Complex.normSq (1 - a * (starRingEnd ℂ) b) ≠ 0 := by
          intro h0
          have h4 : a * (starRingEnd ℂ) b = 1 := by
            have := Complex.normSq_eq_zero.1 h0
            linear_combination -this
          have h5 := congrArg Complex.normSq h4
          rw [Complex.normSq_mul, Complex.normSq_conj, map_one] at h5
          have := Complex.normSq_nonneg a
          nlinarith
        rcases mul_eq_zero.1 hz with h | h
        · rcases mul_eq_zero.1 h with h | h <;> linarith
        · exact h3 h
      · exact ⟨b, rb, big b hb, fun h => absurd h no⟩
    · exact ⟨a, ra, big a ha, fun h => absurd h no⟩

end Adcs
