import Verif.Props.Lqr
import Mathlib.Topology.Algebra.Order.LiminfLimsup

set_option autoImplicit false
set_option linter.unusedSectionVars false

/-! # The Riccati equation of a system that can be brought to rest has exactly one solution -/

namespace Adcs

open scoped Matrix Topology
open Filter Lqr Obs

section general
variable {n p : Type} [Fintype n] [Fintype p] [DecidableEq n] [DecidableEq p]
variable {a : Matrix n n ℝ} {b : Matrix n p ℝ} {q : Matrix n n ℝ} {r : Matrix p p ℝ} {P : Matrix n n ℝ}

/-- The state after the inputs `us`. -/
def Spec.final (a : Matrix n n ℝ) (b : Matrix n p ℝ) : List (p → ℝ) → (n → ℝ) → n → ℝ
  | [], x => x
  | u :: us, x => Spec.final a b us (a *ᵥ x + b *ᵥ u)

/-- One step of the value iteration. -/
noncomputable def ric (a : Matrix n n ℝ) (b : Matrix n p ℝ) (q : Matrix n n ℝ) (r : Matrix p p ℝ) (P : Matrix n n ℝ) :
    Matrix n n ℝ := aᵀ * P * a - aᵀ * P * b * (r + bᵀ * P * b)⁻¹ * (bᵀ * P * a) + q

theorem isDare_iff : IsDare a b q r P ↔ P.PosSemidef ∧ ric a b q r P = P := by
  have e : aᵀ * P * a - P - aᵀ * P * b * (r + bᵀ * P * b)⁻¹ * (bᵀ * P * a) + q = ric a b q r P - P := by
    rw [ric]; abel
  constructor
  · intro h
    refine ⟨h.psd, ?_⟩
    have := h.eq
    rw [e] at this
    exact sub_eq_zero.1 this
  · rintro ⟨h1, h2⟩
    exact ⟨h1, by rw [e, h2, sub_self]⟩

theorem psd_symm {M : Matrix n n ℝ} (h : M.PosSemidef) : Mᵀ = M := by
  have := h.isHermitian
  rwa [Matrix.IsHermitian, Matrix.conjTranspose_eq_transpose_of_trivial] at this

theorem psd_nonneg {M : Matrix n n ℝ} (h : M.PosSemidef) (x : n → ℝ) : 0 ≤ x ⬝ᵥ M *ᵥ x := by
  have := h.dotProduct_mulVec_nonneg x
  rwa [star_trivial] at this

/-- Completing the square for one step. -/
theorem ric_square (hr : r.PosDef) (hP : P.PosSemidef) (x : n → ℝ) :
    ∃ k : p → ℝ, ∀ u, x ⬝ᵥ q *ᵥ x + u ⬝ᵥ r *ᵥ u + (a *ᵥ x + b *ᵥ u) ⬝ᵥ P *ᵥ (a *ᵥ x + b *ᵥ u) =
      x ⬝ᵥ ric a b q r P *ᵥ x + (u + k) ⬝ᵥ (r + bᵀ * P * b) *ᵥ (u + k) := by
  set q' := P - ric a b 0 r P with hq'
  have hd : IsDare a b q' r P := by
    rw [isDare_iff]
    refine ⟨hP, ?_⟩
    rw [hq', ric, ric]; abel
  refine ⟨((r + bᵀ * P * b)⁻¹ * bᵀ * P * a) *ᵥ x, fun u => ?_⟩
  have h := dare_square hr hd (dare_gain hr hd) x u
  have e : q = q' + (ric a b q r P - P) := by rw [hq', ric, ric]; abel
  have e2 : x ⬝ᵥ q *ᵥ x = x ⬝ᵥ q' *ᵥ x + (x ⬝ᵥ ric a b q r P *ᵥ x - x ⬝ᵥ P *ᵥ x) := by
    conv_lhs => rw [e]
    rw [Matrix.add_mulVec, dotProduct_add, Matrix.sub_mulVec (ric a b q r P) P, dotProduct_sub x]
  rw [e2]
  linarith

theorem S_psd (hr : r.PosDef) (hP : P.PosSemidef) : (r + bᵀ * P * b).PosDef := by
  have h := hP.conjTranspose_mul_mul_same b
  rw [Matrix.conjTranspose_eq_transpose_of_trivial] at h
  exact hr.add_posSemidef h

theorem ric_le (hr : r.PosDef) (hP : P.PosSemidef) (x : n → ℝ) (u : p → ℝ) :
    x ⬝ᵥ ric a b q r P *ᵥ x ≤
      x ⬝ᵥ q *ᵥ x + u ⬝ᵥ r *ᵥ u + (a *ᵥ x + b *ᵥ u) ⬝ᵥ P *ᵥ (a *ᵥ x + b *ᵥ u) := by
  obtain ⟨k, hk⟩ := ric_square (a := a) (b := b) (q := q) hr hP x
  have := psd_nonneg (S_psd (b := b) hr hP).posSemidef (u + k)
  rw [hk u]
  linarith

theorem ric_eq (hr : r.PosDef) (hP : P.PosSemidef) (x : n → ℝ) : ∃ u,
    x ⬝ᵥ ric a b q r P *ᵥ x =
      x ⬝ᵥ q *ᵥ x + u ⬝ᵥ r *ᵥ u + (a *ᵥ x + b *ᵥ u) ⬝ᵥ P *ᵥ (a *ᵥ x + b *ᵥ u) := by
  obtain ⟨k, hk⟩ := ric_square (a := a) (b := b) (q := q) hr hP x
  refine ⟨-k, ?_⟩
  rw [hk, neg_add_cancel, zero_dotProduct, add_zero]

theorem ric_symm (hr : r.PosDef) (hq : q.PosSemidef) (hP : P.PosSemidef) : (ric a b q r P)ᵀ = ric a b q r P := by
  have hS := psd_symm (S_psd (b := b) hr hP).posSemidef
  have hSi : ((r + bᵀ * P * b)⁻¹)ᵀ = (r + bᵀ * P * b)⁻¹ := by rw [Matrix.transpose_nonsing_inv, hS]
  rw [ric, Matrix.transpose_add, Matrix.transpose_sub, psd_symm hq]
  set T := (r + bᵀ * P * b)⁻¹ with hT
  simp only [Matrix.transpose_mul, Matrix.transpose_transpose, psd_symm hP, hSi, Matrix.mul_assoc]

theorem ric_psd (hr : r.PosDef) (hq : q.PosSemidef) (hP : P.PosSemidef) : (ric a b q r P).PosSemidef := by
  refine Matrix.PosSemidef.of_dotProduct_mulVec_nonneg ?_ fun x => ?_
  · rw [Matrix.IsHermitian, Matrix.conjTranspose_eq_transpose_of_trivial]
    exact ric_symm hr hq hP
  · rw [star_trivial]
    obtain ⟨u, hu⟩ := ric_eq (a := a) (b := b) (q := q) hr hP x
    rw [hu]
    exact add_nonneg (add_nonneg (psd_nonneg hq x) (psd_nonneg hr.posSemidef u)) (psd_nonneg hP _)

theorem ric_mono {P' : Matrix n n ℝ} (hr : r.PosDef) (hP : P.PosSemidef) (hP' : P'.PosSemidef)
    (h : ∀ x, x ⬝ᵥ P *ᵥ x ≤ x ⬝ᵥ P' *ᵥ x) (x : n → ℝ) :
    x ⬝ᵥ ric a b q r P *ᵥ x ≤ x ⬝ᵥ ric a b q r P' *ᵥ x := by
  obtain ⟨u, hu⟩ := ric_eq (a := a) (b := b) (q := q) hr hP' x
  have := ric_le (a := a) (b := b) (q := q) hr hP x u
  have h2 := h (a *ᵥ x + b *ᵥ u)
  rw [hu]
  linarith

/-- The iterates from zero. -/
noncomputable def ricIter (a : Matrix n n ℝ) (b : Matrix n p ℝ) (q : Matrix n n ℝ) (r : Matrix p p ℝ) : ℕ → Matrix n n ℝ
  | 0 => 0
  | k + 1 => ric a b q r (ricIter a b q r k)

theorem ricIter_psd (hr : r.PosDef) (hq : q.PosSemidef) (k : ℕ) : (ricIter a b q r k).PosSemidef := by
  induction k with
  | zero => exact Matrix.PosSemidef.zero
  | succ k ih => exact ric_psd hr hq ih

theorem ricIter_mono (hr : r.PosDef) (hq : q.PosSemidef) (x : n → ℝ) :
    Monotone fun k => x ⬝ᵥ ricIter a b q r k *ᵥ x := by
  refine monotone_nat_of_le_succ fun k => ?_
  induction k generalizing x with
  | zero =>
    simp only [ricIter, Matrix.zero_mulVec, dotProduct_zero]
    exact psd_nonneg (ric_psd hr hq Matrix.PosSemidef.zero) x
  | succ k ih => exact ric_mono hr (ricIter_psd hr hq k) (ricIter_psd hr hq (k + 1)) ih x

theorem cost_nonneg (hr : r.PosDef) (hq : q.PosSemidef) (us : List (p → ℝ)) (x : n → ℝ) :
    0 ≤ Spec.lqrCost a b q 0 r us x := by
  induction us generalizing x with
  | nil => simp [Spec.lqrCost]
  | cons u us ih =>
    rw [Spec.lqrCost]
    exact add_nonneg (add_nonneg (psd_nonneg hq x) (psd_nonneg hr.posSemidef u)) (ih _)

theorem ricIter_bound (hr : r.PosDef) (hq : q.PosSemidef) (us : List (p → ℝ)) (x : n → ℝ)
    (h : Spec.final a b us x = 0) (k : ℕ) : x ⬝ᵥ ricIter a b q r k *ᵥ x ≤ Spec.lqrCost a b q 0 r us x := by
  induction us generalizing x k with
  | nil =>
    rw [Spec.final] at h
    rw [h]; simp [Spec.lqrCost]
  | cons u us ih =>
    cases k with
    | zero =>
      simp only [ricIter, Matrix.zero_mulVec, dotProduct_zero]
      exact cost_nonneg hr hq _ x
    | succ k =>
      have := ric_le (a := a) (b := b) (q := q) hr (ricIter_psd (a := a) (b := b) (q := q) hr hq k) x u
      have h2 := ih (a *ᵥ x + b *ᵥ u) h k
      rw [Spec.lqrCost, ricIter]
      linarith

theorem polar {M : Matrix n n ℝ} (h : Mᵀ = M) (i j : n) :
    M i j = ((Pi.single i 1 + Pi.single j 1) ⬝ᵥ M *ᵥ (Pi.single i 1 + Pi.single j 1) -
      (Pi.single i 1 - Pi.single j 1) ⬝ᵥ M *ᵥ (Pi.single i 1 - Pi.single j 1)) / 4 := by
  have h' : M j i = M i j := congrFun (congrFun h i) j
  simp only [Matrix.mulVec_add, Matrix.mulVec_sub, add_dotProduct, dotProduct_add, sub_dotProduct, dotProduct_sub,
    Matrix.mulVec_single_one, single_one_dotProduct, Matrix.col_apply]
  rw [h']
  ring

theorem form_tendsto {M : ℕ → Matrix n n ℝ} {P : Matrix n n ℝ} (h : Tendsto M atTop (𝓝 P)) (x : n → ℝ) :
    Tendsto (fun k => x ⬝ᵥ M k *ᵥ x) atTop (𝓝 (x ⬝ᵥ P *ᵥ x)) := by
  have : Continuous fun M : Matrix n n ℝ => x ⬝ᵥ M *ᵥ x :=
    continuous_const.dotProduct (continuous_id.matrix_mulVec continuous_const)
  exact (this.tendsto P).comp h

theorem ric_continuousAt (hr : r.PosDef) (hP : P.PosSemidef) : ContinuousAt (ric a b q r) P := by
  have hd : (r + bᵀ * P * b).det ≠ 0 := (S_psd hr hP).det_pos.ne'
  have hc : ∀ {m l : Type} (A : Matrix m n ℝ) (B : Matrix n l ℝ), Continuous fun P : Matrix n n ℝ => A * P * B := by
    intro m l A B
    exact (continuous_const.matrix_mul continuous_id).matrix_mul continuous_const
  have hi : ContinuousAt (fun P : Matrix n n ℝ => (r + bᵀ * P * b)⁻¹) P := by
    have h1 : ContinuousAt Inv.inv (r + bᵀ * P * b) := by
      refine continuousAt_matrix_inv _ ?_
      simp only [Ring.inverse_eq_inv']
      exact continuousAt_inv₀ hd
    exact ContinuousAt.comp (f := fun P : Matrix n n ℝ => r + bᵀ * P * b) h1
      (continuous_const.add (hc _ _)).continuousAt
  unfold ric
  have h3 : ContinuousAt (fun P : Matrix n n ℝ => aᵀ * P * b * (r + bᵀ * P * b)⁻¹ * (bᵀ * P * a)) P := by
    have m1 : ContinuousAt (fun P : Matrix n n ℝ => (aᵀ * P * b, (r + bᵀ * P * b)⁻¹)) P :=
      (hc _ _).continuousAt.prodMk hi
    have c1 : Continuous fun z : Matrix n p ℝ × Matrix p p ℝ => z.1 * z.2 := continuous_fst.matrix_mul continuous_snd
    have m2 : ContinuousAt (fun P : Matrix n n ℝ => aᵀ * P * b * (r + bᵀ * P * b)⁻¹) P :=
      ContinuousAt.comp (f := fun P : Matrix n n ℝ => (aᵀ * P * b, (r + bᵀ * P * b)⁻¹)) c1.continuousAt m1
    have m3 : ContinuousAt (fun P : Matrix n n ℝ => (aᵀ * P * b * (r + bᵀ * P * b)⁻¹, bᵀ * P * a)) P :=
      m2.prodMk (hc _ _).continuousAt
    have c2 : Continuous fun z : Matrix n p ℝ × Matrix p n ℝ => z.1 * z.2 := continuous_fst.matrix_mul continuous_snd
    exact ContinuousAt.comp (f := fun P : Matrix n n ℝ => (aᵀ * P * b * (r + bᵀ * P * b)⁻¹, bᵀ * P * a)) c2.continuousAt m3
  exact (((hc _ _).continuousAt.sub h3).add continuousAt_const)

/-- A system that can be brought to rest from every state has a solution of its Riccati equation, and it is the
limit of the value iteration. -/
theorem dare_exists (hr : r.PosDef) (hq : q.PosSemidef) (hrest : ∀ x, ∃ us, Spec.final a b us x = 0) :
    ∃ P, IsDare a b q r P ∧ Tendsto (ricIter a b q r) atTop (𝓝 P) := by
  have hlim : ∀ x : n → ℝ, ∃ l, Tendsto (fun k => x ⬝ᵥ ricIter a b q r k *ᵥ x) atTop (𝓝 l) := by
    intro x
    obtain ⟨us, hus⟩ := hrest x
    exact ⟨_, tendsto_atTop_ciSup (ricIter_mono hr hq x)
      ⟨Spec.lqrCost a b q 0 r us x, by rintro _ ⟨k, rfl⟩; exact ricIter_bound hr hq us x hus k⟩⟩
  choose L hL using hlim
  set P : Matrix n n ℝ := Matrix.of fun i j =>
    (L (Pi.single i 1 + Pi.single j 1) - L (Pi.single i 1 - Pi.single j 1)) / 4 with hPd
  have hT : Tendsto (ricIter a b q r) atTop (𝓝 P) := by
    refine tendsto_pi_nhds.2 fun i => tendsto_pi_nhds.2 fun j => ?_
    have := ((hL (Pi.single i 1 + Pi.single j 1)).sub (hL (Pi.single i 1 - Pi.single j 1))).div_const 4
    refine this.congr fun k => ?_
    exact (polar (psd_symm (ricIter_psd hr hq k)) i j).symm
  have hP : P.PosSemidef := by
    refine Matrix.PosSemidef.of_dotProduct_mulVec_nonneg ?_ fun x => ?_
    · rw [Matrix.IsHermitian, Matrix.conjTranspose_eq_transpose_of_trivial]
      have h1 : Tendsto (fun k => (ricIter a b q r k)ᵀ) atTop (𝓝 Pᵀ) := (continuous_id.matrix_transpose.tendsto P).comp hT
      refine tendsto_nhds_unique h1 (hT.congr fun k => (psd_symm (ricIter_psd hr hq k)).symm)
    · rw [star_trivial]
      exact ge_of_tendsto' (form_tendsto hT x) fun k => psd_nonneg (ricIter_psd hr hq k) x
  refine ⟨P, isDare_iff.2 ⟨hP, ?_⟩, hT⟩
  have h1 : Tendsto (fun k => ric a b q r (ricIter a b q r k)) atTop (𝓝 (ric a b q r P)) :=
    (ric_continuousAt hr hP).tendsto.comp hT
  exact tendsto_nhds_unique h1 ((tendsto_add_atTop_iff_nat 1).2 hT)

/-- The end of the stretch under the feedback. -/
theorem cost_split (K : Matrix p n ℝ) (P P' : Matrix n n ℝ) (N : ℕ) (x : n → ℝ) :
    Spec.lqrCost a b q P' r (Spec.feedback a b K N x) x =
      Spec.lqrCost a b q P r (Spec.feedback a b K N x) x -
        (((a - b * K) ^ N) *ᵥ x) ⬝ᵥ P *ᵥ (((a - b * K) ^ N) *ᵥ x) +
        (((a - b * K) ^ N) *ᵥ x) ⬝ᵥ P' *ᵥ (((a - b * K) ^ N) *ᵥ x) := by
  induction N generalizing x with
  | zero => simp [Spec.feedback, Spec.lqrCost]
  | succ N ih =>
    have e : ((a - b * K) ^ (N + 1)) *ᵥ x = ((a - b * K) ^ N) *ᵥ (a *ᵥ x + b *ᵥ (-(K *ᵥ x))) := by
      rw [pow_succ, ← Matrix.mulVec_mulVec, Matrix.sub_mulVec, Matrix.mulVec_neg, ← Matrix.mulVec_mulVec]
      rw [← sub_eq_add_neg (a *ᵥ x)]
    rw [Spec.feedback, Spec.lqrCost, Spec.lqrCost, ih, e]
    ring

/-- With a positive diagonal state cost there is only one solution. -/
theorem dare_unique {w : n → ℝ} (hw : ∀ i, 0 < w i) (hr : r.PosDef) {P P' : Matrix n n ℝ}
    (h : IsDare a b (Matrix.diagonal w) r P) (h' : IsDare a b (Matrix.diagonal w) r P') : P = P' := by
  have key : ∀ {P P' : Matrix n n ℝ}, IsDare a b (Matrix.diagonal w) r P → IsDare a b (Matrix.diagonal w) r P' →
      ∀ x, x ⬝ᵥ P' *ᵥ x ≤ x ⬝ᵥ P *ᵥ x := by
    intro P P' h h' x
    obtain ⟨K, hK, hopt⟩ := C120_optimal hr h
    obtain ⟨K', hK', hopt'⟩ := C120_optimal hr h'
    have ht := lqr_stable hw hr h hK x
    have hf : ∀ M : Matrix n n ℝ, Tendsto (fun N => (((a - b * K) ^ N) *ᵥ x) ⬝ᵥ M *ᵥ (((a - b * K) ^ N) *ᵥ x)) atTop (𝓝 0) := by
      intro M
      have hc : Continuous fun y : n → ℝ => y ⬝ᵥ M *ᵥ y :=
        continuous_id.dotProduct (continuous_const.matrix_mulVec continuous_id)
      have := (hc.tendsto 0).comp ht
      rw [zero_dotProduct] at this
      exact this
    have hlim : Tendsto (fun N => x ⬝ᵥ P *ᵥ x - (((a - b * K) ^ N) *ᵥ x) ⬝ᵥ P *ᵥ (((a - b * K) ^ N) *ᵥ x) +
        (((a - b * K) ^ N) *ᵥ x) ⬝ᵥ P' *ᵥ (((a - b * K) ^ N) *ᵥ x)) atTop (𝓝 (x ⬝ᵥ P *ᵥ x)) := by
      have := ((tendsto_const_nhds (x := x ⬝ᵥ P *ᵥ x)).sub (hf P)).add (hf P')
      simpa using this
    refine ge_of_tendsto' hlim fun N => ?_
    have h1 := (hopt' x).1 (Spec.feedback a b K N x)
    rw [cost_split K P P' N x, (hopt x).2 N] at h1
    exact h1
  ext i j
  rw [polar (psd_symm h.psd) i j, polar (psd_symm h'.psd) i j]
  have e : ∀ x, x ⬝ᵥ P *ᵥ x = x ⬝ᵥ P' *ᵥ x := fun x => le_antisymm (key h' h x) (key h h' x)
  rw [e, e]

end general

end Adcs
