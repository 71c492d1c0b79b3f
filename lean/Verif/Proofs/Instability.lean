import Mathlib.LinearAlgebra.Eigenspace.Minpoly
import Mathlib.LinearAlgebra.Matrix.ToLin
import Mathlib.LinearAlgebra.FreeModule.Finite.Matrix
import Mathlib.Analysis.Matrix.Normed
import Mathlib.Analysis.SpecificLimits.Normed
import Mathlib.Algebra.Order.Ring.Pow

set_option autoImplicit false

/-! # Nonlinear iterations near a fixed point

An iteration `X (k+1) = A X k + (small relative to X k)` follows the matrix `A`: it leaves every neighbourhood if the
powers of `A` grow exponentially, and it converges if they die out. -/

namespace Adcs

open scoped Matrix
open Filter Topology Finset

variable {n : Type} [Fintype n]

/-- The equation of Stein has a solution for some constant in every interval. -/
theorem stein [DecidableEq n] (A : Matrix n n ℝ) {a b : ℝ} (hab : a < b) :
    ∃ c ∈ Set.Ioo a b, ∃ P : Matrix n n ℝ, Aᵀ * P * A - c • P = 1 := by
  let L : Module.End ℝ (Matrix n n ℝ) :=
    { toFun := fun P => Aᵀ * P * A
      map_add' := fun P Q => by rw [Matrix.mul_add, Matrix.add_mul]
      map_smul' := fun c P => by simp }
  have hfin : (spectrum ℝ L).Finite := Module.End.finite_spectrum L
  obtain ⟨c, hc, hcs⟩ := (Set.Ioo_infinite hab).exists_notMem_finite hfin
  rw [spectrum.mem_iff, not_not] at hcs
  have hbij := (Module.End.isUnit_iff _).1 hcs
  obtain ⟨P, hP⟩ := hbij.2 (-1)
  refine ⟨c, hc, P, ?_⟩
  have e : (algebraMap ℝ (Module.End ℝ (Matrix n n ℝ)) c - L) P = c • P - Aᵀ * P * A := rfl
  rw [e] at hP
  rw [← neg_sub, hP, neg_neg]

/-- The sum of the magnitudes of the entries. -/
def magn (P : Matrix n n ℝ) : ℝ := ∑ i, ∑ j, |P i j|

theorem magn_nonneg (P : Matrix n n ℝ) : 0 ≤ magn P :=
  sum_nonneg fun _ _ => sum_nonneg fun _ _ => abs_nonneg _

theorem abs_le_norm (x : n → ℝ) (i : n) : |x i| ≤ ‖x‖ := by
  rw [← Real.norm_eq_abs]; exact norm_le_pi_norm x i

theorem form_le (P : Matrix n n ℝ) (x y : n → ℝ) : |x ⬝ᵥ (P *ᵥ y)| ≤ magn P * ‖x‖ * ‖y‖ := by
  have e : x ⬝ᵥ (P *ᵥ y) = ∑ i, ∑ j, x i * (P i j * y j) := by
    rw [dotProduct]
    exact sum_congr rfl fun i _ => by rw [Matrix.mulVec, dotProduct, mul_sum]
  rw [e, magn, sum_mul, sum_mul]
  refine (abs_sum_le_sum_abs _ _).trans (sum_le_sum fun i _ => ?_)
  rw [sum_mul, sum_mul]
  refine (abs_sum_le_sum_abs _ _).trans (sum_le_sum fun j _ => ?_)
  rw [abs_mul, abs_mul]
  have h1 := abs_le_norm x i
  have h2 := abs_le_norm y j
  calc |x i| * (|P i j| * |y j|) = |P i j| * (|x i| * |y j|) := by ring
    _ ≤ |P i j| * (‖x‖ * ‖y‖) := by gcongr
    _ = |P i j| * ‖x‖ * ‖y‖ := by ring

theorem mulVec_le (A : Matrix n n ℝ) (x : n → ℝ) : ‖A *ᵥ x‖ ≤ magn A * ‖x‖ := by
  rw [pi_norm_le_iff_of_nonneg (mul_nonneg (magn_nonneg A) (norm_nonneg x))]
  intro i
  rw [Real.norm_eq_abs, Matrix.mulVec, dotProduct, magn, sum_mul]
  have h1 : |∑ j, A i j * x j| ≤ (∑ j, |A i j|) * ‖x‖ := by
    rw [sum_mul]
    refine (abs_sum_le_sum_abs _ _).trans (sum_le_sum fun j _ => ?_)
    rw [abs_mul]
    exact mul_le_mul_of_nonneg_left (abs_le_norm x j) (abs_nonneg _)
  exact h1.trans (single_le_sum (f := fun i => (∑ j, |A i j|) * ‖x‖)
    (fun i _ => mul_nonneg (sum_nonneg fun _ _ => abs_nonneg _) (norm_nonneg x)) (mem_univ i))

theorem norm_sq_le_dot (x : n → ℝ) : ‖x‖ ^ 2 ≤ x ⬝ᵥ x := by
  have h0 : 0 ≤ x ⬝ᵥ x := sum_nonneg fun i _ => mul_self_nonneg _
  have : ‖x‖ ≤ √(x ⬝ᵥ x) := by
    rw [pi_norm_le_iff_of_nonneg (Real.sqrt_nonneg _)]
    intro i
    rw [Real.norm_eq_abs]
    apply Real.abs_le_sqrt
    rw [sq]
    exact single_le_sum (f := fun i => x i * x i) (fun i _ => mul_self_nonneg _) (mem_univ i)
  calc ‖x‖ ^ 2 ≤ √(x ⬝ᵥ x) ^ 2 := by gcongr
    _ = x ⬝ᵥ x := Real.sq_sqrt h0

theorem form_step [DecidableEq n] {A P : Matrix n n ℝ} {c : ℝ} (h : Aᵀ * P * A - c • P = 1) (x : n → ℝ) :
    (A *ᵥ x) ⬝ᵥ (P *ᵥ (A *ᵥ x)) = c * (x ⬝ᵥ (P *ᵥ x)) + x ⬝ᵥ x := by
  have e : Aᵀ * P * A = c • P + 1 := by rw [← h]; abel
  have e2 : (A *ᵥ x) ⬝ᵥ (P *ᵥ (A *ᵥ x)) = x ⬝ᵥ ((Aᵀ * P * A) *ᵥ x) := by
    rw [← Matrix.mulVec_mulVec, ← Matrix.mulVec_mulVec, Matrix.dotProduct_mulVec x, Matrix.vecMul_transpose]
  rw [e2, e, Matrix.add_mulVec, Matrix.smul_mulVec, Matrix.one_mulVec, dotProduct_add, dotProduct_smul, smul_eq_mul]

/-- If a power of `A` grows exponentially, then there is a direction from which all iterations that follow `A` closely
leave every neighbourhood, however small the start is. -/
theorem leaves_of_growth [DecidableEq n] (A : Matrix n n ℝ) {μ : ℝ} (hμ : 1 < μ) {x : n → ℝ}
    (hx : ∀ B : ℝ, ∃ k, B * μ ^ k < ‖(A ^ k) *ᵥ x‖) :
    ∃ κ > 0, ∃ z : n → ℝ, ∀ s > (0 : ℝ), ∀ (η : ℝ) (X : ℕ → n → ℝ), X 0 = s • z →
      (∀ k, (∀ j ≤ k, ‖X j‖ ≤ η ∧ X j ≠ 0) → ‖X (k + 1) - A *ᵥ X k‖ ≤ κ * ‖X k‖) →
      ∃ k, η < ‖X k‖ ∧ ∀ j < k, ‖X j‖ ≤ η ∧ X j ≠ 0 := by
  obtain ⟨c, ⟨hc1, hc2⟩, P, hP⟩ := stein A (a := 1) (b := μ ^ 2) (by nlinarith)
  have hc0 : 0 < c := by linarith
  -- a direction in which the form is positive
  have hz : ∃ z : n → ℝ, 0 < z ⬝ᵥ (P *ᵥ z) := by
    by_contra hn
    push Not at hn
    have hW : ∀ k, -(((A ^ k) *ᵥ x) ⬝ᵥ (P *ᵥ ((A ^ k) *ᵥ x))) ≤ c ^ k * -(x ⬝ᵥ (P *ᵥ x)) := by
      intro k
      induction k with
      | zero => simp
      | succ k ih =>
        have e := form_step hP ((A ^ k) *ᵥ x)
        rw [Matrix.mulVec_mulVec x A, ← pow_succ'] at e
        have h2 : 0 ≤ ((A ^ k) *ᵥ x) ⬝ᵥ ((A ^ k) *ᵥ x) := sum_nonneg fun i _ => mul_self_nonneg _
        rw [e, pow_succ]
        nlinarith
    have hb : ∀ k, ‖(A ^ k) *ᵥ x‖ ^ 2 ≤ c ^ k * (c * -(x ⬝ᵥ (P *ᵥ x))) := by
      intro k
      have e := form_step hP ((A ^ k) *ᵥ x)
      have h1 := hn (A *ᵥ ((A ^ k) *ᵥ x))
      have h2 := norm_sq_le_dot ((A ^ k) *ᵥ x)
      have h3 := hW k
      nlinarith
    set w : ℝ := c * -(x ⬝ᵥ (P *ᵥ x)) with hw
    have hw0 : 0 ≤ w := mul_nonneg hc0.le (by linarith [hn x])
    obtain ⟨k, hk⟩ := hx (√w)
    have h1 : (√w * μ ^ k) ^ 2 < ‖(A ^ k) *ᵥ x‖ ^ 2 := by
      apply pow_lt_pow_left₀ hk (by positivity) two_ne_zero
    have h2 : (√w * μ ^ k) ^ 2 = (μ ^ 2) ^ k * w := by
      rw [mul_pow, Real.sq_sqrt hw0, ← pow_mul, ← pow_mul, mul_comm k 2, mul_comm]
    have h3 : c ^ k * w ≤ (μ ^ 2) ^ k * w := by gcongr
    linarith [hb k]
  obtain ⟨z, hz⟩ := hz
  set C := magn P with hC
  set M := magn A with hM
  have hC0 : 0 ≤ C := magn_nonneg P
  have hM0 : 0 ≤ M := magn_nonneg A
  set κ : ℝ := 1 / (C * (2 * M + 1) + 1) with hκ
  have hκ0 : 0 < κ := by positivity
  have hκ1 : κ ≤ 1 := by rw [hκ, div_le_one (by positivity)]; nlinarith
  have hκC : C * (2 * M * κ + κ ^ 2) ≤ 1 := by
    have h1 : C * (2 * M + 1) * κ ≤ 1 := by
      rw [hκ, mul_one_div, div_le_one (by positivity)]; linarith
    have h2 : κ ^ 2 ≤ κ := by nlinarith
    nlinarith
  refine ⟨κ, hκ0, z, ?_⟩
  intro s hs η X h0 hX
  have hV0 : 0 < X 0 ⬝ᵥ (P *ᵥ X 0) := by
    rw [h0, Matrix.mulVec_smul, smul_dotProduct, dotProduct_smul, smul_eq_mul, smul_eq_mul]
    positivity
  have grow : ∀ k, (∀ j < k, ‖X j‖ ≤ η) → (∀ j ≤ k, c ^ j * (X 0 ⬝ᵥ (P *ᵥ X 0)) ≤ X j ⬝ᵥ (P *ᵥ X j)) := by
    intro k
    induction k with
    | zero =>
      intro _ j hj
      obtain rfl : j = 0 := by omega
      simp
    | succ k ih =>
      intro hn j hj
      have ih := ih fun j hj => hn j (by omega)
      rcases Nat.lt_or_ge j (k + 1) with h | h
      · exact ih j (by omega)
      obtain rfl : j = k + 1 := by omega
      have hne : ∀ j ≤ k, ‖X j‖ ≤ η ∧ X j ≠ 0 := by
        intro j hj
        refine ⟨hn j (by omega), ?_⟩
        intro hz
        have := ih j hj
        rw [hz] at this
        simp only [zero_dotProduct] at this
        have : 0 < c ^ j * (X 0 ⬝ᵥ (P *ᵥ X 0)) := by positivity
        linarith
      have hr := hX k hne
      set r := X (k + 1) - A *ᵥ X k with hrdef
      have e : X (k + 1) = A *ᵥ X k + r := by rw [hrdef]; abel
      have e2 : X (k + 1) ⬝ᵥ (P *ᵥ X (k + 1)) = (A *ᵥ X k) ⬝ᵥ (P *ᵥ (A *ᵥ X k)) + (A *ᵥ X k) ⬝ᵥ (P *ᵥ r) +
          r ⬝ᵥ (P *ᵥ (A *ᵥ X k)) + r ⬝ᵥ (P *ᵥ r) := by
        rw [e, Matrix.mulVec_add, dotProduct_add, add_dotProduct, add_dotProduct]; ring
      have f1 := (abs_le.1 (form_le P (A *ᵥ X k) r)).1
      have f2 := (abs_le.1 (form_le P r (A *ᵥ X k))).1
      have f3 := (abs_le.1 (form_le P r r)).1
      have hA := mulVec_le A (X k)
      have g1 : C * ‖A *ᵥ X k‖ * ‖r‖ ≤ C * (M * ‖X k‖) * (κ * ‖X k‖) := by gcongr
      have g3 : C * ‖r‖ * ‖r‖ ≤ C * (κ * ‖X k‖) * (κ * ‖X k‖) := by gcongr
      have hs := form_step hP (X k)
      have hn2 := norm_sq_le_dot (X k)
      have hk := ih k le_rfl
      have g4 : C * (2 * M * κ + κ ^ 2) * ‖X k‖ ^ 2 ≤ ‖X k‖ ^ 2 := by
        have := mul_le_mul_of_nonneg_right hκC (sq_nonneg ‖X k‖)
        linarith
      have g5 : c * (c ^ k * (X 0 ⬝ᵥ (P *ᵥ X 0))) ≤ c * (X k ⬝ᵥ (P *ᵥ X k)) := by gcongr
      rw [e2, hs, pow_succ]
      have g6 : C * ‖r‖ * ‖A *ᵥ X k‖ = C * ‖A *ᵥ X k‖ * ‖r‖ := by ring
      rw [← hC] at f1 f2 f3
      nlinarith
  have hex : ∃ k, η < ‖X k‖ := by
    by_contra hn
    push Not at hn
    obtain ⟨k, hk⟩ := pow_unbounded_of_one_lt (C * η * η / (X 0 ⬝ᵥ (P *ᵥ X 0))) hc1
    rw [div_lt_iff₀ hV0] at hk
    have h1 := grow k (fun j _ => hn j) k le_rfl
    have h2 := (abs_le.1 (form_le P (X k) (X k))).2
    have hη : 0 ≤ η := (norm_nonneg _).trans (hn k)
    have h3 : magn P * ‖X k‖ * ‖X k‖ ≤ C * η * η := by
      have := hn k
      gcongr
    linarith
  classical
  have hmin : ∀ j < Nat.find hex, ‖X j‖ ≤ η := fun j hj => not_lt.1 (Nat.find_min hex hj)
  refine ⟨Nat.find hex, Nat.find_spec hex, fun j hj => ⟨hmin j hj, fun hz => ?_⟩⟩
  have h1 := grow _ hmin j hj.le
  rw [hz, zero_dotProduct] at h1
  have : 0 < c ^ j * (X 0 ⬝ᵥ (P *ᵥ X 0)) := by positivity
  linarith

/-- A sum of weighted norms of the first powers: the measure that contracts. -/
noncomputable def stretch [DecidableEq n] (A : Matrix n n ℝ) (θ : ℝ) (N : ℕ) (x : n → ℝ) : ℝ :=
  ∑ j ∈ range N, (θ⁻¹) ^ j * ‖(A ^ j) *ᵥ x‖

theorem stretch_add [DecidableEq n] (A : Matrix n n ℝ) {θ : ℝ} (hθ : 0 < θ) (N : ℕ) (x y : n → ℝ) :
    stretch A θ N (x + y) ≤ stretch A θ N x + stretch A θ N y := by
  rw [stretch, stretch, stretch, ← sum_add_distrib]
  refine sum_le_sum fun j _ => ?_
  rw [← mul_add, Matrix.mulVec_add]
  exact mul_le_mul_of_nonneg_left (norm_add_le _ _) (by positivity)

theorem stretch_step [DecidableEq n] (A : Matrix n n ℝ) {θ : ℝ} (hθ : 0 < θ) {N : ℕ} (x : n → ℝ)
    (h : (θ⁻¹) ^ N * ‖(A ^ N) *ᵥ x‖ ≤ ‖x‖) : stretch A θ N (A *ᵥ x) ≤ θ * stretch A θ N x := by
  have e : stretch A θ N (A *ᵥ x) = θ * ∑ j ∈ range N, (θ⁻¹) ^ (j + 1) * ‖(A ^ (j + 1)) *ᵥ x‖ := by
    rw [stretch, mul_sum]
    refine sum_congr rfl fun j _ => ?_
    rw [Matrix.mulVec_mulVec, ← pow_succ, pow_succ (θ⁻¹)]
    field_simp
  have e2 : (∑ j ∈ range N, (θ⁻¹) ^ (j + 1) * ‖(A ^ (j + 1)) *ᵥ x‖) + ‖x‖ =
      stretch A θ N x + (θ⁻¹) ^ N * ‖(A ^ N) *ᵥ x‖ := by
    rw [stretch, ← sum_range_succ (fun j => (θ⁻¹) ^ j * ‖(A ^ j) *ᵥ x‖) N, sum_range_succ']
    simp
  rw [e]
  exact mul_le_mul_of_nonneg_left (by linarith) hθ.le

/-- If the powers of `A` die out, then every iteration that follows `A` closely and starts close enough stays close
and converges. -/
theorem settles_of_decay [DecidableEq n] (A : Matrix n n ℝ)
    (hA : ∀ x : n → ℝ, Tendsto (fun k => (A ^ k) *ᵥ x) atTop (𝓝 0)) :
    ∃ κ > (0 : ℝ), ∃ c > (0 : ℝ), ∀ (η : ℝ) (X : ℕ → n → ℝ), c * ‖X 0‖ ≤ η →
      ∀ m : ℕ∞, (∀ k : ℕ, (k : ℕ∞) < m → (∀ j ≤ k, ‖X j‖ ≤ η) → ‖X (k + 1) - A *ᵥ X k‖ ≤ κ * ‖X k‖) →
      (∀ k : ℕ, (k : ℕ∞) ≤ m → ‖X k‖ ≤ η) ∧ (m = ⊤ → Tendsto X atTop (𝓝 0)) := by
  have hm : Tendsto (fun k => magn (A ^ k)) atTop (𝓝 0) := by
    have : Tendsto (fun k => ∑ i, ∑ j, |(A ^ k) i j|) atTop (𝓝 (∑ _i : n, ∑ _j : n, |(0 : ℝ)|)) := by
      refine tendsto_finsetSum _ fun i _ => tendsto_finsetSum _ fun j _ => ?_
      have h := (tendsto_pi_nhds.1 (hA (Pi.single j 1))) i
      have e : (fun k => ((A ^ k) *ᵥ Pi.single j 1) i) = fun k => (A ^ k) i j := by
        funext k; simp
      rw [e] at h
      exact h.abs
    simpa [magn] using this
  obtain ⟨N, hN1, hN⟩ := ((hm.eventually (ge_mem_nhds (show (0 : ℝ) < 1 / 2 by norm_num))).and
    (eventually_ge_atTop 1)).exists.imp fun k h => And.intro h.2 h.1
  have hNr : (1 : ℝ) ≤ N := by exact_mod_cast hN1
  set θ : ℝ := 1 - 1 / (2 * N) with hθ
  have hθ1 : θ < 1 := by
    have : 0 < 1 / (2 * (N : ℝ)) := by positivity
    linarith
  have hθ0 : 0 < θ := by
    have : 1 / (2 * (N : ℝ)) ≤ 1 / 2 := by gcongr; linarith
    linarith
  have hpow : 1 / 2 ≤ θ ^ N := by
    have h := one_add_mul_le_pow (a := -(1 / (2 * (N : ℝ)))) (by
      have : 1 / (2 * (N : ℝ)) ≤ 1 / 2 := by gcongr; linarith
      linarith) N
    have e : 1 + (N : ℝ) * -(1 / (2 * N)) = 1 / 2 := by field_simp; ring
    rw [e] at h
    rwa [hθ, sub_eq_add_neg]
  have hstep : ∀ x : n → ℝ, stretch A θ N (A *ᵥ x) ≤ θ * stretch A θ N x := by
    intro x
    apply stretch_step A hθ0
    rw [inv_pow, inv_mul_le_iff₀ (by positivity)]
    calc ‖(A ^ N) *ᵥ x‖ ≤ magn (A ^ N) * ‖x‖ := mulVec_le _ _
      _ ≤ θ ^ N * ‖x‖ := by gcongr; linarith
  set c : ℝ := 1 + ∑ j ∈ range N, (θ⁻¹) ^ j * magn (A ^ j) with hc
  have hc0 : 0 < c := by
    have : 0 ≤ ∑ j ∈ range N, (θ⁻¹) ^ j * magn (A ^ j) :=
      sum_nonneg fun j _ => mul_nonneg (by positivity) (magn_nonneg _)
    linarith
  have hup : ∀ x : n → ℝ, stretch A θ N x ≤ c * ‖x‖ := by
    intro x
    have : stretch A θ N x ≤ (∑ j ∈ range N, (θ⁻¹) ^ j * magn (A ^ j)) * ‖x‖ := by
      rw [stretch, sum_mul]
      refine sum_le_sum fun j _ => ?_
      rw [mul_assoc]
      exact mul_le_mul_of_nonneg_left (mulVec_le _ _) (by positivity)
    have h2 := norm_nonneg x
    rw [hc]; linarith
  have hlow : ∀ x : n → ℝ, ‖x‖ ≤ stretch A θ N x := by
    intro x
    have := single_le_sum (f := fun j => (θ⁻¹) ^ j * ‖(A ^ j) *ᵥ x‖) (s := range N)
      (fun j _ => mul_nonneg (by positivity) (norm_nonneg _)) (mem_range.2 (show 0 < N by omega))
    simpa [stretch] using this
  refine ⟨(1 - θ) / (2 * c), div_pos (by linarith) (by positivity), c, hc0, ?_⟩
  intro η X h0 m hX
  set θ' : ℝ := (1 + θ) / 2 with hθ'
  have hθ'0 : 0 ≤ θ' := by rw [hθ']; linarith
  have hθ'1 : θ' < 1 := by rw [hθ']; linarith
  have key : ∀ k : ℕ, (k : ℕ∞) ≤ m → ∀ j ≤ k, stretch A θ N (X j) ≤ θ' ^ j * stretch A θ N (X 0) := by
    intro k
    induction k with
    | zero =>
      intro _ j hj
      obtain rfl : j = 0 := by omega
      simp
    | succ k ih =>
      intro hk j hj
      have hk' : (k : ℕ∞) < m := lt_of_lt_of_le (by exact_mod_cast Nat.lt_succ_self k) hk
      have ih := ih hk'.le
      rcases Nat.lt_or_ge j (k + 1) with h | h
      · exact ih j (by omega)
      obtain rfl : j = k + 1 := by omega
      have hb : ∀ j ≤ k, ‖X j‖ ≤ η := by
        intro j hj
        calc ‖X j‖ ≤ stretch A θ N (X j) := hlow _
          _ ≤ θ' ^ j * stretch A θ N (X 0) := ih j hj
          _ ≤ 1 * stretch A θ N (X 0) := by
            have : 0 ≤ stretch A θ N (X 0) := (norm_nonneg _).trans (hlow _)
            gcongr
            exact pow_le_one₀ hθ'0 hθ'1.le
          _ ≤ η := by rw [one_mul]; exact (hup _).trans h0
      have hr := hX k hk' hb
      have e : X (k + 1) = A *ᵥ X k + (X (k + 1) - A *ᵥ X k) := by abel
      have h1 : stretch A θ N (X (k + 1)) ≤ θ * stretch A θ N (X k) + c * ‖X (k + 1) - A *ᵥ X k‖ := by
        rw [e]
        refine (stretch_add A hθ0 N _ _).trans (add_le_add (hstep _) ?_)
        rw [← e]
        exact hup _
      have h2 : c * ‖X (k + 1) - A *ᵥ X k‖ ≤ (1 - θ) / 2 * stretch A θ N (X k) := by
        calc c * ‖X (k + 1) - A *ᵥ X k‖ ≤ c * ((1 - θ) / (2 * c) * ‖X k‖) := by gcongr
          _ = (1 - θ) / 2 * ‖X k‖ := by field_simp
          _ ≤ (1 - θ) / 2 * stretch A θ N (X k) := by
            have : 0 ≤ (1 - θ) / 2 := by linarith
            gcongr
            exact hlow _
      have h3 : stretch A θ N (X (k + 1)) ≤ θ' * stretch A θ N (X k) := by
        rw [hθ']; linarith
      calc stretch A θ N (X (k + 1)) ≤ θ' * stretch A θ N (X k) := h3
        _ ≤ θ' * (θ' ^ k * stretch A θ N (X 0)) := by gcongr; exact ih k le_rfl
        _ = θ' ^ (k + 1) * stretch A θ N (X 0) := by ring
  have hS : 0 ≤ stretch A θ N (X 0) := (norm_nonneg _).trans (hlow _)
  refine ⟨fun k hk => ?_, fun hm => ?_⟩
  · calc ‖X k‖ ≤ stretch A θ N (X k) := hlow _
      _ ≤ θ' ^ k * stretch A θ N (X 0) := key k hk k le_rfl
      _ ≤ 1 * stretch A θ N (X 0) := by
        gcongr
        exact pow_le_one₀ hθ'0 hθ'1.le
      _ ≤ η := by rw [one_mul]; exact (hup _).trans h0
  · rw [tendsto_zero_iff_norm_tendsto_zero]
    refine squeeze_zero (fun k => norm_nonneg _)
      (fun k => (hlow (X k)).trans (key k (by rw [hm]; exact le_top) k le_rfl)) ?_
    simpa using (tendsto_pow_atTop_nhds_zero_of_lt_one hθ'0 hθ'1).mul_const (stretch A θ N (X 0))

end Adcs
