import Verif.Model.AttEst
import Verif.Proofs.Quat
import Mathlib.Analysis.Matrix.Spectrum
import Mathlib.LinearAlgebra.Matrix.ToLinearEquiv
import Mathlib.LinearAlgebra.Matrix.Charpoly.Basic
import Mathlib.LinearAlgebra.Matrix.Charpoly.Eigs

set_option autoImplicit false

/-! # Lemmas about `flae`: the matrix, its quartic, Newton's method and elimination -/

set_option linter.unusedSimpArgs false

namespace Adcs.AttEst

open Adcs Vec Quat Matrix

/-- The quadratic form of `W`. -/
def form (Hx Hy Hz : V3) (q : V4) : ℝ := q ⬝ᵥ (wMat Hx Hy Hz *ᵥ q)

theorem wMat_isHermitian (Hx Hy Hz : V3) : (wMat Hx Hy Hz).IsHermitian := by
  ext i j; fin_cases i <;> fin_cases j <;> simp [wMat]

theorem wMat_mulVec (Hx Hy Hz : V3) (q : V4) :
    wMat Hx Hy Hz *ᵥ q =
      ![(Hx 0 + Hy 1 + Hz 2) * q 0 + (-Hy 2 + Hz 1) * q 1 + (-Hz 0 + Hx 2) * q 2 + (-Hx 1 + Hy 0) * q 3,
        (-Hy 2 + Hz 1) * q 0 + (Hx 0 - Hy 1 - Hz 2) * q 1 + (Hx 1 + Hy 0) * q 2 + (Hx 2 + Hz 0) * q 3,
        (-Hz 0 + Hx 2) * q 0 + (Hx 1 + Hy 0) * q 1 + (Hy 1 - Hx 0 - Hz 2) * q 2 + (Hy 2 + Hz 1) * q 3,
        (-Hx 1 + Hy 0) * q 0 + (Hx 2 + Hz 0) * q 1 + (Hy 2 + Hz 1) * q 2 + (Hz 2 - Hy 1 - Hx 0) * q 3] := by
  ext i; fin_cases i <;> simp [wMat, mulVec, dotProduct, Fin.sum_univ_four]

theorem form_eq (Hx Hy Hz : V3) (q : V4) :
    form Hx Hy Hz q =
      Hx 0 * (q 0 ^ 2 + q 1 ^ 2 - q 2 ^ 2 - q 3 ^ 2)
      + Hy 1 * (q 0 ^ 2 - q 1 ^ 2 + q 2 ^ 2 - q 3 ^ 2)
      + Hz 2 * (q 0 ^ 2 - q 1 ^ 2 - q 2 ^ 2 + q 3 ^ 2)
      + Hx 1 * (2 * (q 1 * q 2 - q 0 * q 3)) + Hy 0 * (2 * (q 1 * q 2 + q 0 * q 3))
      + Hx 2 * (2 * (q 1 * q 3 + q 0 * q 2)) + Hz 0 * (2 * (q 1 * q 3 - q 0 * q 2))
      + Hy 2 * (2 * (q 2 * q 3 - q 0 * q 1)) + Hz 1 * (2 * (q 2 * q 3 + q 0 * q 1)) := by
  rw [form, wMat_mulVec]
  simp [dotProduct, Fin.sum_univ_four]
  ring

theorem det_wMat (Hx Hy Hz : V3) (x : ℝ) :
    (Matrix.scalar (Fin 4) x - wMat Hx Hy Hz).det =
      quartic x (tau1 Hx Hy Hz) (tau2 Hx Hy Hz) (tau3 Hx Hy Hz) := by
  simp only [quartic, tau1, tau2, tau3, wMat, det_succ_row_zero, Fin.sum_univ_succ, npDot3, npCross_0,
    npCross_1, npCross_2]
  simp [Fin.succAbove, Fin.lt_def, Matrix.one_apply]
  ring

/-- Wahba's gain: the weighted sum of the cosines between the measured directions and the
rotated reference directions. -/
noncomputable def gain (l : List (ℝ × V3 × V3)) (q : V4) : ℝ :=
  (l.map fun t => t.1 * npDot (normalizeV t.2.2) (sandwich q (normalizeV t.2.1))).sum

theorem hMat_cons (t : ℝ × V3 × V3) (l : List (ℝ × V3 × V3)) (i j : Fin 3) :
    hMat (t :: l) i j = t.1 * normalizeV t.2.1 i * normalizeV t.2.2 j + hMat l i j := by
  simp [hMat, sumAcross, hats]

theorem form_hMat (l : List (ℝ × V3 × V3)) (q : V4) :
    form (hMat l 0) (hMat l 1) (hMat l 2) q = gain l q := by
  induction l with
  | nil => simp [form_eq, gain, hMat, sumAcross, hats]
  | cons t l ih =>
    have : gain (t :: l) q
      = t.1 * npDot (normalizeV t.2.2) (sandwich q (normalizeV t.2.1)) + gain l q := by
      simp [gain]
    rw [this, ← ih, form_eq, form_eq]
    simp only [hMat_cons, npDot3, sandwich_0, sandwich_1, sandwich_2]
    ring

theorem normalize_sq_le {n : ℕ} (x : Fin n → ℝ) : ∑ i, normalizeV x i ^ 2 ≤ 1 := by
  by_cases h : x = 0
  · subst h; rw [normalize_zero]; simp
  · exact (normalize_sumSq h).le

theorem gain_le {l : List (ℝ × V3 × V3)} {q : V4} (hq : IsUnit4 q) (ha : ∀ t ∈ l, 0 ≤ t.1) :
    gain l q ≤ (l.map fun t => t.1).sum := by
  induction l with
  | nil => simp [gain]
  | cons t l ih =>
    have ih' := ih fun t ht => ha t (List.mem_cons_of_mem _ ht)
    have h1 : npDot (normalizeV t.2.2) (sandwich q (normalizeV t.2.1)) ≤ 1 := by
      have hb := normalize_sq_le t.2.2
      have hr := normalize_sq_le t.2.1
      have hs := sandwich_dot hq (normalizeV t.2.1) (normalizeV t.2.1)
      rw [Fin.sum_univ_three] at hb hr
      rw [← npDot_eq_dotProduct, ← npDot_eq_dotProduct, npDot3, npDot3] at hs
      rw [npDot3]
      nlinarith [sq_nonneg (normalizeV t.2.2 0 - sandwich q (normalizeV t.2.1) 0),
        sq_nonneg (normalizeV t.2.2 1 - sandwich q (normalizeV t.2.1) 1),
        sq_nonneg (normalizeV t.2.2 2 - sandwich q (normalizeV t.2.1) 2)]
    have h2 := mul_le_mul_of_nonneg_left h1 (ha t (by simp))
    simp only [gain, List.map_cons, List.sum_cons] at ih' ⊢
    linarith

/-- The quadratic form of a symmetric matrix on unit vectors is at most any bound of its
eigenvalues. -/
theorem rayleigh {A : Matrix (Fin 4) (Fin 4) ℝ} (hA : A.IsHermitian) {M : ℝ}
    (hM : ∀ i, hA.eigenvalues i ≤ M) {q : V4} (hq : q ⬝ᵥ q = 1) : q ⬝ᵥ (A *ᵥ q) ≤ M := by
  set U : Matrix (Fin 4) (Fin 4) ℝ := (hA.eigenvectorUnitary : Matrix (Fin 4) (Fin 4) ℝ) with hU
  have hUU : U * star U = 1 := Unitary.coe_mul_star_self hA.eigenvectorUnitary
  have hs : A = U * diagonal hA.eigenvalues * star U := by
    have := hA.spectral_theorem
    rw [Unitary.conjStarAlgAut_apply] at this
    simpa using this
  set y := star U *ᵥ q with hy
  have hyq : q ᵥ* U = y := by
    rw [hy, star_eq_conjTranspose, conjTranspose_eq_transpose_of_trivial, mulVec_transpose]
  have hyy : y ⬝ᵥ y = 1 := by
    calc y ⬝ᵥ y = (q ᵥ* U) ⬝ᵥ (star U *ᵥ q) := by rw [hyq]
      _ = q ⬝ᵥ ((U * star U) *ᵥ q) := by rw [← dotProduct_mulVec, mulVec_mulVec]
      _ = 1 := by rw [hUU, one_mulVec, hq]
  have e : q ⬝ᵥ (A *ᵥ q) = y ⬝ᵥ (diagonal hA.eigenvalues *ᵥ y) := by
    calc q ⬝ᵥ (A *ᵥ q) = q ⬝ᵥ ((U * diagonal hA.eigenvalues * star U) *ᵥ q) := by rw [← hs]
      _ = (q ᵥ* U) ⬝ᵥ (diagonal hA.eigenvalues *ᵥ (star U *ᵥ q)) := by
        rw [← mulVec_mulVec, ← mulVec_mulVec, dotProduct_mulVec]
      _ = _ := by rw [hyq]
  rw [e]
  have : M = ∑ i, M * (y i * y i) := by rw [← Finset.mul_sum]; exact (by rw [show ∑ i, y i * y i = 1 from hyy, mul_one])
  rw [this]
  apply Finset.sum_le_sum
  intro i _
  rw [mulVec_diagonal]
  nlinarith [hM i, mul_self_nonneg (y i)]

/-- Newton's method from above the largest root of a real-rooted quartic stays above it. -/
theorem newton_ge {l0 l1 l2 l3 t1 t2 t3 : ℝ}
    (hf : ∀ x, quartic x t1 t2 t3 = (x - l0) * (x - l1) * (x - l2) * (x - l3))
    (h1 : l1 ≤ l0) (h2 : l2 ≤ l0) (h3 : l3 ≤ l0) (tol rtol : ℝ) (n : ℕ) (x0 lam : ℝ) (hx : l0 ≤ x0)
    (hn : newton (fun x => quartic x t1 t2 t3) (fun x => quarticDeriv x t1 t2 t3) tol rtol n x0
      = .ok lam) : l0 ≤ lam := by
  have hd : ∀ x, quarticDeriv x t1 t2 t3 = (x - l1) * (x - l2) * (x - l3)
      + (x - l0) * ((x - l2) * (x - l3) + (x - l1) * (x - l3) + (x - l1) * (x - l2)) := by
    have a0 := hf 0
    have a1 := hf 1
    have a2 := hf (-1)
    have a3 := hf 2
    simp only [quartic] at a0 a1 a2 a3
    intro x
    simp only [quarticDeriv]
    have e1 : l0 + l1 + l2 + l3 = 0 := by linear_combination (1/6) * a3 - (1/2) * a1 + (1/2) * a0 - (1/6) * a2
    have e2 : t1 = l0*l1+l0*l2+l0*l3+l1*l2+l1*l3+l2*l3 := by linear_combination (1/2) * a1 + (1/2) * a2 - a0
    have e3 : t2 = -(l0*l1*l2+l0*l1*l3+l0*l2*l3+l1*l2*l3) := by linear_combination (1/2) * a1 - (1/2) * a2 - e1
    rw [e2, e3]
    linear_combination -3 * x^2 * (-e1)
  induction n generalizing x0 with
  | zero => simp [newton] at hn
  | succ n ih =>
    unfold newton at hn
    by_cases hz : quartic x0 t1 t2 t3 = 0
    · simp only [hz, if_true, Except.ok.injEq] at hn; linarith
    · simp only [if_neg hz] at hn
      by_cases hz' : quarticDeriv x0 t1 t2 t3 = 0
      · simp [hz'] at hn
      · simp only [if_neg hz'] at hn
        have hgt : l0 < x0 := by
          rcases hx.lt_or_eq with h | h
          · exact h
          · exact absurd (by rw [hf, ← h]; ring) hz
        have p0 : 0 < x0 - l0 := by linarith
        have p1 : 0 < x0 - l1 := by linarith
        have p2 : 0 < x0 - l2 := by linarith
        have p3 : 0 < x0 - l3 := by linarith
        have hge : quartic x0 t1 t2 t3 ≤ (x0 - l0) * quarticDeriv x0 t1 t2 t3 := by
          rw [hf, hd]
          have : 0 ≤ (x0 - l0) * ((x0 - l0) * ((x0 - l2) * (x0 - l3) + (x0 - l1) * (x0 - l3) + (x0 - l1) * (x0 - l2))) := by
            positivity
          nlinarith
        have hdp : 0 < quarticDeriv x0 t1 t2 t3 := by rw [hd]; positivity
        have hstep : l0 ≤ x0 - quartic x0 t1 t2 t3 / quarticDeriv x0 t1 t2 t3 := by
          have := (div_le_iff₀ hdp).2 hge
          linarith
        split_ifs at hn with hc
        · simp only [Except.ok.injEq] at hn; rw [← hn]; exact hstep
        · exact ih _ hstep hn

/-! ### Elimination -/

/-- Elimination keeps the kernel. -/
theorem pivotStep_kernel {N N' : Fin 4 → V4} {k : Fin 4} (h : pivotStep N k = .ok N') {y : V4}
    (hy : ∀ i, N i ⬝ᵥ y = 0) (i : Fin 4) : N' i ⬝ᵥ y = 0 := by
  unfold pivotStep at h
  split_ifs at h with hk
  simp only [Except.ok.injEq] at h
  subst h
  have hrow : (fun c => N k c / N k k) ⬝ᵥ y = 0 := by
    have : (fun c => N k c / N k k) = (N k k)⁻¹ • N k := by funext c; simp [div_eq_inv_mul]
    rw [this, smul_dotProduct, hy k, smul_zero]
  by_cases hi : i = k
  · simp only [hi, if_true]; exact hrow
  · simp only [if_neg hi]
    have : (fun c => N i c - N i k * (N k c / N k k)) = N i - (N i k) • (fun c => N k c / N k k) := by
      funext c; simp
    rw [this, sub_dotProduct, smul_dotProduct, hy i, hrow]; simp

theorem pivotStep_col {N N' : Fin 4 → V4} {k : Fin 4} (h : pivotStep N k = .ok N') (i : Fin 4) :
    N' i k = if i = k then 1 else 0 := by
  unfold pivotStep at h
  split_ifs at h with hk
  simp only [Except.ok.injEq] at h
  subst h
  by_cases hi : i = k
  · simp [hi, hk]
  · simp [hi, hk]

theorem pivotStep_col' {N N' : Fin 4 → V4} {k : Fin 4} (h : pivotStep N k = .ok N') {c : Fin 4}
    (hck : c ≠ k) (hN : ∀ i, N i c = if i = c then 1 else 0) (i : Fin 4) :
    N' i c = if i = c then 1 else 0 := by
  unfold pivotStep at h
  split_ifs at h with hk
  simp only [Except.ok.injEq] at h
  subst h
  by_cases hi : i = k
  · simp [hi, hN k, hck.symm]
  · simp [hi, hN k, hck.symm, hN i]

/-- What the elimination returns spans the kernel: when `lam` is a root of the quartic the result
is a unit eigenvector, and the eigenspace is one-dimensional. -/
theorem nullVector_spec {W : Matrix (Fin 4) (Fin 4) ℝ} {lam : ℝ} {q : V4}
    (h : nullVector W lam = .ok q) :
    IsUnit4 q ∧ q 3 ≠ 0 ∧ ∀ y, W *ᵥ y = lam • y → ∃ c : ℝ, y = c • q := by
  unfold nullVector at h
  cases h1 : pivotStep (charRows W lam) 0 with
  | error e => rw [h1] at h; exact absurd h (by simp [bind, Except.bind])
  | ok N1 =>
  cases h2 : pivotStep N1 1 with
  | error e => rw [h1] at h; simp only [bind, Except.bind, h2] at h; exact absurd h (by simp)
  | ok N2 =>
  cases h3 : pivotStep N2 2 with
  | error e => rw [h1] at h; simp only [bind, Except.bind, h2, h3] at h; exact absurd h (by simp)
  | ok N3 =>
  rw [h1] at h
  simp only [bind, Except.bind, h2, h3, pure, Except.pure, Except.ok.injEq] at h
  have hne : (![N3 0 3, N3 1 3, N3 2 3, -1] : V4) ≠ 0 := by
    intro h0; simpa using congrFun h0 3
  refine ⟨?_, ?_, ?_⟩
  · rw [← h, isUnit4_iff]; exact npNorm_normalize hne
  · rw [← h, normalize_eq hne]; simpa using (npNorm_pos hne).ne'
  · intro y hy
    have k0 : ∀ i, charRows W lam i ⬝ᵥ y = 0 := by
      intro i
      have := congrFun hy i
      simp only [mulVec, Pi.smul_apply, smul_eq_mul, dotProduct] at this
      simp only [charRows, dotProduct, sub_mul, Finset.sum_sub_distrib, this]
      simp
    have k3 := pivotStep_kernel h3 (pivotStep_kernel h2 (pivotStep_kernel h1 k0))
    have c0 := pivotStep_col' h3 (c := 0) (by decide) (pivotStep_col' h2 (c := 0) (by decide) (pivotStep_col h1))
    have c1 := pivotStep_col' h3 (c := 1) (by decide) (pivotStep_col h2)
    have c2 := pivotStep_col h3
    have r0 := k3 0
    have r1 := k3 1
    have r2 := k3 2
    simp only [dotProduct, Fin.sum_univ_four, c0, c1, c2] at r0 r1 r2
    simp at r0 r1 r2
    refine ⟨-(y 3) * npNorm ![N3 0 3, N3 1 3, N3 2 3, -1], ?_⟩
    have hnn := (npNorm_pos hne).ne'
    rw [← h, normalize_eq hne, smul_smul, mul_assoc, mul_inv_cancel₀ hnn, mul_one]
    apply vec4_ext
    · simp; linarith
    · simp; linarith
    · simp; linarith
    · simp

theorem exists_eigenvector {Hx Hy Hz : V3} {x : ℝ}
    (h : quartic x (tau1 Hx Hy Hz) (tau2 Hx Hy Hz) (tau3 Hx Hy Hz) = 0) :
    ∃ y : V4, IsUnit4 y ∧ wMat Hx Hy Hz *ᵥ y = x • y := by
  rw [← det_wMat] at h
  obtain ⟨y, hy0, hy⟩ := (exists_mulVec_eq_zero_iff).2 h
  refine ⟨normalizeV y, (isUnit4_iff _).2 (npNorm_normalize hy0), ?_⟩
  have : wMat Hx Hy Hz *ᵥ y = x • y := by
    rw [sub_mulVec] at hy
    have := sub_eq_zero.1 hy
    rw [← this]
    ext i
    simp [Matrix.scalar_apply, mulVec_diagonal]
  rw [normalize_eq hy0, mulVec_smul, this, smul_comm]

theorem dot_self_of_unit {y : V4} (h : IsUnit4 y) : y ⬝ᵥ y = 1 := by
  simp only [dotProduct, Fin.sum_univ_four]; unfold IsUnit4 at h; linarith

theorem form_of_eigen {Hx Hy Hz : V3} {x : ℝ} {y : V4} (hu : IsUnit4 y)
    (h : wMat Hx Hy Hz *ᵥ y = x • y) : form Hx Hy Hz y = x := by
  rw [form, h, dotProduct_smul, dot_self_of_unit hu, smul_eq_mul, mul_one]

theorem wMat_hMat_cons (t : ℝ × V3 × V3) (l : List (ℝ × V3 × V3)) (p : V4)
    (hp : IsUnit4 p) (hr : t.2.1 ≠ 0) (hb : t.2.2 = sandwich p t.2.1) :
    wMat (hMat (t :: l) 0) (hMat (t :: l) 1) (hMat (t :: l) 2) *ᵥ p =
      t.1 • p + wMat (hMat l 0) (hMat l 1) (hMat l 2) *ᵥ p := by
  have hnn : npNorm (sandwich p t.2.1) = npNorm t.2.1 := by
    rw [← sq_eq_sq₀ (npNorm_nonneg _) (npNorm_nonneg _), npNorm_sq_dot, npNorm_sq_dot,
      npDot_eq_dotProduct, sandwich_dot hp]; rfl
  have hbn : normalizeV t.2.2 = sandwich p (normalizeV t.2.1) := by
    have hb0 : sandwich p t.2.1 ≠ 0 := by
      intro h0
      have := npNorm_pos hr
      rw [← hnn, h0, npNorm_eq_zero.2 rfl] at this
      exact lt_irrefl _ this
    rw [hb, normalize_eq hb0, normalize_eq hr, hnn, sandwich_smul]
  have hu := normalize_sumSq hr
  rw [Fin.sum_univ_three] at hu
  unfold IsUnit4 at hp
  rw [wMat_mulVec, wMat_mulVec]
  simp only [hMat_cons, hbn, sandwich_0, sandwich_1, sandwich_2]
  generalize normalizeV t.2.1 0 = x at *
  generalize normalizeV t.2.1 1 = y at *
  generalize normalizeV t.2.1 2 = z at *
  generalize t.1 = a at *
  apply vec4_ext <;> simp
  all_goals grind

theorem wMat_hMat_exact {l : List (ℝ × V3 × V3)} {p : V4} (hp : IsUnit4 p)
    (h : ∀ t ∈ l, t.2.1 ≠ 0 ∧ t.2.2 = sandwich p t.2.1) :
    wMat (hMat l 0) (hMat l 1) (hMat l 2) *ᵥ p = (l.map fun t => t.1).sum • p := by
  induction l with
  | nil => rw [wMat_mulVec]; simp [hMat, sumAcross, hats]
  | cons t l ih =>
    rw [wMat_hMat_cons t l p hp (h t (by simp)).1 (h t (by simp)).2,
      ih fun s hs => h s (List.mem_cons_of_mem _ hs), List.map_cons, List.sum_cons, add_smul]

end Adcs.AttEst
