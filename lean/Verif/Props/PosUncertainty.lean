import Verif.Props.Prediction
import Verif.Proofs.FilterCycle
import Mathlib.Analysis.SpecialFunctions.Complex.LogBounds
import Mathlib.Analysis.Complex.Exponential

set_option autoImplicit false

/-! # C199: what the number of calls does to the uncertainty the position filter predicts -/

namespace Adcs

open Spec Vec Dyn JDay Fr Obs Obs.Pos Env
open scoped Matrix

/-! ## A call of duration zero -/

theorem propagate_zero {n : ℕ} {k : Pos.Kalman n} (h : k.output.1 ≠ 0) :
    (k.propagate 0).1 = .ok () ∧ (k.propagate 0).2.x = k.x ∧ (k.propagate 0).2.P = k.P + Pos.Q := by
  rcases gradA_cases k.mu (k.x ∘ Sum.inl) with ⟨h0, -⟩ | ⟨J, hJ⟩
  · exact absurd h0 (npNorm_pos h).ne'
  have e : aDiscrete 0 = 1 := by
    rw [← Matrix.fromBlocks_one]
    simp [aDiscrete]
  simp [Kalman.propagate, Kalman.stateTransition, Kalman.fContinuous, hJ, e]

/-- Calls of duration zero leave the estimate alone and each makes the filter less certain of the velocity by the
same amount, whatever the covariance. -/
theorem C199_zero {n : ℕ} (k : Pos.Kalman n) (h : k.output.1 ≠ 0) (N : ℕ) :
    (Spec.predict k (List.replicate N 0)).1 = .ok () ∧
    (Spec.predict k (List.replicate N 0)).2.output = k.output ∧
    (∀ i j : Fin 3, (Spec.predict k (List.replicate N 0)).2.P (.inr i) (.inr j) =
      k.P (.inr i) (.inr j) + (if i = j then (N : ℝ) * 0.018166 ^ 2 else 0)) ∧
    (∀ i j : Fin 3, (Spec.predict k (List.replicate N 0)).2.P (.inl i) (.inl j) = k.P (.inl i) (.inl j)) := by
  induction N generalizing k with
  | zero => exact ⟨rfl, rfl, fun i j => by simp [Spec.predict, posRun], fun i j => rfl⟩
  | succ N ih =>
    obtain ⟨-, hx, hP⟩ := propagate_zero h
    have ho : (k.propagate 0).2.output = k.output := by simp only [Kalman.output, hx]
    obtain ⟨a1, a2, a3, a4⟩ := ih (k.propagate 0).2 (by rw [ho]; exact h)
    rw [List.replicate_succ, predict_cons h]
    refine ⟨a1, a2.trans ho, fun i j => ?_, fun i j => ?_⟩
    · rw [a3, hP]
      by_cases hij : i = j
      · subst hij; simp [Pos.Q]; ring
      · simp [Pos.Q, hij]
    · rw [a4, hP]
      by_cases hij : i = j
      · subst hij; simp [Pos.Q]
      · simp [Pos.Q, hij]

/-! ## Appending calls -/

theorem predict_append {n : ℕ} (k : Pos.Kalman n) (h : Spec.orbitMomentum k.output.1 k.output.2 ≠ 0)
    (l m : List ℝ) : Spec.predict k (l ++ m) = Spec.predict (Spec.predict k l).2 m := by
  induction l generalizing k with
  | nil => rfl
  | cons dt l ih =>
    have hx := pos_ne_zero h
    have hm := (C144_plane k h [dt]).2
    rw [predict_cons hx] at hm
    rw [List.cons_append, predict_cons hx, predict_cons hx, ih]
    change Spec.orbitMomentum (Spec.predict (k.propagate dt).2 []).2.output.1
      (Spec.predict (k.propagate dt).2 []).2.output.2 ≠ 0
    rw [hm.1]
    exact smul_ne_zero hm.2.ne' h

theorem predict_one {n : ℕ} (k : Pos.Kalman n) (h : k.output.1 ≠ 0) (dt : ℝ) :
    (Spec.predict k [dt]).2 = (k.propagate dt).2 := by
  rw [predict_cons h]; rfl

theorem predict_momentum_ne {n : ℕ} (k : Pos.Kalman n) (h : Spec.orbitMomentum k.output.1 k.output.2 ≠ 0)
    (l : List ℝ) :
    Spec.orbitMomentum (Spec.predict k l).2.output.1 (Spec.predict k l).2.output.2 ≠ 0 := by
  obtain ⟨-, h1, h2⟩ := C144_plane k h l
  rw [h1]; exact smul_ne_zero h2.ne' h

theorem predict_cov {n : ℕ} (k : Pos.Kalman n) (h : Spec.orbitMomentum k.output.1 k.output.2 ≠ 0)
    (hP : Covariance k.P) (l : List ℝ) :
    Covariance (Spec.predict k l).2.P ∧ (Spec.predict k l).2.mu = k.mu := by
  induction l generalizing k with
  | nil => exact ⟨hP, rfl⟩
  | cons dt l ih =>
    have hx := pos_ne_zero h
    have hm := predict_momentum_ne k h [dt]
    rw [predict_one k hx] at hm
    rw [predict_cons hx]
    obtain ⟨a, b⟩ := ih _ hm (C85_propagate k hP dt).1
    refine ⟨a, b.trans ?_⟩
    rcases gradA_cases k.mu (k.x ∘ Sum.inl) with ⟨-, hg⟩ | ⟨J, hg⟩ <;>
      simp only [Kalman.propagate, Kalman.stateTransition, Kalman.fContinuous, hg]

/-! ## How far one step turns the covariance -/

theorem gradA_bound {mu : ℝ} {p : V3} {J : M3} {r : ℝ} (hr : 0 < r) (hp : r ≤ npNorm p)
    (h : gradA mu p = .ok J) (i j : Fin 3) : |J i j| ≤ 4 * |mu| / r ^ 3 := by
  have hn : 0 < npNorm p := hr.trans_le hp
  simp only [gradA, npDiv, hn.ne', ne_eq, OfNat.ofNat_ne_zero, not_false_eq_true, pow_eq_zero_iff,
    if_false, Except.ok.injEq] at h
  have hc : ∀ i, |p i| ≤ npNorm p := abs_le_npNorm p
  set s := npNorm p with hs
  have key : ∀ a b : Fin 3, |3 / s ^ 5 * (p a * p b)| ≤ 3 / s ^ 3 := by
    intro a b
    rw [abs_mul, abs_of_pos (by positivity), abs_mul]
    have : |p a| * |p b| ≤ s * s := mul_le_mul (hc a) (hc b) (abs_nonneg _) hn.le
    calc 3 / s ^ 5 * (|p a| * |p b|) ≤ 3 / s ^ 5 * (s * s) := by gcongr
      _ = 3 / s ^ 3 := by field_simp
  have h1 : |-1 / s ^ 3| = 1 / s ^ 3 := by
    rw [abs_div, abs_neg, abs_one, abs_of_pos (by positivity)]
  have diag : ∀ a : Fin 3, |-mu * (-1 / s ^ 3 + 3 / s ^ 5 * p a ^ 2)| ≤ 4 * |mu| / s ^ 3 := by
    intro a
    rw [abs_mul, abs_neg]
    have : |-1 / s ^ 3 + 3 / s ^ 5 * p a ^ 2| ≤ 1 / s ^ 3 + 3 / s ^ 3 := by
      refine (abs_add_le _ _).trans ?_
      rw [h1, pow_two]
      exact add_le_add le_rfl (key a a)
    calc |mu| * _ ≤ |mu| * (1 / s ^ 3 + 3 / s ^ 3) := by gcongr
      _ = 4 * |mu| / s ^ 3 := by ring
  have off : ∀ a b : Fin 3, |-mu * (3 / s ^ 5 * (p a * p b))| ≤ 4 * |mu| / s ^ 3 := by
    intro a b
    rw [abs_mul, abs_neg]
    calc |mu| * _ ≤ |mu| * (3 / s ^ 3) := by gcongr; exact key a b
      _ ≤ |mu| * (4 / s ^ 3) := by gcongr; norm_num
      _ = 4 * |mu| / s ^ 3 := by ring
  have tot : |J i j| ≤ 4 * |mu| / s ^ 3 := by
    rw [← h]
    fin_cases i <;> fin_cases j
    · exact diag 0
    · convert off 0 1 using 2; change -mu * (3 / s ^ 5 * p 0 * p 1) = _; ring
    · convert off 0 2 using 2; change -mu * (3 / s ^ 5 * p 0 * p 2) = _; ring
    · convert off 0 1 using 2; change -mu * (3 / s ^ 5 * p 0 * p 1) = _; ring
    · exact diag 1
    · convert off 2 1 using 2; change -mu * (3 / s ^ 5) * p 2 * p 1 = _; ring
    · convert off 0 2 using 2; change -mu * (3 / s ^ 5 * p 0 * p 2) = _; ring
    · convert off 2 1 using 2; change -mu * (3 / s ^ 5) * p 2 * p 1 = _; ring
    · exact diag 2
  refine tot.trans ?_
  gcongr

/-- How fast the covariance turns, at most, at a distance of at least `r`. -/
noncomputable def turnRate (mu r : ℝ) : ℝ := 12 * |mu| / r ^ 3 + 2

theorem turnRate_pos (mu : ℝ) {r : ℝ} (hr : 0 < r) : 2 ≤ turnRate mu r := by
  unfold turnRate
  have : 0 ≤ 12 * |mu| / r ^ 3 := by positivity
  linarith

theorem comp_le (y : I6 → ℝ) (i : I6) : |y i| ≤ ‖y‖ := by
  simpa [Real.norm_eq_abs] using norm_le_pi_norm y i

theorem fBlock_bound {mu r : ℝ} (hr : 0 < r) {J : M3} (hJ : ∀ i j, |J i j| ≤ 4 * |mu| / r ^ 3) (y : I6 → ℝ) :
    ‖(Matrix.fromBlocks 0 1 J (Pos.b • 1) : M6)ᵀ *ᵥ y‖ ≤ turnRate mu r * ‖y‖ := by
  have hy := norm_nonneg y
  have hg : 0 ≤ 12 * |mu| / r ^ 3 := by positivity
  rw [pi_norm_le_iff_of_nonneg (mul_nonneg (by linarith [turnRate_pos mu hr]) hy)]
  rintro (i | i)
  · have e : ((Matrix.fromBlocks 0 1 J (Pos.b • 1) : M6)ᵀ *ᵥ y) (.inl i) =
        J 0 i * y (.inr 0) + J 1 i * y (.inr 1) + J 2 i * y (.inr 2) := by
      simp [Matrix.mulVec, dotProduct, Fin.sum_univ_three]
    rw [e, Real.norm_eq_abs]
    have t : ∀ j, |J j i * y (.inr j)| ≤ 4 * |mu| / r ^ 3 * ‖y‖ := fun j => by
      rw [abs_mul]
      exact mul_le_mul (hJ j i) (comp_le y _) (abs_nonneg _) (by positivity)
    have := (abs_add_le (J 0 i * y (.inr 0) + J 1 i * y (.inr 1)) (J 2 i * y (.inr 2))).trans
      (add_le_add (abs_add_le _ _) le_rfl)
    have e2 : turnRate mu r * ‖y‖ = 3 * (4 * |mu| / r ^ 3 * ‖y‖) + 2 * ‖y‖ := by unfold turnRate; ring
    linarith [t 0, t 1, t 2]
  · have e : ((Matrix.fromBlocks 0 1 J (Pos.b • 1) : M6)ᵀ *ᵥ y) (.inr i) = y (.inl i) + Pos.b * y (.inr i) := by
      simp [Matrix.mulVec, dotProduct, Matrix.one_apply]
    rw [e, Real.norm_eq_abs]
    have h1 := (abs_add_le (y (.inl i)) (Pos.b * y (.inr i)))
    rw [abs_mul, abs_of_pos (by norm_num [Pos.b] : 0 < Pos.b)] at h1
    have h2 := comp_le y (.inl i)
    have h3 := comp_le y (.inr i)
    have h4 : Pos.b * |y (.inr i)| ≤ 1 * ‖y‖ := by
      refine mul_le_mul ?_ h3 (abs_nonneg _) zero_le_one
      norm_num [Pos.b]
    have e2 : turnRate mu r * ‖y‖ = 12 * |mu| / r ^ 3 * ‖y‖ + 2 * ‖y‖ := by unfold turnRate; ring
    have := mul_nonneg hg hy
    linarith

/-- One step of the covariance: in the direction `y`, that of a direction near `y` before, plus the noise. -/
theorem propagate_quad {n : ℕ} {k : Pos.Kalman n} {r dt : ℝ} (hr : 0 < r) (hp : r ≤ npNorm k.output.1)
    (h0 : 0 ≤ dt) (h1 : dt ≤ 1) (i : Fin 3) (y : I6 → ℝ) :
    ∃ z : I6 → ℝ, ‖z - y‖ ≤ dt * (turnRate k.mu r * (1 + turnRate k.mu r)) * ‖y‖ ∧
      z ⬝ᵥ (k.P *ᵥ z) + 0.018166 ^ 2 * y (.inr i) ^ 2 ≤ y ⬝ᵥ ((k.propagate dt).2.P *ᵥ y) := by
  have hn : k.output.1 ≠ 0 := by
    intro h
    rw [h] at hp
    have : npNorm (0 : V3) = 0 := by simp [npNorm]
    linarith
  rcases gradA_cases k.mu (k.x ∘ Sum.inl) with ⟨h0, -⟩ | ⟨J, hJ⟩
  · exact absurd h0 (npNorm_pos hn).ne'
  have hJb := gradA_bound hr hp hJ
  set F : M6 := Matrix.fromBlocks 0 1 J (Pos.b • 1) with hF
  have hB := fBlock_bound hr hJb
  set c := turnRate k.mu r with hc
  have hc2 : 2 ≤ c := turnRate_pos k.mu hr
  have hPe : (k.propagate dt).2.P = (1 + dt • F + (0.5 * dt ^ 2) • (F * F)) *
      (k.P * (1 + dt • F + (0.5 * dt ^ 2) • (F * F))ᵀ) + Pos.Q := by
    simp only [Kalman.propagate, Kalman.stateTransition, Kalman.fContinuous, hJ, hF]
  refine ⟨(1 + dt • F + (0.5 * dt ^ 2) • (F * F))ᵀ *ᵥ y, ?_, ?_⟩
  · have e : (1 + dt • F + (0.5 * dt ^ 2) • (F * F))ᵀ *ᵥ y - y =
        dt • (Fᵀ *ᵥ y) + (0.5 * dt ^ 2) • (Fᵀ *ᵥ (Fᵀ *ᵥ y)) := by
      simp only [Matrix.transpose_add, Matrix.transpose_one, Matrix.transpose_smul, Matrix.transpose_mul,
        Matrix.add_mulVec, Matrix.one_mulVec, Matrix.smul_mulVec, Matrix.mulVec_mulVec]
      abel
    rw [e]
    refine (norm_add_le _ _).trans ?_
    rw [norm_smul, norm_smul, Real.norm_of_nonneg h0, Real.norm_of_nonneg (by positivity)]
    have b1 := hB y
    have b2 := (hB (Fᵀ *ᵥ y)).trans (mul_le_mul_of_nonneg_left b1 (by linarith))
    have hy := norm_nonneg y
    have d2 : 0.5 * dt ^ 2 ≤ dt := by norm_num; nlinarith
    calc dt * ‖Fᵀ *ᵥ y‖ + 0.5 * dt ^ 2 * ‖Fᵀ *ᵥ (Fᵀ *ᵥ y)‖
        ≤ dt * (c * ‖y‖) + dt * (c * (c * ‖y‖)) := by gcongr
      _ = dt * (c * (1 + c)) * ‖y‖ := by ring
  · rw [hPe, Matrix.add_mulVec, dotProduct_add, quad_conj]
    refine add_le_add le_rfl ?_
    have : y ⬝ᵥ (Pos.Q *ᵥ y) =
        0.018166 ^ 2 * (y (.inr 0) ^ 2 + y (.inr 1) ^ 2 + y (.inr 2) ^ 2) := by
      simp [Pos.Q, dotProduct, Matrix.mulVec_diagonal, Fin.sum_univ_three]; ring
    rw [this]
    refine mul_le_mul_of_nonneg_left ?_ (by positivity)
    have h0 := sq_nonneg (y (.inr 0))
    have h1 := sq_nonneg (y (.inr 1))
    have h2 := sq_nonneg (y (.inr 2))
    fin_cases i <;> simp <;> linarith

/-- `m` steps that keep their distance leave at least `m` times the noise, less what the turning takes away. -/
theorem predict_quad {n : ℕ} {r dt : ℝ} (hr : 0 < r) (h0 : 0 ≤ dt) (h1 : dt ≤ 1) (i : Fin 3) (m : ℕ)
    (k : Pos.Kalman n) (h : Spec.orbitMomentum k.output.1 k.output.2 ≠ 0) (hP : Covariance k.P)
    (hd : ∀ j < m, r ≤ npNorm (Spec.predict k (List.replicate j dt)).2.output.1) (y : I6 → ℝ)
    (hy : 0 ≤ |y (.inr i)| - ((1 + dt * (turnRate k.mu r * (1 + turnRate k.mu r))) ^ m - 1) * ‖y‖) :
    0.018166 ^ 2 * m * (|y (.inr i)| - ((1 + dt * (turnRate k.mu r * (1 + turnRate k.mu r))) ^ m - 1) * ‖y‖) ^ 2 ≤
      y ⬝ᵥ ((Spec.predict k (List.replicate m dt)).2.P *ᵥ y) := by
  induction m generalizing y with
  | zero => simpa using (predict_cov k h hP []).1.2 y
  | succ m ih =>
    set l := dt * (turnRate k.mu r * (1 + turnRate k.mu r)) with hl
    have hl0 : 0 ≤ l := mul_nonneg h0 (by have := turnRate_pos k.mu hr; positivity)
    have hmu := (predict_cov k h hP (List.replicate m dt)).2
    obtain ⟨z, hz1, hz2⟩ := propagate_quad hr (hd m (Nat.lt_succ_self m)) h0 h1 i y
    rw [hmu, ← hl] at hz1
    have hm := predict_momentum_ne k h (List.replicate m dt)
    have e : (Spec.predict k (List.replicate (m + 1) dt)).2 =
        ((Spec.predict k (List.replicate m dt)).2.propagate dt).2 := by
      rw [List.replicate_succ', predict_append k h, predict_one _ (pos_ne_zero hm)]
    rw [e]
    have hzn : ‖z‖ ≤ (1 + l) * ‖y‖ := by
      have := norm_add_le (z - y) y
      rw [sub_add_cancel] at this
      linarith
    have hzi : |y (.inr i)| - l * ‖y‖ ≤ |z (.inr i)| := by
      have a := comp_le (z - y) (.inr i)
      have b := abs_sub_abs_le_abs_sub (y (.inr i)) (z (.inr i))
      rw [abs_sub_comm] at b
      change |z (.inr i) - y (.inr i)| ≤ _ at a
      linarith
    have hp1 : 0 ≤ (1 + l) ^ m - 1 := sub_nonneg.2 (one_le_pow₀ (by linarith))
    set a := |y (.inr i)| - ((1 + l) ^ (m + 1) - 1) * ‖y‖ with ha
    have hstep : a ≤ |z (.inr i)| - ((1 + l) ^ m - 1) * ‖z‖ := by
      have := mul_le_mul_of_nonneg_left hzn hp1
      have e3 : ((1 + l) ^ m - 1) * ((1 + l) * ‖y‖) = (1 + l) ^ (m + 1) * ‖y‖ - ‖y‖ - l * ‖y‖ := by
        rw [pow_succ]; ring
      rw [e3] at this
      have e4 : a = |y (.inr i)| - (1 + l) ^ (m + 1) * ‖y‖ + ‖y‖ := by rw [ha]; ring
      linarith
    have hi := ih (fun j hj => hd j (hj.trans (Nat.lt_succ_self m))) z (hy.trans hstep)
    have hay : a ≤ |y (.inr i)| := by
      have : 0 ≤ ((1 + l) ^ (m + 1) - 1) * ‖y‖ :=
        mul_nonneg (sub_nonneg.2 (one_le_pow₀ (by linarith))) (norm_nonneg y)
      linarith
    have s1 : a ^ 2 ≤ (|z (.inr i)| - ((1 + l) ^ m - 1) * ‖z‖) ^ 2 := pow_le_pow_left₀ hy hstep 2
    have s2 : a ^ 2 ≤ y (.inr i) ^ 2 := by
      rw [← sq_abs (y (.inr i))]; exact pow_le_pow_left₀ hy hay 2
    have s3 := mul_le_mul_of_nonneg_left s1 (by positivity : (0 : ℝ) ≤ 0.018166 ^ 2 * m)
    have s4 := mul_le_mul_of_nonneg_left s2 (by positivity : (0 : ℝ) ≤ 0.018166 ^ 2)
    have e5 : (0.018166 : ℝ) ^ 2 * ((m + 1 : ℕ) : ℝ) * a ^ 2 = 0.018166 ^ 2 * m * a ^ 2 + 0.018166 ^ 2 * a ^ 2 := by
      push_cast; ring
    rw [e5]
    linarith

/-! ## The predictions keep their distance -/

theorem stepFactor_lower {dt : ℝ} (h0 : 0 ≤ dt) (h1 : dt ≤ 1) : Real.exp (-dt) ≤ Spec.stepFactor dt := by
  have h2 : Real.exp (-dt) * (1 + dt) ≤ 1 := by
    rw [Real.exp_neg, inv_mul_le_iff₀ (Real.exp_pos _), mul_one]
    linarith [Real.add_one_le_exp dt]
  have h3 : 1 - 1.618e-10 * dt ≤ Spec.stepFactor dt := by
    unfold Spec.stepFactor
    have : 0 ≤ 0.0834 * (1.28e-6) ^ 2 * dt ^ 4 := by positivity
    linarith
  refine le_trans ?_ h3
  have h4 : 1 ≤ (1 - 1.618e-10 * dt) * (1 + dt) := by norm_num; nlinarith
  by_contra hc
  push Not at hc
  have := mul_lt_mul_of_pos_right hc (by linarith : (0 : ℝ) < 1 + dt)
  linarith

theorem predict_far {n : ℕ} (k : Pos.Kalman n) (h : Spec.orbitMomentum k.output.1 k.output.2 ≠ 0) {T : ℝ} (hT : 0 < T) :
    ∃ r, 0 < r ∧ ∀ N : ℕ, T ≤ N → ∀ j ≤ N,
      r ≤ npNorm (Spec.predict k (List.replicate j (T / N))).2.output.1 := by
  set H := npNorm (Spec.orbitMomentum k.output.1 k.output.2) with hH
  set E := Spec.oscEnergy k.output.1 k.output.2 with hE
  have hH0 : 0 < H := npNorm_pos h
  have hE0 : 0 < E := by
    have := npNorm_pos (pos_ne_zero h)
    rw [hE]; unfold Spec.oscEnergy; positivity
  refine ⟨Real.sqrt (Real.exp (-T) * (H ^ 2 / (2 * E))), Real.sqrt_pos.2 (by positivity), fun N hN j hj => ?_⟩
  have hN0 : (0 : ℝ) < N := hT.trans_le hN
  set dt := T / N with hdt
  have d0 : 0 < dt := by positivity
  have d1 : dt ≤ 1 := by rw [hdt, div_le_one hN0]; exact hN
  have d2 : dt ≤ 10.5 := by norm_num; linarith
  obtain ⟨-, hf0, hf1, -, hb⟩ := C144_bounded k h d0 d2 j
  obtain ⟨-, hm, -⟩ := C144_plane k h (List.replicate j dt)
  rw [List.map_replicate, List.prod_replicate] at hm
  set x := (Spec.predict k (List.replicate j dt)).2.output.1
  set v := (Spec.predict k (List.replicate j dt)).2.output.2
  set f := Spec.stepFactor dt with hf
  have hfj : Real.exp (-T) ≤ f ^ j := by
    have a1 : f ^ N ≤ f ^ j := pow_le_pow_of_le_one hf0.le hf1.le hj
    have a2 : Real.exp (-dt) ^ N ≤ f ^ N := pow_le_pow_left₀ (Real.exp_pos _).le (stepFactor_lower d0.le d1) N
    rw [← Real.exp_nat_mul, show (N : ℝ) * -dt = -T by rw [hdt]; field_simp] at a2
    exact a2.trans a1
  have hfp : 0 < f ^ j := pow_pos hf0 j
  have hv : npNorm v ^ 2 ≤ 2 * (f ^ j * E) := by
    have : npNorm v ^ 2 ≤ Spec.oscEnergy x v := by
      unfold Spec.oscEnergy
      have : 0 ≤ 1.28e-6 * npNorm x ^ 2 := by positivity
      linarith
    have hfE : 0 < f ^ j * E := mul_pos hfp hE0
    norm_num at hb
    linarith
  have hxv : (f ^ j * H) ^ 2 ≤ npNorm x ^ 2 * npNorm v ^ 2 := by
    have e := momentum_sq x v
    rw [hm, smul_dotProduct, dotProduct_smul, dot_self_norm, ← hH] at e
    simp only [smul_eq_mul] at e
    rw [dot_self_norm v] at e
    rw [mul_pow, pow_two (f ^ j), mul_assoc, e]
    linarith [sq_nonneg (x ⬝ᵥ v)]
  rw [Real.sqrt_le_left (npNorm_nonneg x)]
  have h3 : (f ^ j * H) ^ 2 ≤ npNorm x ^ 2 * (2 * (f ^ j * E)) :=
    hxv.trans (mul_le_mul_of_nonneg_left hv (sq_nonneg _))
  have h4 : f ^ j * (H ^ 2 / (2 * E)) ≤ npNorm x ^ 2 := by
    rw [← mul_div_assoc, div_le_iff₀ (by positivity)]
    have : f ^ j * (f ^ j * H ^ 2) ≤ f ^ j * (npNorm x ^ 2 * (2 * E)) := by nlinarith
    exact le_of_mul_le_mul_left this hfp
  exact (mul_le_mul_of_nonneg_right hfj (by positivity)).trans h4

/-! ## The property -/

/-- The more calls a prediction is divided into, the less certain the filter is of each component of the velocity,
beyond all bounds: whatever the filter and whatever the time ahead. -/
theorem C199_grows {n : ℕ} (k : Pos.Kalman n) (h : Spec.orbitMomentum k.output.1 k.output.2 ≠ 0)
    (hP : Covariance k.P) {T : ℝ} (hT : 0 < T) (i : Fin 3) :
    (∀ N : ℕ, (Spec.predict k (List.replicate N (T / N))).1 = .ok ()) ∧
    Filter.Tendsto (fun N : ℕ => (Spec.predict k (List.replicate N (T / N))).2.P (.inr i) (.inr i))
      Filter.atTop Filter.atTop := by
  refine ⟨fun N => (C144_plane k h _).1, ?_⟩
  obtain ⟨r, hr, hfar⟩ := predict_far k h hT
  set K := turnRate k.mu r * (1 + turnRate k.mu r) with hK
  have hK0 : 0 < K := by have := turnRate_pos k.mu hr; positivity
  obtain ⟨D, hD⟩ := exists_nat_ge (4 * K * T)
  have hD0 : (0 : ℝ) < D := lt_of_lt_of_le (by positivity) hD
  have hD' : 0 < D := by exact_mod_cast hD0
  have key : ∀ N : ℕ, T ≤ N → 0.018166 ^ 2 * ((N / D : ℕ) : ℝ) * (1 / 2) ^ 2 ≤
      (Spec.predict k (List.replicate N (T / N))).2.P (.inr i) (.inr i) := by
    intro N hN
    have hN0 : (0 : ℝ) < N := hT.trans_le hN
    set m := N / D with hm
    have hmN : m ≤ N := Nat.div_le_self N D
    have hmD : (m : ℝ) * D ≤ N := by exact_mod_cast Nat.div_mul_le_self N D
    set dt := T / N with hdt
    have d0 : 0 < dt := by positivity
    have d1 : dt ≤ 1 := by rw [hdt, div_le_one hN0]; exact hN
    set k' := (Spec.predict k (List.replicate (N - m) dt)).2 with hk'
    have hk'm : Spec.orbitMomentum k'.output.1 k'.output.2 ≠ 0 := predict_momentum_ne k h _
    obtain ⟨hk'P, hk'mu⟩ := predict_cov k h hP (List.replicate (N - m) dt)
    rw [← hk'] at hk'P hk'mu
    have hsplit : ∀ j, (Spec.predict k' (List.replicate j dt)).2 =
        (Spec.predict k (List.replicate (N - m + j) dt)).2 := by
      intro j
      rw [List.replicate_add, predict_append k h]
    have hq := predict_quad hr d0.le d1 i m k' hk'm hk'P (fun j hj => by
      rw [hsplit]; exact hfar N hN _ (by omega)) (Pi.single (.inr i) 1)
    rw [hsplit, Nat.sub_add_cancel hmN, hk'mu, ← hK] at hq
    have hn1 : ‖(Pi.single (.inr i) 1 : I6 → ℝ)‖ = 1 := by
      rw [Pi.norm_single]; exact norm_one
    have hp : (1 + dt * K) ^ m ≤ 3 / 2 := by
      have a1 : (1 + dt * K) ^ m ≤ Real.exp (dt * K) ^ m := by
        refine pow_le_pow_left₀ (by positivity) ?_ m
        linarith [Real.add_one_le_exp (dt * K)]
      rw [← Real.exp_nat_mul] at a1
      have a2 : (m : ℝ) * (dt * K) ≤ 1 / 4 := by
        rw [hdt]
        have : (m : ℝ) * (T / N * K) = m * (4 * K * T) / (4 * N) := by field_simp
        rw [this, div_le_div_iff₀ (by positivity) (by norm_num)]
        have := mul_le_mul_of_nonneg_left hD (Nat.cast_nonneg (α := ℝ) m)
        linarith
      have a3 := Real.exp_le_exp.2 a2
      have a4 := Real.exp_bound_div_one_sub_of_interval (x := 1 / 4) (by norm_num) (by norm_num)
      have a5 : (1 : ℝ) / (1 - 1 / 4) ≤ 3 / 2 := by norm_num
      linarith
    rw [hn1] at hq
    simp only [Pi.single_eq_same, abs_one, mul_one] at hq
    have hq' := hq (by linarith)
    have e : (Pi.single (.inr i) 1 : I6 → ℝ) ⬝ᵥ ((Spec.predict k (List.replicate N dt)).2.P *ᵥ Pi.single (.inr i) 1) =
        (Spec.predict k (List.replicate N dt)).2.P (.inr i) (.inr i) := by
      simp
    rw [e] at hq'
    refine le_trans ?_ hq'
    gcongr
    linarith
  have lim : Filter.Tendsto (fun N : ℕ => (0.018166 : ℝ) ^ 2 * ((N / D : ℕ) : ℝ) * (1 / 2) ^ 2) Filter.atTop Filter.atTop := by
    refine Filter.Tendsto.atTop_mul_const (by positivity) (Filter.Tendsto.const_mul_atTop (by positivity) ?_)
    exact tendsto_natCast_atTop_atTop.comp (Nat.tendsto_div_const_atTop hD'.ne')
  obtain ⟨N0, hN0⟩ := exists_nat_ge T
  refine Filter.tendsto_atTop_mono' _ ?_ lim
  filter_upwards [Filter.eventually_ge_atTop N0] with N hN
  exact key N (hN0.trans (by exact_mod_cast hN))

/-- The full claim: the uncertainty predicted for a time ahead has a bound that does not depend on how many calls
the time is divided into. -/
def C199_claim : Prop :=
  ∀ (n : ℕ) (k : Pos.Kalman n), Spec.orbitMomentum k.output.1 k.output.2 ≠ 0 → Covariance k.P →
    ∀ T > 0, ∃ B, ∀ N : ℕ, 1 ≤ N → ∀ i, (Spec.predict k (List.replicate N (T / N))).2.P i i ≤ B

/-- Partial: what the filter predicts, unlike how certain it says it is of it, settles as the calls are made
shorter: none fails, the angular momentum tends to a multiple of what it was that depends on the time ahead
alone, and the energy stays within a factor of 1.0003 of it.  Missing: the covariance (`C199_grows`). -/
theorem C199_estimate_partial {n : ℕ} (k : Pos.Kalman n) (h : Spec.orbitMomentum k.output.1 k.output.2 ≠ 0)
    {T : ℝ} (hT : 0 < T) :
    Filter.Tendsto (fun N : ℕ => Spec.orbitMomentum (Spec.predict k (List.replicate N (T / N))).2.output.1
        (Spec.predict k (List.replicate N (T / N))).2.output.2)
      Filter.atTop (nhds (Real.exp (-(1.618e-10 * T)) • Spec.orbitMomentum k.output.1 k.output.2)) ∧
    ∀ N : ℕ, T ≤ 10.5 * N →
      Spec.oscEnergy (Spec.predict k (List.replicate N (T / N))).2.output.1
        (Spec.predict k (List.replicate N (T / N))).2.output.2 ≤ 1.0003 * Spec.oscEnergy k.output.1 k.output.2 := by
  constructor
  · have e : ∀ N : ℕ, Spec.orbitMomentum (Spec.predict k (List.replicate N (T / N))).2.output.1
        (Spec.predict k (List.replicate N (T / N))).2.output.2 =
        (1 + (Spec.stepFactor (T / N) - 1)) ^ N • Spec.orbitMomentum k.output.1 k.output.2 := by
      intro N
      rw [(C144_plane k h _).2.1, List.map_replicate, List.prod_replicate]
      ring_nf
    simp_rw [e]
    refine Filter.Tendsto.smul_const ?_ _
    refine Real.tendsto_one_add_pow_exp_of_tendsto ?_
    have e2 : ∀ᶠ N : ℕ in Filter.atTop, -(1.618e-10 * T) + 0.0834 * (1.28e-6) ^ 2 * T ^ 4 * ((1 : ℝ) / N) ^ 3 =
        (N : ℝ) * (Spec.stepFactor (T / N) - 1) := by
      filter_upwards [Filter.eventually_ge_atTop 1] with N hN
      have : (N : ℝ) ≠ 0 := by positivity
      unfold Spec.stepFactor
      field_simp
      ring
    refine Filter.Tendsto.congr' e2 ?_
    have l := (tendsto_one_div_atTop_nhds_zero_nat (𝕜 := ℝ)).pow 3
    have := (l.const_mul (0.0834 * (1.28e-6) ^ 2 * T ^ 4)).const_add (-(1.618e-10 * T))
    simpa using this
  · intro N hN
    have hN0 : (0 : ℝ) < N := by
      rcases Nat.eq_zero_or_pos N with rfl | hp
      · simp at hN; linarith
      · exact_mod_cast hp
    have d0 : 0 < T / N := by positivity
    have d1 : T / N ≤ 10.5 := by rw [div_le_iff₀ hN0]; exact hN
    obtain ⟨-, hf0, hf1, -, hb⟩ := C144_bounded k h d0 d1 N
    refine hb.trans ?_
    have : Spec.stepFactor (T / N) ^ N ≤ 1 := pow_le_one₀ hf0.le hf1.le
    have hE : 0 ≤ Spec.oscEnergy k.output.1 k.output.2 := by unfold Spec.oscEnergy; positivity
    have := mul_le_mul_of_nonneg_right this hE
    rw [one_mul] at this
    exact mul_le_mul_of_nonneg_left this (by norm_num)

/-- The hypotheses are met by the filter of a state object of the library, as constructed. -/
theorem exFilter_meets : ∃ s : SatState 4, SatState.new (exRaw 4) (some exClock) = .ok s ∧
    (Pos.init Spec.mu s).output.1 ≠ 0 ∧
    Spec.orbitMomentum (Pos.init Spec.mu s).output.1 (Pos.init Spec.mu s).output.2 ≠ 0 ∧
    Covariance (Pos.init Spec.mu s).P := by
  obtain ⟨s, hs, -⟩ := exState 4
  have hs' : mkState (exRaw 4) (some exClock) = .ok s := hs
  obtain ⟨c, lat, long, h', -, -, he⟩ := mkState_ok.1 hs'
  have hm : Spec.orbitMomentum (Pos.init Spec.mu s).output.1 (Pos.init Spec.mu s).output.2 ≠ 0 := by
    have hp : (Pos.init Spec.mu s).output.1 = (exRaw 4).pos := by rw [he]; rfl
    have hv : (Pos.init Spec.mu s).output.2 = (exRaw 4).vel := by rw [he]; rfl
    rw [hp, hv]
    intro h
    have := congrFun h 2
    norm_num [Spec.orbitMomentum, exRaw] at this
  exact ⟨s, hs, pos_ne_zero hm, hm, (C85_history Spec.mu s []).1⟩

example : ∃ (s : SatState 4) (T : ℝ), Spec.orbitMomentum (Pos.init Spec.mu s).output.1 (Pos.init Spec.mu s).output.2 ≠ 0 ∧
    Covariance (Pos.init Spec.mu s).P ∧ 0 < T :=
  let ⟨s, _, _, h, hP⟩ := exFilter_meets
  ⟨s, 10, h, hP, by norm_num⟩

/-- C199 fails. -/
theorem C199_fails : ¬ C199_claim := by
  intro h
  obtain ⟨s, -, -, hm, hP⟩ := exFilter_meets
  obtain ⟨B, hB⟩ := h 4 (Pos.init Spec.mu s) hm hP 10 (by norm_num)
  obtain ⟨-, ht⟩ := C199_grows (Pos.init Spec.mu s) hm hP (T := 10) (by norm_num) 0
  obtain ⟨N, h1, h2⟩ := ((Filter.tendsto_atTop.1 ht (B + 1)).and (Filter.eventually_ge_atTop 1)).exists
  have := hB N h2 (.inr 0)
  linarith

end Adcs
