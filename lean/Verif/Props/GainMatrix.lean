import Verif.Proofs.Riccati
import Mathlib.Analysis.Complex.Basic

set_option autoImplicit false

/-! # C138, C139: the gain matrices exist, are unique, and what they achieve -/

namespace Adcs

open scoped Matrix Topology
open Filter Lqr Obs

/-! ## The sampled models, by components -/

theorem plant_step (Jinv : M3) (T : ℝ) (e w u : V3) :
    Ad T *ᵥ Sum.elim e w + Bd Jinv T *ᵥ u =
      Sum.elim (e + (T / 2) • w + (T ^ 2 / 4) • Jinv *ᵥ u) (w + T • Jinv *ᵥ u) := by
  have h1 : A *ᵥ Sum.elim e w = Sum.elim ((0.5 : ℝ) • w) 0 := by
    rw [A, Matrix.fromBlocks_mulVec]
    simp [Matrix.smul_mulVec]
  have h2 : B Jinv *ᵥ u = Sum.elim (0 : V3) (Jinv *ᵥ u) := by
    rw [B, Matrix.fromRows_mulVec, Matrix.zero_mulVec]
  rw [Ad, Bd, Matrix.add_mulVec, Matrix.one_mulVec, Matrix.smul_mulVec, h1, Matrix.add_mulVec, Matrix.smul_mulVec,
    Matrix.smul_mulVec, ← Matrix.mulVec_mulVec, h2, A, Matrix.fromBlocks_mulVec]
  funext i
  rcases i with i | i
  · simp [Matrix.smul_mulVec]; ring
  · simp

theorem aug_A (Jinv : M3) (e w ξ : V3) :
    AI Jinv *ᵥ Sum.elim (Sum.elim e w) ξ = Sum.elim (Sum.elim ((0.5 : ℝ) • w) 0) (-e) := by
  have h1 : A *ᵥ Sum.elim e w = Sum.elim ((0.5 : ℝ) • w) 0 := by
    rw [A, Matrix.fromBlocks_mulVec]
    simp [Matrix.smul_mulVec]
  have h2 : cAug *ᵥ Sum.elim e w = e := by
    rw [cAug, Matrix.fromCols_mulVec]
    simp
  rw [AI, addIntegrators, Matrix.fromBlocks_mulVec]
  simp only [Sum.elim_comp_inl, Sum.elim_comp_inr, Matrix.zero_mulVec, add_zero, Matrix.neg_mulVec, h1, h2]

theorem aug_B (Jinv : M3) (u : V3) : BI Jinv *ᵥ u = Sum.elim (Sum.elim (0 : V3) (Jinv *ᵥ u)) (0 : V3) := by
  rw [BI, addIntegrators, Matrix.fromRows_mulVec, B, Matrix.fromRows_mulVec]
  simp only [Matrix.zero_mulVec]

theorem aug_step (Jinv : M3) (T : ℝ) (e w ξ u : V3) :
    AdI Jinv T *ᵥ Sum.elim (Sum.elim e w) ξ + BdI Jinv T *ᵥ u =
      Sum.elim (Sum.elim (e + (T / 2) • w + (T ^ 2 / 4) • Jinv *ᵥ u) (w + T • Jinv *ᵥ u))
        (ξ - T • e - (T ^ 2 / 4) • w - (T ^ 3 / 12) • Jinv *ᵥ u) := by
  rw [AdI, BdI]
  simp only [Matrix.add_mulVec, Matrix.one_mulVec, Matrix.smul_mulVec, ← Matrix.mulVec_mulVec, aug_A, aug_B]
  funext i
  rcases i with (i | i) | i
  · simp; ring
  · simp
  · simp; ring

/-- The sampled model with integrators is exact: under a constant torque it is the solution of the continuous one. -/
theorem C138_sampling (Jinv : M3) (x : I9 → ℝ) (u : V3) (t : ℝ) :
    HasDerivAt (fun s => AdI Jinv s *ᵥ x + BdI Jinv s *ᵥ u)
      (AI Jinv *ᵥ (AdI Jinv t *ᵥ x + BdI Jinv t *ᵥ u) + BI Jinv *ᵥ u) t ∧
    AdI Jinv 0 *ᵥ x + BdI Jinv 0 *ᵥ u = x := by
  obtain ⟨e, w, ξ, rfl⟩ : ∃ e w ξ, x = Sum.elim (Sum.elim e w) ξ :=
    ⟨fun i => x (.inl (.inl i)), fun i => x (.inl (.inr i)), fun i => x (.inr i), by
      funext i; rcases i with (i | i) | i <;> rfl⟩
  constructor
  · simp only [aug_step, aug_A, aug_B]
    rw [hasDerivAt_pi]
    have hp : ∀ (k : ℕ) (c d : ℝ), HasDerivAt (fun s : ℝ => s ^ (k + 1) / c * d) ((k + 1) * t ^ k / c * d) t := by
      intro k c d
      have := ((hasDerivAt_pow (k + 1) t).div_const c).mul_const d
      simpa using this
    have hl : ∀ d : ℝ, HasDerivAt (fun s : ℝ => s * d) d t := by
      intro d; simpa using (hasDerivAt_id t).mul_const d
    have hh : ∀ d : ℝ, HasDerivAt (fun s : ℝ => s / 2 * d) (1 / 2 * d) t := by
      intro d; simpa using ((hasDerivAt_id t).div_const 2).mul_const d
    rintro ((i | i) | i)
    · simp only [Sum.elim_inl, Pi.add_apply, Pi.smul_apply, smul_eq_mul]
      refine (((hh (w i)).const_add (e i)).fun_add (hp 1 4 ((Jinv *ᵥ u) i))).congr_deriv ?_
      norm_num; ring
    · simp only [Sum.elim_inl, Sum.elim_inr, Pi.add_apply, Pi.smul_apply, smul_eq_mul]
      refine ((hl ((Jinv *ᵥ u) i)).const_add (w i)).congr_deriv ?_
      simp
    · simp only [Sum.elim_inr, Pi.add_apply, Pi.sub_apply, Pi.smul_apply, smul_eq_mul]
      refine ((((hl (e i)).const_sub (ξ i)).fun_sub (hp 1 4 (w i))).fun_sub (hp 2 12 ((Jinv *ᵥ u) i))).congr_deriv ?_
      simp; ring
  · rw [aug_step]
    funext i
    rcases i with (i | i) | i <;> simp

/-! ## Coming to rest -/

theorem plant_rest {J : M3} (hJ : J.det ≠ 0) {T : ℝ} (hT : T ≠ 0) (x : I6 → ℝ) :
    ∃ us, Spec.final (Ad T) (Bd J⁻¹ T) us x = 0 := by
  obtain ⟨e, w, rfl⟩ : ∃ e w, x = Sum.elim e w :=
    ⟨fun i => x (.inl i), fun i => x (.inr i), by funext i; rcases i with i | i <;> rfl⟩
  have hv : ∀ v : V3, J⁻¹ *ᵥ (J *ᵥ v) = v := fun v => by
    rw [Matrix.mulVec_mulVec, Matrix.nonsing_inv_mul _ (isUnit_iff_ne_zero.2 hJ), Matrix.one_mulVec]
  refine ⟨[J *ᵥ (-(2 / T ^ 2) • e - (3 / (2 * T)) • w), J *ᵥ ((2 / T ^ 2) • e + (1 / (2 * T)) • w)], ?_⟩
  simp only [Spec.final, plant_step, hv]
  funext i
  rcases i with i | i
  · simp; field_simp; ring
  · simp; field_simp; ring

theorem aug_rest {J : M3} (hJ : J.det ≠ 0) {T : ℝ} (hT : T ≠ 0) (x : I9 → ℝ) :
    ∃ us, Spec.final (AdI J⁻¹ T) (BdI J⁻¹ T) us x = 0 := by
  obtain ⟨e, w, ξ, rfl⟩ : ∃ e w ξ, x = Sum.elim (Sum.elim e w) ξ :=
    ⟨fun i => x (.inl (.inl i)), fun i => x (.inl (.inr i)), fun i => x (.inr i), by
      funext i; rcases i with (i | i) | i <;> rfl⟩
  have hv : ∀ v : V3, J⁻¹ *ᵥ (J *ᵥ v) = v := fun v => by
    rw [Matrix.mulVec_mulVec, Matrix.nonsing_inv_mul _ (isUnit_iff_ne_zero.2 hJ), Matrix.one_mulVec]
  refine ⟨[J *ᵥ ((-4 / T ^ 2) • e + (-11 / (6 * T)) • w + (2 / T ^ 3) • ξ),
    J *ᵥ ((6 / T ^ 2) • e + (7 / (6 * T)) • w + (-4 / T ^ 3) • ξ),
    J *ᵥ ((-2 / T ^ 2) • e + (-1 / (3 * T)) • w + (2 / T ^ 3) • ξ)], ?_⟩
  simp only [Spec.final, aug_step, hv]
  funext i
  rcases i with (i | i) | i
  · simp; field_simp; ring
  · simp; field_simp; ring
  · simp; field_simp; ring

/-! ## C138 -/

theorem npInv_ok {J : M3} (hJ : J.det ≠ 0) : npInv J = .ok J⁻¹ := by rw [npInv, if_neg hJ]

theorem lqrQ_pos {e w : ℝ} (he : e ≠ 0) (hw : w ≠ 0) (i : I6) :
    0 < Sum.elim (fun _ : Fin 3 => 1 / e ^ 2) (fun _ : Fin 3 => 1 / w ^ 2) i := by
  rcases i with i | i <;> simp <;> positivity

theorem lqrQI_pos {e w : ℝ} (he : e ≠ 0) (hw : w ≠ 0) (i : I9) :
    0 < Sum.elim (Sum.elim (fun _ : Fin 3 => 1 / e ^ 2) (fun _ : Fin 3 => 1 / w ^ 2)) (fun _ : Fin 3 => 1 / (0.1 : ℝ) ^ 2) i := by
  rcases i with (i | i) | i <;> simp <;> positivity

/-- For an invertible inertia, a nonzero step and nonzero weights `get_gain_matrix` has exactly one answer: the
Riccati equation has a positive semidefinite solution, and no other, and the inverse in the gain exists. -/
theorem C138_unique (J : M3) (hJ : J.det ≠ 0) (T e w : ℝ) (hT : T ≠ 0) (he : e ≠ 0) (hw : w ≠ 0) :
    (∃! K, GetGain J T e w K) ∧ ∃! K, GetGainI J T e w K := by
  constructor
  · have hq : (Q e w).PosSemidef := by
      rw [Q, Matrix.posSemidef_diagonal_iff]; exact fun i => (lqrQ_pos he hw i).le
    obtain ⟨P, hP, -⟩ := dare_exists (a := Ad T) (b := Bd J⁻¹ T) lqrR_posDef hq (plant_rest hJ hT)
    refine ⟨_, ⟨he, hw, J⁻¹, P, npInv_ok hJ, hP, dare_gain lqrR_posDef hP⟩, ?_⟩
    rintro K ⟨-, -, Ji, P', hi, hP', hK⟩
    rw [npInv_ok hJ] at hi
    obtain rfl := Except.ok.inj hi
    rw [dare_unique (lqrQ_pos he hw) lqrR_posDef hP' hP, dare_gain lqrR_posDef hP] at hK
    exact (Except.ok.inj hK).symm
  · have hq : (QI e w).PosSemidef := by
      rw [QI, Matrix.posSemidef_diagonal_iff]; exact fun i => (lqrQI_pos he hw i).le
    obtain ⟨P, hP, -⟩ := dare_exists (a := AdI J⁻¹ T) (b := BdI J⁻¹ T) lqrR_posDef hq (aug_rest hJ hT)
    refine ⟨_, ⟨he, hw, J⁻¹, P, npInv_ok hJ, hP, dare_gain lqrR_posDef hP⟩, ?_⟩
    rintro K ⟨-, -, Ji, P', hi, hP', hK⟩
    rw [npInv_ok hJ] at hi
    obtain rfl := Except.ok.inj hi
    rw [dare_unique (lqrQI_pos he hw) lqrR_posDef hP' hP, dare_gain lqrR_posDef hP] at hK
    exact (Except.ok.inj hK).symm

/-- Powers that send every real vector to zero belong to a matrix with all eigenvalues inside the unit circle. -/
theorem eigenvalue_lt_one {n : Type} [Fintype n] [DecidableEq n] {M : Matrix n n ℝ}
    (h : ∀ x : n → ℝ, Tendsto (fun k => (M ^ k) *ᵥ x) atTop (𝓝 0)) (l : ℂ) (v : n → ℂ) (hv : v ≠ 0)
    (he : (M.map Complex.ofReal) *ᵥ v = l • v) : ‖l‖ < 1 := by
  by_contra hc
  rw [not_lt] at hc
  obtain ⟨i, hi⟩ := Function.ne_iff.1 hv
  have hpow : ∀ k : ℕ, ((M ^ k).map Complex.ofReal) *ᵥ v = l ^ k • v := by
    intro k
    induction k with
    | zero =>
      rw [pow_zero, pow_zero, one_smul, Matrix.map_one _ Complex.ofReal_zero Complex.ofReal_one, Matrix.one_mulVec]
    | succ k ih =>
      have : (M ^ (k + 1)).map Complex.ofReal = (M ^ k).map Complex.ofReal * M.map Complex.ofReal := by
        rw [pow_succ]; exact Matrix.map_mul (f := Complex.ofRealHom)
      rw [this, ← Matrix.mulVec_mulVec, he, Matrix.mulVec_smul, ih, smul_smul, pow_succ, mul_comm]
  have hcomp : ∀ k : ℕ, l ^ k * v i = (((M ^ k) *ᵥ fun j => (v j).re) i : ℂ) + (((M ^ k) *ᵥ fun j => (v j).im) i : ℂ) * Complex.I := by
    intro k
    have := congrFun (hpow k) i
    rw [Pi.smul_apply, smul_eq_mul] at this
    rw [← this]
    simp only [Matrix.mulVec, dotProduct, Matrix.map_apply, Complex.ofReal_sum, Complex.ofReal_mul, Finset.sum_mul, ← Finset.sum_add_distrib]
    refine Finset.sum_congr rfl fun j _ => ?_
    conv_lhs => rw [← Complex.re_add_im (v j)]
    ring
  have hr := tendsto_pi_nhds.1 (h fun j => (v j).re) i
  have hm := tendsto_pi_nhds.1 (h fun j => (v j).im) i
  have ht : Tendsto (fun k : ℕ => l ^ k * v i) atTop (𝓝 0) := by
    have h1 := (Complex.continuous_ofReal.tendsto _).comp hr
    have h2 := ((Complex.continuous_ofReal.tendsto _).comp hm).mul_const Complex.I
    have h3 := h1.add h2
    simp only [Pi.zero_apply, Complex.ofReal_zero, zero_mul, add_zero] at h3
    exact h3.congr fun k => (hcomp k).symm
  have hn := ht.norm
  rw [norm_zero] at hn
  have hpos : 0 < ‖v i‖ := norm_pos_iff.2 hi
  have : ‖v i‖ ≤ 0 := by
    refine ge_of_tendsto' hn fun k => ?_
    rw [norm_mul, norm_pow]
    exact le_mul_of_one_le_left hpos.le (one_le_pow₀ hc)
  linarith

/-- The gains work: without disturbances the sampled design model goes to zero from every state, and no eigenvalue of
`A_cl` is on or outside the unit circle, so that the warning is never printed. -/
theorem C138_stable (J : M3) (T e w : ℝ) :
    (∀ K, GetGain J T e w K →
      (∀ x, Tendsto (fun k => ((Ad T - Bd J⁻¹ T * K) ^ k) *ᵥ x) atTop (𝓝 0)) ∧
      ∀ (l : ℂ) (v : I6 → ℂ), v ≠ 0 → ((Ad T - Bd J⁻¹ T * K).map Complex.ofReal) *ᵥ v = l • v → ‖l‖ < 1) ∧
    ∀ K, GetGainI J T e w K →
      (∀ x, Tendsto (fun k => ((AdI J⁻¹ T - BdI J⁻¹ T * K) ^ k) *ᵥ x) atTop (𝓝 0)) ∧
      ∀ (l : ℂ) (v : I9 → ℂ), v ≠ 0 → ((AdI J⁻¹ T - BdI J⁻¹ T * K).map Complex.ofReal) *ᵥ v = l • v → ‖l‖ < 1 := by
  have hinv : ∀ {Ji : M3}, npInv J = .ok Ji → Ji = J⁻¹ := by
    intro Ji h
    rw [npInv] at h
    split_ifs at h
    exact (Except.ok.inj h).symm
  constructor
  · rintro K ⟨he, hw, Ji, P, hi, hP, hK⟩
    obtain rfl := hinv hi
    have hs := lqr_stable (lqrQ_pos he hw) lqrR_posDef hP hK
    exact ⟨hs, fun l v hv h => eigenvalue_lt_one hs l v hv h⟩
  · rintro K ⟨he, hw, Ji, P, hi, hP, hK⟩
    obtain rfl := hinv hi
    have hs := lqr_stable (lqrQI_pos he hw) lqrR_posDef hP hK
    exact ⟨hs, fun l v hv h => eigenvalue_lt_one hs l v hv h⟩

/-- The inertia in the file. -/
example : (!![0.01650237, 0.00000711, 0.00004547; 7.115e-6, 0.015962, 0.00003107; 0.00004547, 0.00003107, 0.00651814] :
    M3).det ≠ 0 := by
  rw [Matrix.det_fin_three]
  simp
  norm_num

/-! ## C139: constant disturbances -/

/-- The closed loop with a constant disturbing torque `d`: the states after each step. -/
noncomputable def Spec.disturbed {n : Type} [Fintype n] (a : Matrix n n ℝ) (b : Matrix n (Fin 3) ℝ)
    (K : Matrix (Fin 3) n ℝ) (d : V3) (x : n → ℝ) : ℕ → n → ℝ
  | 0 => x
  | k + 1 => a *ᵥ Spec.disturbed a b K d x k + b *ᵥ (d - K *ᵥ Spec.disturbed a b K d x k)

/-- With a stable closed loop the states converge to the one point of rest. -/
theorem disturbed_tendsto {n : Type} [Fintype n] [DecidableEq n] {a : Matrix n n ℝ} {b : Matrix n (Fin 3) ℝ}
    {K : Matrix (Fin 3) n ℝ} (h : ∀ x, Tendsto (fun k => ((a - b * K) ^ k) *ᵥ x) atTop (𝓝 0)) (d : V3) (x : n → ℝ) :
    ∃ y, a *ᵥ y + b *ᵥ (d - K *ᵥ y) = y ∧ Tendsto (Spec.disturbed a b K d x) atTop (𝓝 y) := by
  set M := a - b * K with hM
  have hinj : Function.Injective (fun v => (1 - M) *ᵥ v) := by
    intro v v' hv
    have h0 : (1 - M) *ᵥ (v - v') = 0 := by
      rw [Matrix.mulVec_sub]; exact sub_eq_zero.2 hv
    rw [Matrix.sub_mulVec, Matrix.one_mulVec, sub_eq_zero] at h0
    have hk : ∀ k : ℕ, (M ^ k) *ᵥ (v - v') = v - v' := by
      intro k
      induction k with
      | zero => rw [pow_zero, Matrix.one_mulVec]
      | succ k ih => rw [pow_succ, ← Matrix.mulVec_mulVec, ← h0, ih]
    have := h (v - v')
    simp only [hk] at this
    exact sub_eq_zero.1 (tendsto_nhds_unique tendsto_const_nhds this)
  have hu : IsUnit (1 - M) := Matrix.mulVec_injective_iff_isUnit.1 hinj
  set y := (1 - M)⁻¹ *ᵥ (b *ᵥ d) with hy
  have hfix : (1 - M) *ᵥ y = b *ᵥ d := by
    rw [hy, Matrix.mulVec_mulVec, Matrix.mul_nonsing_inv _ ((Matrix.isUnit_iff_isUnit_det _).1 hu), Matrix.one_mulVec]
  have hrule : ∀ z : n → ℝ, a *ᵥ z + b *ᵥ (d - K *ᵥ z) = M *ᵥ z + b *ᵥ d := by
    intro z
    rw [hM, Matrix.sub_mulVec, Matrix.mulVec_sub, ← Matrix.mulVec_mulVec]
    abel
  have hyf : M *ᵥ y + b *ᵥ d = y := by
    rw [← hfix, Matrix.sub_mulVec 1 M, Matrix.one_mulVec]; abel
  refine ⟨y, (hrule y).trans hyf, ?_⟩
  have hk : ∀ k, Spec.disturbed a b K d x k = y + (M ^ k) *ᵥ (x - y) := by
    intro k
    induction k with
    | zero => rw [Spec.disturbed, pow_zero, Matrix.one_mulVec]; abel
    | succ k ih =>
      rw [Spec.disturbed, hrule, ih, Matrix.mulVec_add, pow_succ', ← Matrix.mulVec_mulVec]
      nth_rewrite 3 [← hyf]
      abel
  have := (h (x - y)).const_add y
  rw [add_zero] at this
  exact this.congr fun k => (hk k).symm

/-- With integrators a constant disturbing torque leaves no attitude error and no rate: from every state they go to
zero. -/
theorem C139_integrator (J : M3) (T e w : ℝ) (hT : T ≠ 0) (K : Matrix (Fin 3) I9 ℝ) (hK : GetGainI J T e w K) (d : V3)
    (x : I9 → ℝ) (i : I6) :
    Tendsto (fun k => Spec.disturbed (AdI J⁻¹ T) (BdI J⁻¹ T) K d x k (.inl i)) atTop (𝓝 0) := by
  obtain ⟨y, hy, ht⟩ := disturbed_tendsto ((C138_stable J T e w).2 K hK).1 d x
  obtain ⟨e', w', ξ, rfl⟩ : ∃ e' w' ξ, y = Sum.elim (Sum.elim e' w') ξ :=
    ⟨fun i => y (.inl (.inl i)), fun i => y (.inl (.inr i)), fun i => y (.inr i), by
      funext i; rcases i with (i | i) | i <;> rfl⟩
  rw [aug_step] at hy
  have hv : ∀ i, (J⁻¹ *ᵥ (d - K *ᵥ Sum.elim (Sum.elim e' w') ξ)) i = 0 := by
    intro i
    have := congrFun hy (.inl (.inr i))
    simp only [Sum.elim_inl, Sum.elim_inr, Pi.add_apply, Pi.smul_apply, smul_eq_mul, add_eq_left, mul_eq_zero, hT, false_or] at this
    exact this
  have hw : ∀ i, w' i = 0 := by
    intro i
    have := congrFun hy (.inl (.inl i))
    simp only [Sum.elim_inl, Pi.add_apply, Pi.smul_apply, smul_eq_mul, hv, mul_zero, add_zero, add_eq_left, mul_eq_zero] at this
    exact this.resolve_left (div_ne_zero hT two_ne_zero)
  have he : ∀ i, e' i = 0 := by
    intro i
    have := congrFun hy (.inr i)
    simp only [Sum.elim_inr, Pi.sub_apply, Pi.smul_apply, smul_eq_mul, hv, hw, mul_zero, sub_zero, sub_eq_self, mul_eq_zero, hT, false_or] at this
    exact this
  have := tendsto_pi_nhds.1 ht (.inl i)
  rcases i with i | i
  · simpa only [Sum.elim_inl, he] using this
  · simpa only [Sum.elim_inl, Sum.elim_inr, hw] using this

/-- Without integrators (as the flight software uses the gain) the rate goes to zero but a constant disturbing torque
leaves a constant attitude error, which is not zero. -/
theorem C139_plain (J : M3) (T e w : ℝ) (hT : T ≠ 0) (K : Matrix (Fin 3) I6 ℝ) (hK : GetGain J T e w K) (d : V3)
    (x : I6 → ℝ) :
    ∃ err : V3, Tendsto (Spec.disturbed (Ad T) (Bd J⁻¹ T) K d x) atTop (𝓝 (Sum.elim err 0)) ∧
      K *ᵥ Sum.elim err 0 = d ∧ (err = 0 ↔ d = 0) := by
  have hJ : J.det ≠ 0 := by
    obtain ⟨-, -, Ji, P, hi, -⟩ := hK
    rw [npInv] at hi
    split_ifs at hi with h
    exact h
  obtain ⟨y, hy, ht⟩ := disturbed_tendsto ((C138_stable J T e w).1 K hK).1 d x
  obtain ⟨e', w', rfl⟩ : ∃ e' w', y = Sum.elim e' w' :=
    ⟨fun i => y (.inl i), fun i => y (.inr i), by funext i; rcases i with i | i <;> rfl⟩
  rw [plant_step] at hy
  have hv : J⁻¹ *ᵥ (d - K *ᵥ Sum.elim e' w') = 0 := by
    funext i
    have := congrFun hy (.inr i)
    simp only [Sum.elim_inr, Pi.add_apply, Pi.smul_apply, smul_eq_mul, add_eq_left, mul_eq_zero, hT, false_or] at this
    exact this
  have hw : w' = 0 := by
    funext i
    have := congrFun hy (.inl i)
    simp only [Sum.elim_inl, Pi.add_apply, Pi.smul_apply, smul_eq_mul, hv, Pi.zero_apply, mul_zero, add_zero, add_eq_left, mul_eq_zero] at this
    exact this.resolve_left (div_ne_zero hT two_ne_zero)
  subst hw
  have hd : K *ᵥ Sum.elim e' 0 = d := by
    have := congrArg (J *ᵥ ·) hv
    simp only [Matrix.mulVec_mulVec, Matrix.mul_nonsing_inv _ (isUnit_iff_ne_zero.2 hJ), Matrix.one_mulVec, Matrix.mulVec_zero] at this
    exact (sub_eq_zero.1 this).symm
  refine ⟨e', ht, hd, ?_, ?_⟩
  · rintro rfl
    rw [← hd, show (Sum.elim (0 : V3) (0 : V3) : I6 → ℝ) = 0 from by funext i; rcases i with i | i <;> rfl, Matrix.mulVec_zero]
  · rintro rfl
    -- without a torque the only point of rest is zero
    have hs := ((C138_stable J T e w).1 K hK).1 (Sum.elim e' 0)
    have hfix : (Ad T - Bd J⁻¹ T * K) *ᵥ Sum.elim e' 0 = Sum.elim e' 0 := by
      rw [Matrix.sub_mulVec, ← Matrix.mulVec_mulVec, hd, Matrix.mulVec_zero, sub_zero]
      have := plant_step J⁻¹ T e' 0 0
      rw [Matrix.mulVec_zero, add_zero] at this
      rw [this]
      funext i; rcases i with i | i <;> simp
    have hk : ∀ k : ℕ, ((Ad T - Bd J⁻¹ T * K) ^ k) *ᵥ Sum.elim e' 0 = Sum.elim e' 0 := by
      intro k
      induction k with
      | zero => rw [pow_zero, Matrix.one_mulVec]
      | succ k ih => rw [pow_succ, ← Matrix.mulVec_mulVec, hfix, ih]
    simp only [hk] at hs
    have h0 := tendsto_nhds_unique tendsto_const_nhds hs
    funext i
    exact congrFun h0 (.inl i)

/-- Gains exist for the hypotheses of C139. -/
example : ∃ K, GetGainI (1 : M3) 0.1 0.1 0.05 K :=
  (C138_unique 1 (by simp) 0.1 0.1 0.05 (by norm_num) (by norm_num) (by norm_num)).2.exists

end Adcs
