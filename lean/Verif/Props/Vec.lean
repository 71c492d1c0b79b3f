import Verif.Proofs.Basic

set_option autoImplicit false

/-! # C01–C03: vector helpers -/

namespace Adcs

open Vec Quat
open scoped Matrix

theorem npMaxAbs_spec {n : ℕ} (x : Fin (n + 1) → ℝ) :
    ∃ L, npMaxAbs x = .ok L ∧ (∀ i, |x i| ≤ L) ∧ ∃ i, L = |x i| := by
  have h : (Finset.univ : Finset (Fin (n + 1))).Nonempty := ⟨0, Finset.mem_univ _⟩
  refine ⟨Finset.univ.sup' h fun i => |x i|, by simp [npMaxAbs], fun i => ?_, ?_⟩
  · exact Finset.le_sup' (fun i => |x i|) (Finset.mem_univ i)
  · obtain ⟨i, -, hi⟩ := Finset.exists_mem_eq_sup' h fun i => |x i|
    exact ⟨i, hi⟩

/-- C01.  On a non-empty vector and with a non-negative limit, `saturation` returns `k • x`
with every component within the limit, `0 ≤ k ≤ 1`, `k` largest possible, and a vector within
the limit is returned unchanged. -/
theorem C01_saturation {n : ℕ} (x : Fin (n + 1) → ℝ) (xMax : ℝ) (h : 0 ≤ xMax) :
    ∃ y, saturation x xMax = .ok y ∧ (∀ i, |y i| ≤ xMax) ∧
      ((∀ i, |x i| ≤ xMax) → y = x) ∧
      ∃ k : ℝ, 0 ≤ k ∧ k ≤ 1 ∧ y = k • x ∧
        ∀ k' : ℝ, 0 ≤ k' → k' ≤ 1 → (∀ i, |(k' • x) i| ≤ xMax) → k' ≤ k := by
  obtain ⟨L, hL, hle, i₀, hi₀⟩ := npMaxAbs_spec x
  by_cases hlt : L > xMax
  · have hL0 : 0 < L := lt_of_le_of_lt h hlt
    refine ⟨fun i => xMax * x i / L, by simp [saturation, hL, hlt, npVDiv, hL0.ne'], ?_, ?_,
      xMax / L, div_nonneg h hL0.le, (div_le_one hL0).2 hlt.le, ?_, ?_⟩
    · intro i
      rw [abs_div, abs_mul, abs_of_nonneg h, abs_of_pos hL0, div_le_iff₀ hL0]
      exact mul_le_mul_of_nonneg_left (hle i) h
    · intro hx; exact absurd (hi₀ ▸ hx i₀) (not_le.2 hlt)
    · funext i; simp; ring
    · intro k' h0 _ hk'
      have := hk' i₀
      rw [Pi.smul_apply, smul_eq_mul, abs_mul, abs_of_nonneg h0, ← hi₀] at this
      exact (le_div_iff₀ hL0).2 this
  · refine ⟨x, by simp [saturation, hL, hlt], fun i => (hle i).trans (not_lt.1 hlt), fun _ => rfl,
      1, zero_le_one, le_rfl, by simp, fun k' _ h1 _ => h1⟩

/-- C01: an empty vector is the only one for which `saturation` with a non-negative limit fails
(`np.max` raises `ValueError`). -/
theorem C01_saturation_empty (x : Fin 0 → ℝ) (xMax : ℝ) :
    saturation x xMax = .error .valueError := by
  simp [saturation, npMaxAbs]

/-- Non-vacuity: a vector over the limit is really scaled. -/
example : ∃ y, saturation ![(3 : ℝ), -6] 2 = .ok y ∧ y 0 = 1 ∧ y 1 = -2 := by
  obtain ⟨L, hL, hle, i₀, hi₀⟩ := npMaxAbs_spec ![(3 : ℝ), -6]
  have h6 : L = 6 := by
    apply le_antisymm
    · rw [hi₀]; fin_cases i₀ <;> norm_num
    · simpa using hle 1
  subst h6
  refine ⟨_, by rw [saturation, hL]; norm_num [npVDiv]; rfl, ?_, ?_⟩ <;> norm_num

/-- C02.  `normalize` of a non-zero array has Euclidean norm one and is a positive multiple of
the input. -/
theorem C02_normalize {n : ℕ} (q : Fin n → ℝ) (h : q ≠ 0) :
    Real.sqrt (∑ i, normalizeV q i ^ 2) = 1 ∧ ∃ c : ℝ, 0 < c ∧ normalizeV q = c • q :=
  ⟨by rw [normalize_sumSq h, Real.sqrt_one], (npNorm q)⁻¹, inv_pos.2 (npNorm_pos h),
    normalize_eq h⟩

/-- C02: the zero array is returned unchanged. -/
theorem C02_normalize_zero {n : ℕ} : normalizeV (0 : Fin n → ℝ) = 0 := normalize_zero

/-- C02: `normalize` is idempotent, on every array. -/
theorem C02_normalize_idem {n : ℕ} (q : Fin n → ℝ) :
    normalizeV (normalizeV q) = normalizeV q := by
  by_cases h : q = 0
  · subst h; rw [normalize_zero, normalize_zero]
  · exact normalize_of_unit (npNorm_normalize h)

/-- C02: scaling the input by a positive factor does not change the result. -/
theorem C02_normalize_smul {n : ℕ} (q : Fin n → ℝ) (c : ℝ) (hc : 0 < c) :
    normalizeV (c • q) = normalizeV q := by
  by_cases h : q = 0
  · subst h; simp
  · have h' : c • q ≠ 0 := by simp [h, hc.ne']
    have hn := (npNorm_pos h).ne'
    rw [normalize_eq h, normalize_eq h', npNorm_smul, abs_of_pos hc, smul_smul]
    congr 1; field_simp

/-- C02: `pointing_vector` is the unit direction from position to target. -/
theorem C02_pointing_vector (p t : V3) (h : t ≠ p) :
    (∑ i, pointingVector p t i ^ 2 = 1) ∧
    ∃ d : ℝ, 0 < d ∧ p + d • pointingVector p t = t ∧ d = Real.sqrt (∑ i, (t i - p i) ^ 2) := by
  have h' : t - p ≠ 0 := sub_ne_zero.2 h
  have hn := npNorm_pos h'
  refine ⟨normalize_sumSq h', npNorm (t - p), hn, ?_, rfl⟩
  rw [pointingVector, normalize_eq h', smul_smul, mul_inv_cancel₀ hn.ne', one_smul]
  abel

example : (![3, 0, 4] : Fin 3 → ℝ) ≠ 0 := by
  intro h; simpa using congrFun h 0
example : (![1, 0, 0] : V3) ≠ ![0, 0, 0] := by
  intro h; simpa using congrFun h 0

/-- C03: `cross(v)` acts as the cross product. -/
theorem C03_cross_mulVec (v w : V3) : (cross v) *ᵥ w = v ⨯₃ w := by
  funext i
  fin_cases i <;> simp [cross, cross_apply, Matrix.mulVec, dotProduct, Fin.sum_univ_three] <;> ring

/-- C03: `np.cross` of the model is the cross product. -/
theorem C03_npCross (v w : V3) : npCross v w = v ⨯₃ w := npCross_eq_crossProduct v w

/-- C03: `cross(v)` is skew-symmetric. -/
theorem C03_cross_skew (v : V3) : (cross v)ᵀ = -cross v := by
  ext i j; fin_cases i <;> fin_cases j <;> simp [cross]

/-- C03: `xi(q)` is multiplication by `q` on pure quaternions from the right. -/
theorem C03_xi (q : V4) (w : V3) : (xi q) *ᵥ w = product q ![0, w 0, w 1, w 2] := by
  funext i
  fin_cases i <;>
    simp [xi, cross, product_0, product_1, product_2, product_3, Matrix.mulVec, dotProduct,
      Fin.sum_univ_three] <;> ring

end Adcs
