import Verif.Proofs.Flae

set_option autoImplicit false

/-! # C21: what `flae` returns

`gain l q` (in `Proofs/Flae.lean`) is Wahba's weighted sum of cosines, written from the vector
observations and `sandwich` alone. -/

namespace Adcs

open Vec Quat AttEst Matrix

/-- The root `flae` uses. -/
noncomputable def flaeRoot (l : List (ℝ × V3 × V3)) : Py ℝ :=
  newton (fun x => quartic x (tau1 (hMat l 0) (hMat l 1) (hMat l 2))
      (tau2 (hMat l 0) (hMat l 1) (hMat l 2)) (tau3 (hMat l 0) (hMat l 1) (hMat l 2)))
    (fun x => quarticDeriv x (tau1 (hMat l 0) (hMat l 1) (hMat l 2))
      (tau2 (hMat l 0) (hMat l 1) (hMat l 2)) (tau3 (hMat l 0) (hMat l 1) (hMat l 2)))
    1.48e-8 0.00001 4 1

theorem flae_eq_ok {l : List (ℝ × V3 × V3)} {q : V4} :
    flae l = .ok q ↔ ∃ lam, flaeRoot l = .ok lam ∧
      nullVector (wMat (hMat l 0) (hMat l 1) (hMat l 2)) lam = .ok q := by
  change (flaeRoot l >>= fun lam => nullVector (wMat (hMat l 0) (hMat l 1) (hMat l 2)) lam) = _ ↔ _
  cases h : flaeRoot l with
  | error e => simp [bind, Except.bind]
  | ok lam => simp [bind, Except.bind]

/-- C21: whatever `flae` returns is a unit quaternion. -/
theorem C21_flae_unit {l : List (ℝ × V3 × V3)} {q : V4} (h : flae l = .ok q) : npNorm q = 1 := by
  obtain ⟨lam, _, hq⟩ := flae_eq_ok.1 h
  exact (isUnit4_iff q).1 (nullVector_spec hq).1

/-- C21: with noise-free observations of one attitude `p` and weights summing to one, `flae` either
fails or returns `p` up to sign. -/
theorem C21_flae_exact {l : List (ℝ × V3 × V3)} {p q : V4} (hp : npNorm p = 1)
    (hw : (l.map fun t => t.1).sum = 1)
    (hb : ∀ t ∈ l, t.2.1 ≠ 0 ∧ t.2.2 = sandwich p t.2.1)
    (h : flae l = .ok q) : q = p ∨ q = -p := by
  rw [← isUnit4_iff] at hp
  have hW := wMat_hMat_exact hp hb
  rw [hw, one_smul] at hW
  have hroot : flaeRoot l = .ok 1 := by
    have h0 : quartic 1 (tau1 (hMat l 0) (hMat l 1) (hMat l 2))
      (tau2 (hMat l 0) (hMat l 1) (hMat l 2)) (tau3 (hMat l 0) (hMat l 1) (hMat l 2)) = 0 := by
      rw [← det_wMat]
      apply exists_mulVec_eq_zero_iff.1
      refine ⟨p, ?_, ?_⟩
      · rintro rfl; simp [IsUnit4] at hp
      · rw [sub_mulVec, hW]; simp
    rw [flaeRoot, newton, if_pos h0]
  obtain ⟨lam, h1, hq⟩ := flae_eq_ok.1 h
  rw [hroot] at h1
  cases h1
  obtain ⟨hu, h3, hk⟩ := nullVector_spec hq
  obtain ⟨c, rfl⟩ := hk p (by rw [hW, one_smul])
  have hc : c ^ 2 = 1 := by
    unfold IsUnit4 at hp hu
    simp only [Pi.smul_apply, smul_eq_mul] at hp
    linear_combination hp - c ^ 2 * hu
  rcases sq_eq_sq_iff_eq_or_eq_neg.1 (hc.trans (one_pow 2).symm) with rfl | rfl
  · left; simp
  · right; simp

/-- C21: an attitude whose last component is zero (the identity, or any turn about an axis in the
x-y plane) is never returned; the elimination breaks down on it. -/
theorem C21_flae_fails_without_roll {l : List (ℝ × V3 × V3)} {p : V4} (hp : npNorm p = 1)
    (hp3 : p 3 = 0) (hw : (l.map fun t => t.1).sum = 1)
    (hb : ∀ t ∈ l, t.2.1 ≠ 0 ∧ t.2.2 = sandwich p t.2.1) (q : V4) : flae l ≠ .ok q := by
  intro h
  obtain ⟨lam, h1, hq⟩ := flae_eq_ok.1 h
  have h3 := (nullVector_spec hq).2.1
  rcases C21_flae_exact hp hw hb h with rfl | rfl
  · exact h3 hp3
  · apply h3; simp [hp3]

/-- C21: with non-negative weights summing to one, once the Newton iteration has reached a root the
quaternion returned maximises Wahba's gain over all unit quaternions. -/
theorem C21_flae_optimal {l : List (ℝ × V3 × V3)} {q : V4} {lam : ℝ}
    (ha : ∀ t ∈ l, 0 ≤ t.1) (hw : (l.map fun t => t.1).sum = 1)
    (hlam : flaeRoot l = .ok lam)
    (hroot : quartic lam (tau1 (hMat l 0) (hMat l 1) (hMat l 2))
      (tau2 (hMat l 0) (hMat l 1) (hMat l 2)) (tau3 (hMat l 0) (hMat l 1) (hMat l 2)) = 0)
    (h : flae l = .ok q) (q' : V4) (hq' : npNorm q' = 1) : gain l q' ≤ gain l q := by
  rw [← isUnit4_iff] at hq'
  obtain ⟨lam', h1, hq⟩ := flae_eq_ok.1 h
  rw [hlam] at h1
  cases h1
  set Hx := hMat l 0 with hHx
  set Hy := hMat l 1 with hHy
  set Hz := hMat l 2 with hHz
  have hA := wMat_isHermitian Hx Hy Hz
  -- the largest eigenvalue
  obtain ⟨i, -, hi⟩ := Finset.exists_max_image Finset.univ hA.eigenvalues ⟨0, Finset.mem_univ _⟩
  have hmax : ∀ j, hA.eigenvalues j ≤ hA.eigenvalues i := fun j => hi j (Finset.mem_univ _)
  -- the quartic is the product over the eigenvalues
  have hprod : ∀ x, quartic x (tau1 Hx Hy Hz) (tau2 Hx Hy Hz) (tau3 Hx Hy Hz)
      = ∏ j, (x - hA.eigenvalues j) := by
    intro x
    rw [← det_wMat, ← eval_charpoly, hA.charpoly_eq]
    simp [Polynomial.eval_prod]
  have hroot' : quartic (hA.eigenvalues i) (tau1 Hx Hy Hz) (tau2 Hx Hy Hz) (tau3 Hx Hy Hz) = 0 := by
    rw [hprod]; exact Finset.prod_eq_zero (Finset.mem_univ i) (sub_self _)
  obtain ⟨y, hy, hWy⟩ := exists_eigenvector hroot'
  have hM1 : hA.eigenvalues i ≤ 1 := by
    rw [← form_of_eigen hy hWy, form_hMat, ← hw]
    exact gain_le hy ha
  have hge : hA.eigenvalues i ≤ lam := by
    let σ : Equiv.Perm (Fin 4) := Equiv.swap 0 i
    have hprod' : ∀ x, quartic x (tau1 Hx Hy Hz) (tau2 Hx Hy Hz) (tau3 Hx Hy Hz)
        = (x - hA.eigenvalues (σ 0)) * (x - hA.eigenvalues (σ 1)) * (x - hA.eigenvalues (σ 2))
          * (x - hA.eigenvalues (σ 3)) := by
      intro x
      rw [hprod, ← Equiv.prod_comp σ, Fin.prod_univ_four]
    have hσ : σ 0 = i := Equiv.swap_apply_left 0 i
    have := newton_ge hprod' (by rw [hσ]; exact hmax _) (by rw [hσ]; exact hmax _)
      (by rw [hσ]; exact hmax _) _ _ _ _ lam (by rw [hσ]; exact hM1) hlam
    rwa [hσ] at this
  obtain ⟨hu, -, hk⟩ := nullVector_spec hq
  obtain ⟨z, hz, hWz⟩ := exists_eigenvector hroot
  obtain ⟨c, hc⟩ := hk z hWz
  have hc0 : c ≠ 0 := by rintro rfl; rw [hc] at hz; simp [IsUnit4] at hz
  have hWq : wMat Hx Hy Hz *ᵥ q = lam • q := by
    have : q = c⁻¹ • z := by rw [hc, smul_smul, inv_mul_cancel₀ hc0, one_smul]
    rw [this, mulVec_smul, hWz, smul_comm]
  rw [← form_hMat, ← form_hMat, form_of_eigen hu hWq]
  exact (rayleigh hA hmax (dot_self_of_unit hq')).trans hge

/-- C21: the matrix `flae` builds is symmetric, its quadratic form is Wahba's gain, and the quartic
is its characteristic polynomial. -/
theorem C21_flae_matrix (l : List (ℝ × V3 × V3)) :
    (wMat (hMat l 0) (hMat l 1) (hMat l 2)).IsSymm ∧
    (∀ q, q ⬝ᵥ (wMat (hMat l 0) (hMat l 1) (hMat l 2) *ᵥ q) =
      (l.map fun t => t.1 * (normalizeV t.2.2 ⬝ᵥ sandwich q (normalizeV t.2.1))).sum) ∧
    ∀ x, quartic x (tau1 (hMat l 0) (hMat l 1) (hMat l 2)) (tau2 (hMat l 0) (hMat l 1) (hMat l 2))
      (tau3 (hMat l 0) (hMat l 1) (hMat l 2))
      = (wMat (hMat l 0) (hMat l 1) (hMat l 2)).charpoly.eval x :=
  ⟨wMat_isHermitian _ _ _, form_hMat l, fun x => by rw [eval_charpoly, det_wMat]⟩

/-- C21: when the root is exact the result is an eigenvector for it. -/
theorem C21_flae_eigenvector {l : List (ℝ × V3 × V3)} {q : V4} {lam : ℝ}
    (hlam : flaeRoot l = .ok lam)
    (hroot : (wMat (hMat l 0) (hMat l 1) (hMat l 2)).charpoly.eval lam = 0)
    (h : flae l = .ok q) :
    npNorm q = 1 ∧ wMat (hMat l 0) (hMat l 1) (hMat l 2) *ᵥ q = lam • q := by
  refine ⟨C21_flae_unit h, ?_⟩
  rw [eval_charpoly, det_wMat] at hroot
  obtain ⟨lam', h1, hq⟩ := flae_eq_ok.1 h
  rw [hlam] at h1
  cases h1
  obtain ⟨hu, -, hk⟩ := nullVector_spec hq
  obtain ⟨z, hz, hWz⟩ := exists_eigenvector hroot
  obtain ⟨c, hc⟩ := hk z hWz
  have hc0 : c ≠ 0 := by rintro rfl; rw [hc] at hz; simp [IsUnit4] at hz
  have : q = c⁻¹ • z := by rw [hc, smul_smul, inv_mul_cancel₀ hc0, one_smul]
  rw [this, mulVec_smul, hWz, smul_comm]

/-- A case on which `flae` succeeds: three axes seen after the cyclic permutation of the axes. -/
noncomputable def flaeSample : List (ℝ × V3 × V3) :=
  [(1/3, ![1, 0, 0], ![0, 0, 1]), (1/3, ![0, 1, 0], ![1, 0, 0]), (1/3, ![0, 0, 1], ![0, 1, 0])]

theorem flaeSample_hb : ∀ t ∈ flaeSample, t.2.1 ≠ 0 ∧ t.2.2 = sandwich ![1/2, 1/2, 1/2, 1/2] t.2.1 := by
  intro t ht
  simp only [flaeSample, List.mem_cons, List.not_mem_nil, or_false] at ht
  rcases ht with rfl | rfl | rfl
  · refine ⟨fun h => by simpa using congrFun h 0, ?_⟩
    apply vec3_ext <;> simp [sandwich_0, sandwich_1, sandwich_2] <;> norm_num
  · refine ⟨fun h => by simpa using congrFun h 1, ?_⟩
    apply vec3_ext <;> simp [sandwich_0, sandwich_1, sandwich_2] <;> norm_num
  · refine ⟨fun h => by simpa using congrFun h 2, ?_⟩
    apply vec3_ext <;> simp [sandwich_0, sandwich_1, sandwich_2] <;> norm_num

example : ∃ q, flae flaeSample = .ok q := by
  have hp : IsUnit4 ![1/2, 1/2, 1/2, 1/2] := by simp [IsUnit4]; norm_num
  have hw : (flaeSample.map fun t => t.1).sum = 1 := by simp [flaeSample]; norm_num
  have hW := wMat_hMat_exact hp flaeSample_hb
  rw [hw, one_smul] at hW
  have hroot : flaeRoot flaeSample = .ok 1 := by
    rw [flaeRoot, newton, if_pos]
    rw [← det_wMat]
    apply exists_mulVec_eq_zero_iff.1
    refine ⟨![1/2, 1/2, 1/2, 1/2], ?_, ?_⟩
    · intro h; simpa using congrFun h 0
    · rw [sub_mulVec, hW]; simp
  have n1 : normalizeV (![1, 0, 0] : V3) = ![1, 0, 0] := normalize_of_unit (npNorm_vec3 (by norm_num))
  have n2 : normalizeV (![0, 1, 0] : V3) = ![0, 1, 0] := normalize_of_unit (npNorm_vec3 (by norm_num))
  have n3 : normalizeV (![0, 0, 1] : V3) = ![0, 0, 1] := normalize_of_unit (npNorm_vec3 (by norm_num))
  have hx : hMat flaeSample 0 = ![0, 0, 1/3] := by
    apply vec3_ext <;> simp [hMat, flaeSample, hats, sumAcross, n1, n2, n3]
  have hy : hMat flaeSample 1 = ![1/3, 0, 0] := by
    apply vec3_ext <;> simp [hMat, flaeSample, hats, sumAcross, n1, n2, n3]
  have hz : hMat flaeSample 2 = ![0, 1/3, 0] := by
    apply vec3_ext <;> simp [hMat, flaeSample, hats, sumAcross, n1, n2, n3]
  have e0 : charRows (wMat ![0, 0, 1/3] ![1/3, 0, 0] ![0, 1/3, 0]) 1
      = ![![-1, 1/3, 1/3, 1/3], ![1/3, -1, 1/3, 1/3], ![1/3, 1/3, -1, 1/3], ![1/3, 1/3, 1/3, -1]] := by
    funext i
    fin_cases i <;> apply vec4_ext <;> simp [charRows, wMat]
  have e1 : pivotStep ![![-1, 1/3, 1/3, 1/3], ![1/3, -1, 1/3, 1/3], ![1/3, 1/3, -1, 1/3], ![1/3, 1/3, 1/3, -1]] 0
      = .ok ![![1, -1/3, -1/3, -1/3], ![0, -8/9, 4/9, 4/9], ![0, 4/9, -8/9, 4/9], ![0, 4/9, 4/9, -8/9]] := by
    rw [pivotStep, if_neg (by simp)]
    apply congrArg Except.ok; funext i
    fin_cases i <;> apply vec4_ext <;> simp <;> norm_num
  have e2 : pivotStep ![![1, -1/3, -1/3, -1/3], ![0, -8/9, 4/9, 4/9], ![0, 4/9, -8/9, 4/9], ![0, 4/9, 4/9, -8/9]] 1
      = .ok ![![1, 0, -1/2, -1/2], ![0, 1, -1/2, -1/2], ![0, 0, -2/3, 2/3], ![0, 0, 2/3, -2/3]] := by
    rw [pivotStep, if_neg (by simp)]
    apply congrArg Except.ok; funext i
    fin_cases i <;> apply vec4_ext <;> simp <;> norm_num
  have e3 : pivotStep ![![1, 0, -1/2, -1/2], ![0, 1, -1/2, -1/2], ![0, 0, -2/3, 2/3], ![0, 0, 2/3, -2/3]] 2
      = .ok ![![1, 0, 0, -1], ![0, 1, 0, -1], ![0, 0, 1, -1], ![0, 0, 0, 0]] := by
    rw [pivotStep, if_neg (by simp)]
    apply congrArg Except.ok; funext i
    fin_cases i <;> apply vec4_ext <;> simp <;> norm_num
  refine ⟨normalizeV ![-1, -1, -1, -1], flae_eq_ok.2 ⟨1, hroot, ?_⟩⟩
  · rw [hx, hy, hz, nullVector, e0]
    simp only [e1, e2, e3, bind, Except.bind, pure, Except.pure]
    rfl

end Adcs
