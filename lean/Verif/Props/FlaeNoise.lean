import Verif.Proofs.FlaeNoise
import Verif.Props.Estimators

set_option autoImplicit false

/-! # C174 and C175: what `flae` makes of observations that do not agree, and of weights that do not add up to one

`gain l q` is Wahba's weighted sum of cosines. For unit quaternions `q`, `u` the number `1 - (q ⬝ᵥ u) ^ 2` is the
square of the sine of half the angle between the attitudes. -/

namespace Adcs

open Vec Quat AttEst Matrix

/-- The attitude that explains the observations best. -/
structure Spec.Best (l : List (ℝ × V3 × V3)) (u : V4) : Prop where
  unit : npNorm u = 1
  max : ∀ y, npNorm y = 1 → gain l y ≤ gain l u

/-- Attitudes half a turn away explain the observations less well, by at least `d`. -/
def Spec.Gap (l : List (ℝ × V3 × V3)) (u : V4) (d : ℝ) : Prop :=
  ∀ y, npNorm y = 1 → y ⬝ᵥ u = 0 → gain l y ≤ gain l u - d

/-- Weights as `flae` needs them. -/
structure Spec.Weights (l : List (ℝ × V3 × V3)) : Prop where
  nonneg : ∀ t ∈ l, 0 ≤ t.1
  sum_le : (l.map fun t => t.1).sum ≤ 1

open Spec

/-! ### The matrix -/

/-- The matrix of `flae`. -/
noncomputable def flaeW (l : List (ℝ × V3 × V3)) : Matrix (Fin 4) (Fin 4) ℝ := wMat (hMat l 0) (hMat l 1) (hMat l 2)

theorem flaeW_form (l : List (ℝ × V3 × V3)) (q : V4) : q ⬝ᵥ (flaeW l *ᵥ q) = gain l q := form_hMat l q

theorem flaeW_symm (l : List (ℝ × V3 × V3)) : (flaeW l).IsSymm := wMat_isHermitian _ _ _

theorem unit_dot {y : V4} (h : npNorm y = 1) : y ⬝ᵥ y = 1 := dot_self_of_unit ((isUnit4_iff y).2 h)

theorem unit_of_dot {y : V4} (h : y ⬝ᵥ y = 1) : npNorm y = 1 := by
  rw [npNorm_eq_one]
  simpa [dotProduct, sq] using h

/-- A bound of the gain, for vectors of any length. -/
theorem gain_form_le {l : List (ℝ × V3 × V3)} {m : ℝ} {P : V4 → Prop} (hP : ∀ (c : ℝ) (y : V4), P y → P (c • y))
    (h : ∀ y, npNorm y = 1 → P y → gain l y ≤ m) (y : V4) (hy : P y) : y ⬝ᵥ (flaeW l *ᵥ y) ≤ m * (y ⬝ᵥ y) := by
  by_cases h0 : y = 0
  · simp [h0]
  have hn := npNorm_pos h0
  set u : V4 := (npNorm y)⁻¹ • y with hu
  have hu1 : npNorm u = 1 := by rw [hu, ← normalize_eq h0]; exact npNorm_normalize h0
  have hyu : y = npNorm y • u := by rw [hu, smul_smul, mul_inv_cancel₀ hn.ne', one_smul]
  have := h u hu1 (hP _ _ hy)
  rw [← flaeW_form] at this
  have e : y ⬝ᵥ (flaeW l *ᵥ y) = npNorm y ^ 2 * (u ⬝ᵥ (flaeW l *ᵥ u)) := by
    conv_lhs => rw [hyu]
    rw [mulVec_smul, smul_dotProduct, dotProduct_smul]
    simp only [smul_eq_mul]; ring
  have e2 : y ⬝ᵥ y = npNorm y ^ 2 := (npNorm_sq_dot y).symm
  rw [e, e2, mul_comm m]
  exact mul_le_mul_of_nonneg_left this (by positivity)

theorem best_eigen {l : List (ℝ × V3 × V3)} {u : V4} (hu : Best l u) : flaeW l *ᵥ u = gain l u • u := by
  refine eigen_of_max (flaeW_symm l) (fun y => ?_) ?_
  · exact gain_form_le (P := fun _ => True) (fun _ _ h => h) (fun y hy _ => hu.max y hy) y trivial
  · rw [flaeW_form, unit_dot hu.unit, mul_one]

theorem gap_form {l : List (ℝ × V3 × V3)} {u : V4} {d : ℝ} (hg : Gap l u d) (y : V4) (hy : y ⬝ᵥ u = 0) :
    y ⬝ᵥ (flaeW l *ᵥ y) ≤ (gain l u - d) * (y ⬝ᵥ y) :=
  gain_form_le (P := fun y => y ⬝ᵥ u = 0) (fun c y h => by rw [smul_dotProduct, h, smul_zero]) hg y hy

/-- The roots of the quartic. -/
theorem flae_roots {l : List (ℝ × V3 × V3)} {u : V4} {d : ℝ} (hl : Weights l) (hu : Best l u) (hg : Gap l u d)
    (hd : 0 ≤ d) : ∃ l1 l2 l3, (∀ x, quartic x (tau1 (hMat l 0) (hMat l 1) (hMat l 2))
      (tau2 (hMat l 0) (hMat l 1) (hMat l 2)) (tau3 (hMat l 0) (hMat l 1) (hMat l 2))
        = (x - gain l u) * (x - l1) * (x - l2) * (x - l3)) ∧
      l1 ≤ gain l u - d ∧ l2 ≤ gain l u - d ∧ l3 ≤ gain l u - d ∧ 0 ≤ gain l u ∧ gain l u ≤ 1 := by
  have hA : (flaeW l).IsHermitian := flaeW_symm l
  obtain ⟨i, -, hi⟩ := Finset.exists_max_image Finset.univ hA.eigenvalues ⟨0, Finset.mem_univ _⟩
  have hmax : ∀ j, hA.eigenvalues j ≤ hA.eigenvalues i := fun j => hi j (Finset.mem_univ _)
  have htop : hA.eigenvalues i = gain l u := by
    apply le_antisymm
    · obtain ⟨v, ho, hv⟩ := eigenbasis hA
      have h1 : v i ⬝ᵥ v i = 1 := by rw [ho, if_pos rfl]
      have := hu.max (v i) (unit_of_dot h1)
      rw [← flaeW_form, hv, dotProduct_smul, h1] at this
      simpa using this
    · rw [← flaeW_form]
      exact rayleigh hA hmax (unit_dot hu.unit)
  have hle : ∀ j, j ≠ i → hA.eigenvalues j ≤ gain l u - d := by
    intro j hj
    refine eigenvalue_le hA (p := u) (fun y hy hyu => ?_) hmax hj
    rw [flaeW_form]
    exact hg y (unit_of_dot hy) hyu
  have hprod : ∀ x, quartic x (tau1 (hMat l 0) (hMat l 1) (hMat l 2)) (tau2 (hMat l 0) (hMat l 1) (hMat l 2))
      (tau3 (hMat l 0) (hMat l 1) (hMat l 2)) = ∏ j, (x - hA.eigenvalues j) := by
    intro x
    rw [← det_wMat, ← eval_charpoly]
    change (flaeW l).charpoly.eval x = _
    rw [hA.charpoly_eq]
    simp [Polynomial.eval_prod]
  let σ : Equiv.Perm (Fin 4) := Equiv.swap 0 i
  have hσ : σ 0 = i := Equiv.swap_apply_left 0 i
  have hne : ∀ k : Fin 4, k ≠ 0 → σ k ≠ i := fun k hk h => hk (σ.injective (h.trans hσ.symm))
  have hf : ∀ x, quartic x (tau1 (hMat l 0) (hMat l 1) (hMat l 2)) (tau2 (hMat l 0) (hMat l 1) (hMat l 2))
      (tau3 (hMat l 0) (hMat l 1) (hMat l 2))
        = (x - gain l u) * (x - hA.eigenvalues (σ 1)) * (x - hA.eigenvalues (σ 2)) * (x - hA.eigenvalues (σ 3)) := by
    intro x
    rw [hprod, ← Equiv.prod_comp σ, Fin.prod_univ_four, hσ, htop]
  refine ⟨_, _, _, hf, hle _ (hne 1 (by decide)), hle _ (hne 2 (by decide)), hle _ (hne 3 (by decide)), ?_, ?_⟩
  · have h1 := hle _ (hne 1 (by decide))
    have h2 := hle _ (hne 2 (by decide))
    have h3 := hle _ (hne 3 (by decide))
    have := (quartic_roots hf).1
    linarith
  · exact (gain_le ((isUnit4_iff u).2 hu.unit) hl.nonneg).trans hl.sum_le

/-- The root that `flae` works with. -/
theorem flaeRoot_near {l : List (ℝ × V3 × V3)} {u : V4} {d lam : ℝ} (hl : Weights l) (hu : Best l u) (hg : Gap l u d)
    (hd : 0 < d) (h : flaeRoot l = .ok lam) :
    gain l u ≤ lam ∧ lam - gain l u ≤ 5e-9 / d ∧ (gain l u < 1 → gain l u < lam) ∧ (gain l u = 1 → lam = 1) := by
  obtain ⟨l1, l2, l3, hf, h1, h2, h3, h0, hle⟩ := flae_roots hl hu hg hd.le
  obtain ⟨c1, c2, c3⟩ := newton_close hf hd h1 h2 h3 4 hle le_rfl h0 h
  refine ⟨?_, c1, c2, fun h => ?_⟩
  · exact newton_ge hf (by linarith) (by linarith) (by linarith) _ _ _ _ lam hle h
  · rw [c3 h.symm, h]

theorem flae_parts {l : List (ℝ × V3 × V3)} {q : V4} {lam : ℝ} (h : nullVector (flaeW l) lam = .ok q) (y : V4) :
    y ⬝ᵥ (lam • q - flaeW l *ᵥ q) = y 3 * (lam * q 3 - (flaeW l *ᵥ q) 3) := by
  have r := nullVector_rows h
  simp only [dotProduct, Fin.sum_univ_four, Pi.sub_apply, Pi.smul_apply, smul_eq_mul, r 0 (by decide),
    r 1 (by decide), r 2 (by decide)]
  ring

theorem flae_alpha {l : List (ℝ × V3 × V3)} {u q : V4} {lam : ℝ} (hu : Best l u)
    (h : nullVector (flaeW l) lam = .ok q) :
    (lam - gain l u) * (q ⬝ᵥ u) = u 3 * (lam * q 3 - (flaeW l *ᵥ q) 3) := by
  rw [← flae_parts h u, dotProduct_sub, dotProduct_smul, symm_dot (flaeW_symm l), best_eigen hu, smul_dotProduct,
    smul_eq_mul, smul_eq_mul, dotProduct_comm u q]
  ring

theorem sq_coord_le (z : V4) : z 3 ^ 2 ≤ z ⬝ᵥ z := by
  simp only [dotProduct, Fin.sum_univ_four]
  nlinarith [sq_nonneg (z 0), sq_nonneg (z 1), sq_nonneg (z 2)]

/-- The direction across the best attitude is suppressed. -/
theorem flae_beta {l : List (ℝ × V3 × V3)} {u q : V4} {d lam : ℝ} (hu : Best l u) (hg : Gap l u d) (hd : 0 < d)
    (hlam : gain l u ≤ lam) (hq : npNorm q = 1) (h : nullVector (flaeW l) lam = .ok q) :
    d ^ 2 * (1 - (q ⬝ᵥ u) ^ 2) ≤ (lam * q 3 - (flaeW l *ᵥ q) 3) ^ 2 := by
  set z := q - (q ⬝ᵥ u) • u with hz
  have hzu : z ⬝ᵥ u = 0 := by
    rw [hz, sub_dotProduct, smul_dotProduct, unit_dot hu.unit]; simp
  have hzz : z ⬝ᵥ z = 1 - (q ⬝ᵥ u) ^ 2 := by
    have : z ⬝ᵥ z = z ⬝ᵥ q := by
      conv_lhs => rw [hz, dotProduct_sub, dotProduct_smul, ← hz, hzu]
      simp
    rw [this, hz, sub_dotProduct, smul_dotProduct, unit_dot hq, dotProduct_comm u q, smul_eq_mul]
    ring
  have hzq : z ⬝ᵥ q = z ⬝ᵥ z := by
    have hq' : q = z + (q ⬝ᵥ u) • u := by rw [hz]; abel
    conv_lhs => rw [hq', dotProduct_add, dotProduct_smul, hzu]
    simp
  have hzWq : z ⬝ᵥ (flaeW l *ᵥ q) = z ⬝ᵥ (flaeW l *ᵥ z) := by
    have hq' : q = z + (q ⬝ᵥ u) • u := by rw [hz]; abel
    conv_lhs => rw [hq', mulVec_add, mulVec_smul, best_eigen hu, dotProduct_add, dotProduct_smul, dotProduct_smul, hzu]
    simp
  have e := flae_parts h z
  rw [dotProduct_sub, dotProduct_smul, hzq, hzWq, smul_eq_mul] at e
  have hb := gap_form hg z hzu
  set ρ := lam * q 3 - (flaeW l *ᵥ q) 3 with hρ
  have hz0 : 0 ≤ z ⬝ᵥ z := by
    simp only [dotProduct]; exact Finset.sum_nonneg fun i _ => mul_self_nonneg _
  rw [← hzz]
  have h1 : d * (z ⬝ᵥ z) ≤ z 3 * ρ := by
    have := mul_le_mul_of_nonneg_right hlam hz0
    linarith
  have h2 := sq_coord_le z
  rcases hz0.lt_or_eq with hpos | h0
  · have h3 : (d * (z ⬝ᵥ z)) ^ 2 ≤ (z 3 * ρ) ^ 2 := pow_le_pow_left₀ (by positivity) h1 2
    have h4 : (z 3 * ρ) ^ 2 ≤ (z ⬝ᵥ z) * ρ ^ 2 := by
      rw [mul_pow]; exact mul_le_mul_of_nonneg_right h2 (sq_nonneg _)
    have h5 : (z ⬝ᵥ z) * (d ^ 2 * (z ⬝ᵥ z)) ≤ (z ⬝ᵥ z) * ρ ^ 2 := by
      calc (z ⬝ᵥ z) * (d ^ 2 * (z ⬝ᵥ z)) = (d * (z ⬝ᵥ z)) ^ 2 := by ring
        _ ≤ _ := h3.trans h4
    exact le_of_mul_le_mul_left h5 hpos
  · rw [← h0, mul_zero]; positivity

/-! ### C174 -/

/-- C174, what holds: whatever `flae` returns is near the best attitude `u`, to `5e-9 / d ^ 2` divided by the last
component of `u`. Missing: attitudes without a last component, like the identity (`C174_near_fails`). -/
theorem C174_near_partial {l : List (ℝ × V3 × V3)} {u q : V4} {d : ℝ} (hl : Weights l) (hu : Best l u) (hg : Gap l u d)
    (hd : 0 < d) (h : flae l = .ok q) : npNorm q = 1 ∧ q 3 < 0 ∧ u 3 ^ 2 * (1 - (q ⬝ᵥ u) ^ 2) ≤ (5e-9 / d ^ 2) ^ 2 := by
  obtain ⟨lam, hr, hq⟩ := flae_eq_ok.1 h
  have hq1 := C21_flae_unit h
  refine ⟨hq1, nullVector_neg hq, ?_⟩
  obtain ⟨h1, h2, -, -⟩ := flaeRoot_near hl hu hg hd hr
  have ha := flae_alpha hu hq
  have hb := flae_beta hu hg hd h1 hq1 hq
  set ρ := lam * q 3 - (flaeW l *ᵥ q) 3 with hρ
  have hcs : (q ⬝ᵥ u) ^ 2 ≤ 1 := by
    by_contra hc
    have hz : (q - (q ⬝ᵥ u) • u) ⬝ᵥ (q - (q ⬝ᵥ u) • u) = 1 - (q ⬝ᵥ u) ^ 2 := by
      simp only [sub_dotProduct, dotProduct_sub, smul_dotProduct, dotProduct_smul, unit_dot hq1, unit_dot hu.unit,
        dotProduct_comm u q, smul_eq_mul]
      ring
    have : 0 ≤ (q - (q ⬝ᵥ u) • u) ⬝ᵥ (q - (q ⬝ᵥ u) • u) := by
      simp only [dotProduct]; exact Finset.sum_nonneg fun i _ => mul_self_nonneg _
    linarith
  have h3 : (lam - gain l u) ^ 2 ≤ (5e-9 / d) ^ 2 := pow_le_pow_left₀ (by linarith) h2 2
  have h4 : u 3 ^ 2 * ρ ^ 2 ≤ (5e-9 / d) ^ 2 := by
    calc u 3 ^ 2 * ρ ^ 2 = (u 3 * ρ) ^ 2 := by ring
      _ = (lam - gain l u) ^ 2 * (q ⬝ᵥ u) ^ 2 := by rw [← ha]; ring
      _ ≤ (lam - gain l u) ^ 2 * 1 := mul_le_mul_of_nonneg_left hcs (sq_nonneg _)
      _ ≤ _ := by rw [mul_one]; exact h3
  have h5 : d ^ 2 * (u 3 ^ 2 * (1 - (q ⬝ᵥ u) ^ 2)) ≤ (5e-9 / d) ^ 2 := by
    calc d ^ 2 * (u 3 ^ 2 * (1 - (q ⬝ᵥ u) ^ 2)) = u 3 ^ 2 * (d ^ 2 * (1 - (q ⬝ᵥ u) ^ 2)) := by ring
      _ ≤ u 3 ^ 2 * ρ ^ 2 := mul_le_mul_of_nonneg_left hb (sq_nonneg _)
      _ ≤ _ := h4
  have e : ((5e-9 : ℝ) / d ^ 2) ^ 2 = (5e-9 / d) ^ 2 / d ^ 2 := by field_simp
  rw [e, le_div_iff₀ (by positivity)]
  linarith

/-- When it returns: if the best attitude explains the observations well enough, `flae` fails only where they agree
exactly and the best attitude has no last component. -/
theorem C174_returns {l : List (ℝ × V3 × V3)} {u : V4} {d : ℝ} (hl : Weights l) (hu : Best l u) (hg : Gap l u d)
    (hd : 0 < d) (hloss : 1 - gain l u ≤ d / 10) : (∃ q, flae l = .ok q) ↔ gain l u < 1 ∨ u 3 ≠ 0 := by
  obtain ⟨l1, l2, l3, hf, h1, h2, h3, h0, hle⟩ := flae_roots hl hu hg hd.le
  obtain ⟨lam, hlam⟩ : ∃ lam, flaeRoot l = .ok lam := newton_returns hf hd h1 h2 h3 hle hloss
  obtain ⟨r1, -, r3, r4⟩ := flaeRoot_near hl hu hg hd hlam
  constructor
  · rintro ⟨q, hq⟩
    by_contra hc
    rw [not_or, not_lt, not_not] at hc
    have h1 : gain l u = 1 := le_antisymm hle hc.1
    obtain ⟨lam', hl', hn⟩ := flae_eq_ok.1 hq
    rw [hlam] at hl'
    cases hl'
    rw [r4 h1] at hn
    obtain ⟨-, hq3, hk⟩ := nullVector_spec hn
    obtain ⟨c, hc'⟩ := hk u (by have := best_eigen hu; rw [h1] at this; exact this)
    have : c * q 3 = 0 := by rw [← hc.2, hc']; rfl
    have hc0 : c = 0 := (mul_eq_zero.1 this).resolve_right hq3
    have := unit_dot hu.unit
    rw [hc', hc0] at this
    simp at this
  · intro h
    have hW := best_eigen hu
    suffices ∃ q, nullVector (flaeW l) lam = .ok q by
      obtain ⟨q, hq⟩ := this
      exact ⟨q, flae_eq_ok.2 ⟨lam, hlam, hq⟩⟩
    refine nullVector_ok (flaeW_symm l) fun y hy hy3 => ?_
    have hyy : 0 < y ⬝ᵥ y := by
      have := npNorm_pos hy
      rw [← npDot_eq_dotProduct, ← npNorm_sq_dot]
      positivity
    have hle' : y ⬝ᵥ (flaeW l *ᵥ y) ≤ gain l u * (y ⬝ᵥ y) :=
      gain_form_le (P := fun _ => True) (fun _ _ h => h) (fun y hy _ => hu.max y hy) y trivial
    rcases h with h | h
    · have := mul_lt_mul_of_pos_right (r3 h) hyy
      linarith
    · -- the part of `y` across `u`
      set z := y - (y ⬝ᵥ u) • u with hz
      have hzu : z ⬝ᵥ u = 0 := by
        rw [hz, sub_dotProduct, smul_dotProduct, unit_dot hu.unit]; simp
      have hyz : y = z + (y ⬝ᵥ u) • u := by rw [hz]; abel
      have huz : u ⬝ᵥ z = 0 := by rw [dotProduct_comm, hzu]
      have hzz : 0 < z ⬝ᵥ z := by
        have hn : 0 ≤ z ⬝ᵥ z := by
          simp only [dotProduct]; exact Finset.sum_nonneg fun i _ => mul_self_nonneg _
        refine lt_of_le_of_ne hn fun h0 => ?_
        have hz0 : z = 0 := dotProduct_self_eq_zero.1 h0.symm
        rw [hz0, zero_add] at hyz
        have h3 : (y ⬝ᵥ u) * u 3 = 0 := by
          rw [← hy3]; conv_rhs => rw [hyz]
          rfl
        rcases mul_eq_zero.1 h3 with h3 | h3
        · rw [h3, zero_smul] at hyz; exact hy hyz
        · exact h h3
      have huWz : u ⬝ᵥ (flaeW l *ᵥ z) = 0 := by
        rw [symm_dot (flaeW_symm l), hW, smul_dotProduct, huz, smul_zero]
      have e1 : y ⬝ᵥ (flaeW l *ᵥ y) = z ⬝ᵥ (flaeW l *ᵥ z) + (y ⬝ᵥ u) ^ 2 * gain l u := by
        generalize y ⬝ᵥ u = c at *
        rw [hyz]
        simp only [mulVec_add, mulVec_smul, add_dotProduct, dotProduct_add, smul_dotProduct, dotProduct_smul, huWz, hW,
          hzu, unit_dot hu.unit, smul_eq_mul]
        ring
      have e2 : y ⬝ᵥ y = z ⬝ᵥ z + (y ⬝ᵥ u) ^ 2 := by
        generalize y ⬝ᵥ u = c at *
        rw [hyz]
        simp only [add_dotProduct, dotProduct_add, smul_dotProduct, dotProduct_smul, hzu, huz, unit_dot hu.unit,
          smul_eq_mul]
        ring
      have hb := gap_form hg z hzu
      rw [e1]
      have h6 := mul_le_mul_of_nonneg_right r1 hyy.le
      have h7 : 0 < d * (z ⬝ᵥ z) := by positivity
      rw [e2] at h6 ⊢
      linarith

/-- Where the best attitude has no last component (like the identity) and the observations do not agree exactly, what
`flae` returns is half a turn away from the best attitude. -/
theorem C174_half_turn {l : List (ℝ × V3 × V3)} {u q : V4} {d : ℝ} (hl : Weights l) (hu : Best l u) (hg : Gap l u d)
    (hd : 0 < d) (hloss : gain l u < 1) (h3 : u 3 = 0) (h : flae l = .ok q) : q ⬝ᵥ u = 0 := by
  obtain ⟨lam, hr, hq⟩ := flae_eq_ok.1 h
  obtain ⟨-, -, r3, -⟩ := flaeRoot_near hl hu hg hd hr
  have := flae_alpha hu hq
  rw [h3, zero_mul] at this
  exact (mul_eq_zero.1 this).resolve_left (by have := r3 hloss; linarith)

/-- C174: if one attitude explains the observations clearly better than all that are half a turn away from it, `flae`
returns an attitude within a quarter turn of it. -/
def C174_claim : Prop :=
  ∀ (l : List (ℝ × V3 × V3)) (u : V4) (d : ℝ), (∀ t ∈ l, 0 ≤ t.1) → (l.map fun t => t.1).sum = 1 →
    (∀ t ∈ l, t.2.1 ≠ 0 ∧ t.2.2 ≠ 0) → Best l u → Gap l u d → 0 < d → 1 - gain l u ≤ d / 10 →
      ∃ q, flae l = .ok q ∧ 1 / 2 ≤ (q ⬝ᵥ u) ^ 2

/-- A satellite in its reference attitude; its two sensors are off by 0.2 rad about z, one to each side. -/
noncomputable def flaeNoisy : List (ℝ × V3 × V3) :=
  [(1/2, ![1, 0, 0], ![99/101, 20/101, 0]), (1/2, ![0, 1, 0], ![20/101, 99/101, 0])]

theorem flaeNoisy_gain (q : V4) : gain flaeNoisy q
    = 99/101 * q 0 ^ 2 + 20/101 * (2 * q 1 * q 2) - 99/101 * q 3 ^ 2 := by
  have n1 : normalizeV (![1, 0, 0] : V3) = ![1, 0, 0] := normalize_of_unit (npNorm_vec3 (by norm_num))
  have n2 : normalizeV (![0, 1, 0] : V3) = ![0, 1, 0] := normalize_of_unit (npNorm_vec3 (by norm_num))
  have n3 : normalizeV (![99/101, 20/101, 0] : V3) = ![99/101, 20/101, 0] :=
    normalize_of_unit (npNorm_vec3 (by norm_num))
  have n4 : normalizeV (![20/101, 99/101, 0] : V3) = ![20/101, 99/101, 0] :=
    normalize_of_unit (npNorm_vec3 (by norm_num))
  simp [gain, flaeNoisy, n1, n2, n3, n4, npDot3, sandwich_0, sandwich_1, sandwich_2]
  ring

theorem flaeNoisy_weights : Weights flaeNoisy := by
  constructor
  · intro t ht
    simp only [flaeNoisy, List.mem_cons, List.not_mem_nil, or_false] at ht
    rcases ht with rfl | rfl <;> norm_num
  · simp [flaeNoisy]; norm_num

theorem flaeNoisy_best : Best flaeNoisy ![1, 0, 0, 0] ∧ Gap flaeNoisy ![1, 0, 0, 0] (79/101) ∧
    gain flaeNoisy ![1, 0, 0, 0] = 99/101 := by
  have h0 : gain flaeNoisy ![1, 0, 0, 0] = 99/101 := by rw [flaeNoisy_gain]; simp
  refine ⟨⟨npNorm_vec4 (by norm_num), fun y hy => ?_⟩, fun y hy hyu => ?_, h0⟩
  · rw [h0, flaeNoisy_gain]
    have := (isUnit4_iff y).2 hy
    unfold IsUnit4 at this
    nlinarith [sq_nonneg (y 1 - y 2), sq_nonneg (y 1), sq_nonneg (y 2), sq_nonneg (y 3)]
  · rw [h0, flaeNoisy_gain]
    have := (isUnit4_iff y).2 hy
    unfold IsUnit4 at this
    have hy0 : y 0 = 0 := by simpa [dotProduct, Fin.sum_univ_four] using hyu
    rw [hy0] at this ⊢
    nlinarith [sq_nonneg (y 1 - y 2), sq_nonneg (y 1), sq_nonneg (y 2), sq_nonneg (y 3)]

/-- C174 fails: two sensors that are off by 0.2 rad in opposite directions, about the reference attitude. The answer
is half a turn off. -/
theorem C174_near_fails : ¬ C174_claim := by
  intro h
  obtain ⟨hb, hg, h0⟩ := flaeNoisy_best
  obtain ⟨q, hq, hd⟩ := h flaeNoisy ![1, 0, 0, 0] (79/101) flaeNoisy_weights.nonneg (by simp [flaeNoisy]; norm_num)
    (by
      intro t ht
      simp only [flaeNoisy, List.mem_cons, List.not_mem_nil, or_false] at ht
      rcases ht with rfl | rfl
      · exact ⟨fun h => by simpa using congrFun h 0, fun h => by simpa using congrFun h 0⟩
      · exact ⟨fun h => by simpa using congrFun h 1, fun h => by simpa using congrFun h 0⟩)
    hb hg (by norm_num) (by rw [h0]; norm_num)
  rw [C174_half_turn flaeNoisy_weights hb hg (by norm_num) (by rw [h0]; norm_num) rfl hq] at hd
  norm_num at hd

/-- The same sensors in an attitude that has a last component. -/
noncomputable def flaeTurned : List (ℝ × V3 × V3) :=
  [(1/2, ![1, 0, 0], ![20/101, 0, 99/101]), (1/2, ![0, 1, 0], ![99/101, 0, 20/101])]

theorem flaeTurned_gain (q : V4) : gain flaeTurned q
    = 99/101 * ((q 0 + q 1 + q 2 + q 3) / 2) ^ 2
      + 20/101 * (2 * ((q 0 - q 1 - q 2 + q 3) / 2) * ((q 0 - q 1 + q 2 - q 3) / 2))
      - 99/101 * ((q 0 + q 1 - q 2 - q 3) / 2) ^ 2 := by
  have n1 : normalizeV (![1, 0, 0] : V3) = ![1, 0, 0] := normalize_of_unit (npNorm_vec3 (by norm_num))
  have n2 : normalizeV (![0, 1, 0] : V3) = ![0, 1, 0] := normalize_of_unit (npNorm_vec3 (by norm_num))
  have n3 : normalizeV (![20/101, 0, 99/101] : V3) = ![20/101, 0, 99/101] :=
    normalize_of_unit (npNorm_vec3 (by norm_num))
  have n4 : normalizeV (![99/101, 0, 20/101] : V3) = ![99/101, 0, 20/101] :=
    normalize_of_unit (npNorm_vec3 (by norm_num))
  simp [gain, flaeTurned, n1, n2, n3, n4, npDot3, sandwich_0, sandwich_1, sandwich_2]
  ring

/-- A case of `C174_near_partial` and `C174_returns`. -/
example : Weights flaeTurned ∧ Best flaeTurned ![1/2, 1/2, 1/2, 1/2] ∧ Gap flaeTurned ![1/2, 1/2, 1/2, 1/2] (79/101) ∧
    1 - gain flaeTurned ![1/2, 1/2, 1/2, 1/2] ≤ 79/101 / 10 ∧ ∃ q, flae flaeTurned = .ok q := by
  have hw : Weights flaeTurned := by
    constructor
    · intro t ht
      simp only [flaeTurned, List.mem_cons, List.not_mem_nil, or_false] at ht
      rcases ht with rfl | rfl <;> norm_num
    · simp [flaeTurned]; norm_num
  have h0 : gain flaeTurned ![1/2, 1/2, 1/2, 1/2] = 99/101 := by rw [flaeTurned_gain]; simp; norm_num
  have hb : Best flaeTurned ![1/2, 1/2, 1/2, 1/2] := by
    refine ⟨npNorm_vec4 (by norm_num), fun y hy => ?_⟩
    rw [h0, flaeTurned_gain]
    have := (isUnit4_iff y).2 hy
    unfold IsUnit4 at this
    nlinarith [sq_nonneg (y 0 - y 1 - y 2 + y 3 - (y 0 - y 1 + y 2 - y 3)), sq_nonneg (y 0 - y 1 - y 2 + y 3),
      sq_nonneg (y 0 - y 1 + y 2 - y 3), sq_nonneg (y 0 + y 1 - y 2 - y 3)]
  have hg : Gap flaeTurned ![1/2, 1/2, 1/2, 1/2] (79/101) := by
    intro y hy hyu
    rw [h0, flaeTurned_gain]
    have := (isUnit4_iff y).2 hy
    unfold IsUnit4 at this
    have hy0 : (y 0 + y 1 + y 2 + y 3) / 2 = 0 := by
      simp [dotProduct, Fin.sum_univ_four] at hyu; linarith
    rw [hy0]
    have e : (y 0 + y 1 + y 2 + y 3) ^ 2 = 0 := by
      have : y 0 + y 1 + y 2 + y 3 = 0 := by linarith
      rw [this]; norm_num
    nlinarith [sq_nonneg (y 0 - y 1 - y 2 + y 3 - (y 0 - y 1 + y 2 - y 3)), sq_nonneg (y 0 - y 1 - y 2 + y 3),
      sq_nonneg (y 0 - y 1 + y 2 - y 3), sq_nonneg (y 0 + y 1 - y 2 - y 3)]
  have hloss : 1 - gain flaeTurned ![1/2, 1/2, 1/2, 1/2] ≤ 79/101 / 10 := by rw [h0]; norm_num
  exact ⟨hw, hb, hg, hloss, (C174_returns hw hb hg (by norm_num) hloss).2 (Or.inl (by rw [h0]; norm_num))⟩

/-- A best attitude always exists. -/
theorem C174_best_exists (l : List (ℝ × V3 × V3)) : ∃ u, Best l u := by
  have hA : (flaeW l).IsHermitian := flaeW_symm l
  obtain ⟨i, -, hi⟩ := Finset.exists_max_image Finset.univ hA.eigenvalues ⟨0, Finset.mem_univ _⟩
  obtain ⟨v, ho, hv⟩ := eigenbasis hA
  have h1 : v i ⬝ᵥ v i = 1 := by rw [ho, if_pos rfl]
  refine ⟨v i, unit_of_dot h1, fun y hy => ?_⟩
  rw [← flaeW_form l (v i), hv, dotProduct_smul, h1, smul_eq_mul, mul_one, ← flaeW_form]
  exact rayleigh hA (fun j => hi j (Finset.mem_univ _)) (unit_dot hy)

/-! ### How far noise moves the best attitude -/

/-- What exact sensors would have seen in the attitude `p`. -/
noncomputable def Spec.exactObs (p : V4) (l : List (ℝ × V3 × V3)) : List (ℝ × V3 × V3) :=
  l.map fun t => (t.1, t.2.1, sandwich p t.2.1)

/-- The sensors see the directions of the attitude `p`, with errors of at most `η` (as chords of the unit sphere). -/
structure Spec.Noisy (l : List (ℝ × V3 × V3)) (p : V4) (η : ℝ) : Prop where
  unit : npNorm p = 1
  nonneg : ∀ t ∈ l, 0 ≤ t.1
  sum : (l.map fun t => t.1).sum = 1
  near : ∀ t ∈ l, t.2.1 ≠ 0 ∧ t.2.2 ≠ 0 ∧ npNorm (normalizeV t.2.2 - sandwich p (normalizeV t.2.1)) ≤ η

theorem list_abs_sum_le {α : Type} (l : List α) (f g a : α → ℝ) {η : ℝ}
    (h : ∀ t ∈ l, |f t - g t| ≤ a t * η) : |(l.map f).sum - (l.map g).sum| ≤ (l.map a).sum * η := by
  induction l with
  | nil => simp
  | cons t l ih =>
    have h1 := h t (by simp)
    have h2 := ih fun s hs => h s (List.mem_cons_of_mem _ hs)
    simp only [List.map_cons, List.sum_cons]
    rw [abs_le] at *
    constructor <;> linarith

theorem npDot_le_mul (u w : V3) (hw : npNorm w = 1) {η : ℝ} (hη : npNorm u ≤ η) : |npDot u w| ≤ η := by
  have h1 := npNorm3_sq u
  have h2 := npNorm3_sq w
  rw [hw] at h2
  have hn := npNorm_nonneg u
  rw [npDot3]
  have : (u 0 * w 0 + u 1 * w 1 + u 2 * w 2) ^ 2 ≤ npNorm u ^ 2 := by
    nlinarith [sq_nonneg (u 0 * w 1 - u 1 * w 0), sq_nonneg (u 0 * w 2 - u 2 * w 0), sq_nonneg (u 1 * w 2 - u 2 * w 1)]
  exact (abs_le_of_sq_le_sq this hn).trans hη

theorem noisy_gain {l : List (ℝ × V3 × V3)} {p : V4} {η : ℝ} (hn : Noisy l p η) {y : V4} (hy : npNorm y = 1) :
    |gain l y - gain (exactObs p l) y| ≤ η := by
  have : gain (exactObs p l) y
      = (l.map fun t => t.1 * npDot (normalizeV (sandwich p t.2.1)) (sandwich y (normalizeV t.2.1))).sum := by
    simp only [gain, exactObs, List.map_map]
    rfl
  rw [this, gain]
  refine (list_abs_sum_le l _ _ (fun t => t.1) (η := η) fun t ht => ?_).trans (by rw [hn.sum, one_mul])
  obtain ⟨h1, h2, h3⟩ := hn.near t ht
  rw [normalize_sandwich hn.unit h1, ← mul_sub, abs_mul, abs_of_nonneg (hn.nonneg t ht)]
  refine mul_le_mul_of_nonneg_left ?_ (hn.nonneg t ht)
  have e : npDot (normalizeV t.2.2) (sandwich y (normalizeV t.2.1))
      - npDot (sandwich p (normalizeV t.2.1)) (sandwich y (normalizeV t.2.1))
      = npDot (normalizeV t.2.2 - sandwich p (normalizeV t.2.1)) (sandwich y (normalizeV t.2.1)) := by
    simp only [npDot3, Pi.sub_apply]; ring
  rw [e]
  refine npDot_le_mul _ _ ?_ h3
  rw [(C06_sandwich_preserves y hy _ 0).2.1]
  exact npNorm_normalize h1

theorem noisy_gain_true {l : List (ℝ × V3 × V3)} {p : V4} {η : ℝ} (hn : Noisy l p η) :
    1 - η ^ 2 / 2 ≤ gain l p := by
  have key : (l.map fun t => t.1 * (1 - η ^ 2 / 2)).sum ≤ gain l p := by
    refine List.sum_le_sum fun t ht => ?_
    obtain ⟨h1, h2, h3⟩ := hn.near t ht
    refine mul_le_mul_of_nonneg_left ?_ (hn.nonneg t ht)
    have hu : npNorm (normalizeV t.2.2) = 1 := npNorm_normalize h2
    have hw : npNorm (sandwich p (normalizeV t.2.1)) = 1 := by
      rw [(C06_sandwich_preserves p hn.unit _ 0).2.1]; exact npNorm_normalize h1
    have e1 := npNorm3_sq (normalizeV t.2.2)
    have e2 := npNorm3_sq (sandwich p (normalizeV t.2.1))
    have e3 := npNorm3_sq (normalizeV t.2.2 - sandwich p (normalizeV t.2.1))
    have h4 := pow_le_pow_left₀ (npNorm_nonneg _) h3 2
    rw [hu] at e1
    rw [hw] at e2
    rw [e3] at h4
    simp only [Pi.sub_apply] at h4
    rw [npDot3]
    nlinarith
  rw [List.sum_map_mul_right, hn.sum, one_mul] at key
  exact key

theorem exact_eigen {l : List (ℝ × V3 × V3)} {p : V4} {η : ℝ} (hn : Noisy l p η) :
    flaeW (exactObs p l) *ᵥ p = p ∧ gain (exactObs p l) p = 1 := by
  have hp := (isUnit4_iff p).2 hn.unit
  have hW := wMat_hMat_exact (l := exactObs p l) hp (by
    intro t ht
    simp only [exactObs, List.mem_map] at ht
    obtain ⟨s, hs, rfl⟩ := ht
    exact ⟨(hn.near s hs).1, rfl⟩)
  have hs : ((exactObs p l).map fun t => t.1).sum = 1 := by
    rw [← hn.sum, exactObs, List.map_map]; rfl
  rw [hs, one_smul] at hW
  refine ⟨hW, ?_⟩
  rw [← flaeW_form]
  change p ⬝ᵥ (wMat _ _ _ *ᵥ p) = 1
  rw [hW, unit_dot hn.unit]

/-- The error of the matrix between perpendicular attitudes. -/
theorem noisy_cross {l : List (ℝ × V3 × V3)} {p : V4} {η : ℝ} (hn : Noisy l p η) {y : V4} (hy : npNorm y = 1)
    (hyp : y ⬝ᵥ p = 0) : |y ⬝ᵥ (flaeW l *ᵥ p)| ≤ η := by
  have hp := hn.unit
  set c : ℝ := (Real.sqrt 2)⁻¹ with hc
  have hc2 : c ^ 2 = 1 / 2 := by rw [hc, inv_pow, Real.sq_sqrt (by norm_num)]; norm_num
  have hpy : p ⬝ᵥ y = 0 := by rw [dotProduct_comm, hyp]
  have u1 : npNorm (c • (y + p)) = 1 := by
    apply unit_of_dot
    simp only [smul_dotProduct, dotProduct_smul, add_dotProduct, dotProduct_add, unit_dot hy, unit_dot hp, hyp, hpy,
      smul_eq_mul]
    linarith
  have u2 : npNorm (c • (y - p)) = 1 := by
    apply unit_of_dot
    simp only [smul_dotProduct, dotProduct_smul, sub_dotProduct, dotProduct_sub, unit_dot hy, unit_dot hp, hyp, hpy,
      smul_eq_mul]
    linarith
  have pol : ∀ l', 2 * (y ⬝ᵥ (flaeW l' *ᵥ p)) = gain l' (c • (y + p)) - gain l' (c • (y - p)) := by
    intro l'
    have hs := symm_dot (flaeW_symm l') p y
    rw [dotProduct_comm (flaeW l' *ᵥ p)] at hs
    rw [← flaeW_form, ← flaeW_form]
    simp only [mulVec_smul, mulVec_add, mulVec_sub, smul_dotProduct, dotProduct_smul, add_dotProduct, dotProduct_add,
      sub_dotProduct, dotProduct_sub, hs, smul_eq_mul]
    linear_combination (-(4 * (y ⬝ᵥ (flaeW l' *ᵥ p)))) * hc2
  have h1 := noisy_gain hn u1
  have h2 := noisy_gain hn u2
  have e1 := pol l
  have e2 := pol (exactObs p l)
  rw [(exact_eigen hn).1, hyp] at e2
  rw [abs_le] at *
  constructor <;> linarith

/-- In every plane there is a direction across `p`. -/
theorem plane_across {x y p : V4} (hx : x ⬝ᵥ x = 1) (hy : y ⬝ᵥ y = 1) (hxy : x ⬝ᵥ y = 0) :
    ∃ a b : ℝ, a ^ 2 + b ^ 2 = 1 ∧ npNorm (a • x + b • y) = 1 ∧ (a • x + b • y) ⬝ᵥ p = 0 := by
  have hyx : y ⬝ᵥ x = 0 := by rw [dotProduct_comm, hxy]
  have hn : ∀ a b : ℝ, a ^ 2 + b ^ 2 = 1 → npNorm (a • x + b • y) = 1 := by
    intro a b h
    apply unit_of_dot
    simp only [add_dotProduct, dotProduct_add, smul_dotProduct, dotProduct_smul, hx, hy, hxy, hyx, smul_eq_mul]
    linarith
  by_cases h0 : y ⬝ᵥ p = 0
  · exact ⟨0, 1, by norm_num, hn 0 1 (by norm_num), by simp [h0]⟩
  set s := x ⬝ᵥ p with hs
  set t := y ⬝ᵥ p with ht
  have hr : 0 < t ^ 2 + s ^ 2 := by positivity
  set r := Real.sqrt (t ^ 2 + s ^ 2) with hrdef
  have hr0 : 0 < r := Real.sqrt_pos.2 hr
  have hr2 : r ^ 2 = t ^ 2 + s ^ 2 := Real.sq_sqrt hr.le
  have e : (t / r) ^ 2 + (-s / r) ^ 2 = 1 := by
    field_simp
    linarith
  refine ⟨t / r, -s / r, e, hn _ _ e, ?_⟩
  simp only [add_dotProduct, smul_dotProduct, ← hs, ← ht, smul_eq_mul]
  field_simp
  ring

/-- How far errors of the sensors move the answer: if exact sensors would tell `p` from the attitudes half a turn away
by `d`, and the sensors are off by at most `η`, then the best attitude `u` is within `η / (d - η - η²/2)` of `p` (the
sine of half the angle between them), what `flae` returns is as near to `u` as in `C174_near_partial`, and it returns
for small enough errors, unless the last component of `u` is zero and the observations agree exactly. -/
theorem C174_noise {l : List (ℝ × V3 × V3)} {p u : V4} {η d : ℝ} (hn : Noisy l p η) (hg : Gap (exactObs p l) p d)
    (hη : 0 < d - η - η ^ 2 / 2) (hu : Best l u) :
    1 - (u ⬝ᵥ p) ^ 2 ≤ (η / (d - η - η ^ 2 / 2)) ^ 2 ∧
    (∀ q, flae l = .ok q → u 3 ^ 2 * (1 - (q ⬝ᵥ u) ^ 2) ≤ (5e-9 / (d - η - η ^ 2 / 2) ^ 2) ^ 2) ∧
    (η ^ 2 / 2 ≤ (d - η - η ^ 2 / 2) / 10 → ((∃ q, flae l = .ok q) ↔ gain l u < 1 ∨ u 3 ≠ 0)) := by
  set m := d - η - η ^ 2 / 2 with hm
  have hl : Weights l := ⟨hn.nonneg, hn.sum.le⟩
  have htop : 1 - η ^ 2 / 2 ≤ gain l u := (noisy_gain_true hn).trans (hu.max p hn.unit)
  have hex := (exact_eigen hn).2
  have hacross : ∀ y, npNorm y = 1 → y ⬝ᵥ p = 0 → gain l y ≤ gain l u - m := by
    intro y hy hyp
    have h1 := hg y hy hyp
    have h2 := noisy_gain hn hy
    rw [abs_le] at h2
    rw [hex] at h1
    linarith [h2.2]
  have hW := best_eigen hu
  have hgu : Gap l u m := by
    intro y hy hyu
    have huy : u ⬝ᵥ y = 0 := by rw [dotProduct_comm, hyu]
    obtain ⟨a, b, hab, hz, hzp⟩ := plane_across (p := p) (unit_dot hu.unit) (unit_dot hy) huy
    have h1 := hacross _ hz hzp
    have e : gain l (a • u + b • y) = a ^ 2 * gain l u + b ^ 2 * gain l y := by
      have huWy : u ⬝ᵥ (flaeW l *ᵥ y) = 0 := by
        rw [symm_dot (flaeW_symm l), hW, smul_dotProduct, huy, smul_zero]
      rw [← flaeW_form, ← flaeW_form l y]
      simp only [mulVec_add, mulVec_smul, add_dotProduct, dotProduct_add, smul_dotProduct, dotProduct_smul, huWy, hW,
        hyu, unit_dot hu.unit, smul_eq_mul]
      ring
    have h2 : gain l y = a ^ 2 * gain l y + b ^ 2 * gain l y := by rw [← add_mul, hab, one_mul]
    have h3 := mul_le_mul_of_nonneg_left (hu.max y hy) (sq_nonneg a)
    linarith
  refine ⟨?_, fun q hq => (C174_near_partial hl hu hgu hη hq).2.2,
    fun h => C174_returns hl hu hgu hη (by linarith)⟩
  -- the part of `u` across `p`
  set z := u - (u ⬝ᵥ p) • p with hz
  have hzp : z ⬝ᵥ p = 0 := by
    rw [hz, sub_dotProduct, smul_dotProduct, unit_dot hn.unit]; simp
  have huz : u = z + (u ⬝ᵥ p) • p := by rw [hz]; abel
  have hzz : z ⬝ᵥ z = 1 - (u ⬝ᵥ p) ^ 2 := by
    rw [hz]
    simp only [sub_dotProduct, dotProduct_sub, smul_dotProduct, dotProduct_smul, unit_dot hu.unit, unit_dot hn.unit,
      dotProduct_comm p u, smul_eq_mul]
    ring
  rw [← hzz]
  by_cases h0 : z = 0
  · rw [h0]; simp; positivity
  have hnz := npNorm_pos h0
  set r := npNorm z with hr
  have hr2 : z ⬝ᵥ z = r ^ 2 := (npNorm_sq_dot z).symm
  set y : V4 := r⁻¹ • z with hy
  have hy1 : npNorm y = 1 := by rw [hy, ← normalize_eq h0]; exact npNorm_normalize h0
  have hzy : z = r • y := by rw [hy, smul_smul, mul_inv_cancel₀ hnz.ne', one_smul]
  have hyp : y ⬝ᵥ p = 0 := by rw [hy, smul_dotProduct, hzp, smul_zero]
  have hyu : y ⬝ᵥ u = r := by
    rw [huz, dotProduct_add, dotProduct_smul, hyp, hzy, dotProduct_smul, unit_dot hy1]; simp
  -- the equation of the eigenvector, seen along `y`
  have h1 : y ⬝ᵥ (flaeW l *ᵥ u) = gain l u * r := by rw [hW, dotProduct_smul, hyu, smul_eq_mul]
  have h2 : y ⬝ᵥ (flaeW l *ᵥ u) = r * gain l y + (u ⬝ᵥ p) * (y ⬝ᵥ (flaeW l *ᵥ p)) := by
    conv_lhs => rw [huz, mulVec_add, mulVec_smul, dotProduct_add, dotProduct_smul, hzy, mulVec_smul, dotProduct_smul,
      flaeW_form]
    rfl
  have h3 := hacross y hy1 hyp
  have h4 := noisy_cross hn hy1 hyp
  have hup : (u ⬝ᵥ p) ^ 2 ≤ 1 := by
    have : 0 ≤ r ^ 2 := sq_nonneg r
    linarith
  have hup' : |u ⬝ᵥ p| ≤ 1 := (sq_le_one_iff_abs_le_one _).1 hup
  have h5 : r * m ≤ η := by
    have e : r * (gain l u - gain l y) = (u ⬝ᵥ p) * (y ⬝ᵥ (flaeW l *ᵥ p)) := by linarith
    have h6 : r * m ≤ r * (gain l u - gain l y) := mul_le_mul_of_nonneg_left (by linarith) hnz.le
    have h7 : |(u ⬝ᵥ p) * (y ⬝ᵥ (flaeW l *ᵥ p))| ≤ 1 * η := by
      rw [abs_mul]; exact mul_le_mul hup' h4 (abs_nonneg _) (by norm_num)
    have h8 := le_abs_self ((u ⬝ᵥ p) * (y ⬝ᵥ (flaeW l *ᵥ p)))
    linarith
  rw [hr2]
  exact pow_le_pow_left₀ hnz.le ((le_div_iff₀ hη).2 h5) 2

/-- The two sensors above: a case of `C174_noise` with errors of a fifth. -/
example : Noisy flaeNoisy ![1, 0, 0, 0] (1/5) ∧ Gap (exactObs ![1, 0, 0, 0] flaeNoisy) ![1, 0, 0, 0] 1 ∧
    (0 : ℝ) < 1 - 1/5 - (1/5) ^ 2 / 2 ∧ (1/5 : ℝ) ^ 2 / 2 ≤ (1 - 1/5 - (1/5) ^ 2 / 2) / 10 := by
  have n1 : normalizeV (![1, 0, 0] : V3) = ![1, 0, 0] := normalize_of_unit (npNorm_vec3 (by norm_num))
  have n2 : normalizeV (![0, 1, 0] : V3) = ![0, 1, 0] := normalize_of_unit (npNorm_vec3 (by norm_num))
  have n3 : normalizeV (![99/101, 20/101, 0] : V3) = ![99/101, 20/101, 0] :=
    normalize_of_unit (npNorm_vec3 (by norm_num))
  have n4 : normalizeV (![20/101, 99/101, 0] : V3) = ![20/101, 99/101, 0] :=
    normalize_of_unit (npNorm_vec3 (by norm_num))
  have s : ∀ v, sandwich ![1, 0, 0, 0] v = v := fun v => by
    apply vec3_ext <;> simp [sandwich_0, sandwich_1, sandwich_2]
  have small : ∀ v : V3, v 0 ^ 2 + v 1 ^ 2 + v 2 ^ 2 ≤ (1/5) ^ 2 → npNorm v ≤ 1/5 := by
    intro v hv
    rw [← npNorm3_sq] at hv
    exact (le_abs_self _).trans (abs_le_of_sq_le_sq hv (by norm_num))
  refine ⟨⟨npNorm_vec4 (by norm_num), flaeNoisy_weights.nonneg, by simp [flaeNoisy]; norm_num, ?_⟩, ?_, by norm_num,
    by norm_num⟩
  · intro t ht
    simp only [flaeNoisy, List.mem_cons, List.not_mem_nil, or_false] at ht
    rcases ht with rfl | rfl
    · refine ⟨fun h => by simpa using congrFun h 0, fun h => by simpa using congrFun h 0, ?_⟩
      dsimp only
      rw [n1, n3, s]
      apply small
      simp; norm_num
    · refine ⟨fun h => by simpa using congrFun h 1, fun h => by simpa using congrFun h 0, ?_⟩
      dsimp only
      rw [n2, n4, s]
      apply small
      simp; norm_num
  · have hg : ∀ y, gain (exactObs ![1, 0, 0, 0] flaeNoisy) y = y 0 ^ 2 - y 3 ^ 2 := by
      intro y
      simp [gain, exactObs, flaeNoisy, s, n1, n2, npDot3, sandwich_0, sandwich_1, sandwich_2]
      ring
    intro y hy hyu
    have hy0 : y 0 = 0 := by simpa [dotProduct, Fin.sum_univ_four] using hyu
    rw [hg, hg, hy0]
    simp
    positivity

/-! ### C175: weights that do not add up to one -/

/-- All weights times `c`. -/
noncomputable def Spec.scaleWeights (c : ℝ) (l : List (ℝ × V3 × V3)) : List (ℝ × V3 × V3) :=
  l.map fun t => (c * t.1, t.2)

/-- The observations of the attitude `p` by exact sensors, with non-negative weights. -/
structure Spec.ExactObs (l : List (ℝ × V3 × V3)) (p : V4) : Prop where
  unit : npNorm p = 1
  nonneg : ∀ t ∈ l, 0 ≤ t.1
  seen : ∀ t ∈ l, t.2.1 ≠ 0 ∧ t.2.2 = sandwich p t.2.1

/-- C175: only the ratios of the weights matter. -/
def C175_claim : Prop :=
  ∀ (l : List (ℝ × V3 × V3)) (p : V4) (c : ℝ) (q : V4), ExactObs l p → (l.map fun t => t.1).sum = 1 → 0 < c →
    flae l = .ok q → ∀ q', flae (scaleWeights c l) = .ok q' → q' = q

/-- Two axes seen after the cyclic permutation of the axes, the first with three times the weight of the second. -/
noncomputable def flaeUneven : List (ℝ × V3 × V3) :=
  [(3/4, ![1, 0, 0], ![0, 0, 1]), (1/4, ![0, 1, 0], ![1, 0, 0])]

theorem flaeUneven_exact : ExactObs flaeUneven ![1/2, 1/2, 1/2, 1/2] := by
  refine ⟨npNorm_vec4 (by norm_num), ?_, ?_⟩
  · intro t ht
    simp only [flaeUneven, List.mem_cons, List.not_mem_nil, or_false] at ht
    rcases ht with rfl | rfl <;> norm_num
  · intro t ht
    simp only [flaeUneven, List.mem_cons, List.not_mem_nil, or_false] at ht
    rcases ht with rfl | rfl
    · refine ⟨fun h => by simpa using congrFun h 0, ?_⟩
      apply vec3_ext <;> simp [sandwich_0, sandwich_1, sandwich_2] <;> norm_num
    · refine ⟨fun h => by simpa using congrFun h 1, ?_⟩
      apply vec3_ext <;> simp [sandwich_0, sandwich_1, sandwich_2] <;> norm_num

/-- With the weights 1.5 and 0.5 instead of 0.75 and 0.25, `flae` returns an attitude half a turn off. -/
theorem C175_half_turn : ∃ q, flae (scaleWeights 2 flaeUneven) = .ok q ∧ q ⬝ᵥ ![1/2, 1/2, 1/2, 1/2] = 0 := by
  have n1 : normalizeV (![1, 0, 0] : V3) = ![1, 0, 0] := normalize_of_unit (npNorm_vec3 (by norm_num))
  have n2 : normalizeV (![0, 1, 0] : V3) = ![0, 1, 0] := normalize_of_unit (npNorm_vec3 (by norm_num))
  have n3 : normalizeV (![0, 0, 1] : V3) = ![0, 0, 1] := normalize_of_unit (npNorm_vec3 (by norm_num))
  have hx : hMat (scaleWeights 2 flaeUneven) 0 = ![0, 0, 3/2] := by
    apply vec3_ext <;> simp [hMat, scaleWeights, flaeUneven, hats, sumAcross, n1, n2, n3]; norm_num
  have hy : hMat (scaleWeights 2 flaeUneven) 1 = ![1/2, 0, 0] := by
    apply vec3_ext <;> simp [hMat, scaleWeights, flaeUneven, hats, sumAcross, n1, n2, n3]; norm_num
  have hz : hMat (scaleWeights 2 flaeUneven) 2 = ![0, 0, 0] := by
    apply vec3_ext <;> simp [hMat, scaleWeights, flaeUneven, hats, sumAcross, n1, n2, n3]
  have hW : wMat ![0, 0, 3/2] ![1/2, 0, 0] ![0, 0, 0] *ᵥ (![1/2, -1/2, 1/2, -1/2] : V4) = ![1/2, -1/2, 1/2, -1/2] := by
    apply vec4_ext <;> simp [wMat, mulVec, dotProduct, Fin.sum_univ_four] <;> norm_num
  have hroot : flaeRoot (scaleWeights 2 flaeUneven) = .ok 1 := by
    rw [flaeRoot, newton, if_pos]
    rw [← det_wMat, hx, hy, hz]
    apply exists_mulVec_eq_zero_iff.1
    refine ⟨![1/2, -1/2, 1/2, -1/2], ?_, ?_⟩
    · intro h; simpa using congrFun h 0
    · rw [sub_mulVec, hW]; simp
  have e0 : charRows (wMat ![0, 0, 3/2] ![1/2, 0, 0] ![0, 0, 0]) 1
      = ![![-1, 0, 3/2, 1/2], ![0, -1, 1/2, 3/2], ![3/2, 1/2, -1, 0], ![1/2, 3/2, 0, -1]] := by
    funext i
    fin_cases i <;> apply vec4_ext <;> simp [charRows, wMat]
  have e1 : pivotStep ![![-1, 0, 3/2, 1/2], ![0, -1, 1/2, 3/2], ![3/2, 1/2, -1, 0], ![1/2, 3/2, 0, -1]] 0
      = .ok ![![1, 0, -3/2, -1/2], ![0, -1, 1/2, 3/2], ![0, 1/2, 5/4, 3/4], ![0, 3/2, 3/4, -3/4]] := by
    rw [pivotStep, if_neg (by simp)]
    apply congrArg Except.ok; funext i
    fin_cases i <;> apply vec4_ext <;> simp <;> norm_num
  have e2 : pivotStep ![![1, 0, -3/2, -1/2], ![0, -1, 1/2, 3/2], ![0, 1/2, 5/4, 3/4], ![0, 3/2, 3/4, -3/4]] 1
      = .ok ![![1, 0, -3/2, -1/2], ![0, 1, -1/2, -3/2], ![0, 0, 3/2, 3/2], ![0, 0, 3/2, 3/2]] := by
    rw [pivotStep, if_neg (by simp)]
    apply congrArg Except.ok; funext i
    fin_cases i <;> apply vec4_ext <;> simp <;> norm_num
  have e3 : pivotStep ![![1, 0, -3/2, -1/2], ![0, 1, -1/2, -3/2], ![0, 0, 3/2, 3/2], ![0, 0, 3/2, 3/2]] 2
      = .ok ![![1, 0, 0, 1], ![0, 1, 0, -1], ![0, 0, 1, 1], ![0, 0, 0, 0]] := by
    rw [pivotStep, if_neg (by simp)]
    apply congrArg Except.ok; funext i
    fin_cases i <;> apply vec4_ext <;> simp <;> norm_num
  refine ⟨normalizeV ![1, -1, 1, -1], flae_eq_ok.2 ⟨1, hroot, ?_⟩, ?_⟩
  · rw [hx, hy, hz, nullVector, e0]
    simp only [e1, e2, e3, bind, Except.bind, pure, Except.pure]
    rfl
  · rw [normalize_eq (by intro h; simpa using congrFun h 0), smul_dotProduct]
    simp [dotProduct, Fin.sum_univ_four]

theorem flaeUneven_ok : ∃ q, flae flaeUneven = .ok q ∧ (q = ![1/2, 1/2, 1/2, 1/2] ∨ q = -![1/2, 1/2, 1/2, 1/2]) := by
  have h := C143_flae (l := flaeUneven) flaeUneven_exact.unit flaeUneven_exact.nonneg
    (by simp [flaeUneven]; norm_num) flaeUneven_exact.seen
    ⟨(3/4, ![1, 0, 0], ![0, 0, 1]), by simp [flaeUneven], (1/4, ![0, 1, 0], ![1, 0, 0]), by simp [flaeUneven],
      by norm_num, by norm_num, by intro h; have := congrFun h 2; simp [cross_apply] at this⟩
  rwa [if_neg (by simp)] at h

/-- C175 fails: doubling both weights turns the answer by half a turn. -/
theorem C175_scale_fails : ¬ C175_claim := by
  intro h
  obtain ⟨q, hq, hp⟩ := flaeUneven_ok
  obtain ⟨q', hq', h0⟩ := C175_half_turn
  have := h flaeUneven _ 2 q flaeUneven_exact (by simp [flaeUneven]; norm_num) (by norm_num) hq q' hq'
  rw [this] at h0
  rcases hp with rfl | rfl <;> simp [dotProduct, Fin.sum_univ_four] at h0 <;> norm_num at h0

/-- C175, what holds: with exact observations and weights that add up to slightly less than one, `flae` returns the
attitude, up to the error of `C174_near_partial`. Missing: other sums (`C175_scale_fails`). -/
theorem C175_scale_partial {l : List (ℝ × V3 × V3)} {p : V4} {d : ℝ} (h : ExactObs l p) (h3 : p 3 ≠ 0)
    (hs : (l.map fun t => t.1).sum ≤ 1) (hg : Gap l p d) (hd : 0 < d) (hn : 1 - (l.map fun t => t.1).sum ≤ d / 10) :
    ∃ q, flae l = .ok q ∧ p 3 ^ 2 * (1 - (q ⬝ᵥ p) ^ 2) ≤ (5e-9 / d ^ 2) ^ 2 := by
  have hp := (isUnit4_iff p).2 h.unit
  have hW := wMat_hMat_exact hp h.seen
  have hgain : gain l p = (l.map fun t => t.1).sum := by
    rw [← flaeW_form]
    change p ⬝ᵥ (wMat _ _ _ *ᵥ p) = _
    rw [hW, dotProduct_smul, unit_dot h.unit, smul_eq_mul, mul_one]
  have hb : Best l p := ⟨h.unit, fun y hy => by rw [hgain]; exact gain_le ((isUnit4_iff y).2 hy) h.nonneg⟩
  have hw : Weights l := ⟨h.nonneg, hs⟩
  obtain ⟨q, hq⟩ := (C174_returns hw hb hg hd (by rw [hgain]; exact hn)).2 (Or.inr h3)
  exact ⟨q, hq, (C174_near_partial hw hb hg hd hq).2.2⟩

/-- A case of `C175_scale_partial`: the weights 0.72 and 0.24. -/
example : ExactObs (scaleWeights (24/25) flaeUneven) ![1/2, 1/2, 1/2, 1/2] ∧
    Gap (scaleWeights (24/25) flaeUneven) ![1/2, 1/2, 1/2, 1/2] (12/25) ∧
    ((scaleWeights (24/25) flaeUneven).map fun t => t.1).sum = 24/25 := by
  have n1 : normalizeV (![1, 0, 0] : V3) = ![1, 0, 0] := normalize_of_unit (npNorm_vec3 (by norm_num))
  have n2 : normalizeV (![0, 1, 0] : V3) = ![0, 1, 0] := normalize_of_unit (npNorm_vec3 (by norm_num))
  have n3 : normalizeV (![0, 0, 1] : V3) = ![0, 0, 1] := normalize_of_unit (npNorm_vec3 (by norm_num))
  have hgain : ∀ q : V4, gain (scaleWeights (24/25) flaeUneven) q
      = 24/25 * ((q 0 + q 1 + q 2 + q 3) / 2) ^ 2 - 24/25 * ((q 0 + q 1 - q 2 - q 3) / 2) ^ 2
        + 12/25 * ((q 0 - q 1 + q 2 - q 3) / 2) ^ 2 - 12/25 * ((q 0 - q 1 - q 2 + q 3) / 2) ^ 2 := by
    intro q
    simp [gain, scaleWeights, flaeUneven, n1, n2, n3, npDot3, sandwich_0, sandwich_1, sandwich_2]
    ring
  refine ⟨⟨flaeUneven_exact.unit, ?_, ?_⟩, ?_, ?_⟩
  · intro t ht
    simp only [scaleWeights, List.mem_map] at ht
    obtain ⟨s, hs, rfl⟩ := ht
    have := flaeUneven_exact.nonneg s hs
    dsimp only
    linarith
  · intro t ht
    simp only [scaleWeights, List.mem_map] at ht
    obtain ⟨s, hs, rfl⟩ := ht
    exact flaeUneven_exact.seen s hs
  · intro y hy hyu
    have := (isUnit4_iff y).2 hy
    unfold IsUnit4 at this
    have hy0 : y 0 + y 1 + y 2 + y 3 = 0 := by
      simp [dotProduct, Fin.sum_univ_four] at hyu; linarith
    have h0 : gain (scaleWeights (24/25) flaeUneven) ![1/2, 1/2, 1/2, 1/2] = 24/25 := by rw [hgain]; simp; norm_num
    rw [h0, hgain, hy0]
    nlinarith [sq_nonneg (y 0 + y 1 - y 2 - y 3), sq_nonneg (y 0 - y 1 + y 2 - y 3), sq_nonneg (y 0 - y 1 - y 2 + y 3),
      congrArg (· ^ 2) hy0]
  · simp [scaleWeights, flaeUneven]; norm_num

end Adcs
