import Verif.Props.SampledTrack
import Verif.Props.Sampled
import Verif.Proofs.HeldTrack

set_option autoImplicit false

/-! # Decay of the attitude error when the controller assumes a wrong inertia -/

namespace Adcs

open Str Ctl Sens JDay Quat Vec Dyn
open scoped Matrix

/-- A function that decays while it is below `m`, and starts below it, decays. -/
theorem local_barrier {f : ℝ → ℝ} {T κ m μ : ℝ} (hT : 0 ≤ T) (hκ : 0 ≤ κ) (hc : ContinuousOn f (Set.Icc 0 T))
    (h : ∀ t ∈ Set.Ico 0 T, ∃ f', HasDerivAt f f' t ∧ (f t ≤ m → f' ≤ -κ * f t)) (hμ : 0 ≤ μ) (hm : μ < m)
    (h0 : f 0 ≤ μ) : f T ≤ μ * Real.exp (-κ * T) := by
  have hE : ∀ t : ℝ, HasDerivAt (fun t => Real.exp (κ * t)) (Real.exp (κ * t) * κ) t := fun t => by
    simpa using ((hasDerivAt_id t).const_mul κ).exp
  choose! f' hf hle using h
  have key : ∀ ε > 0, ε * (1 + T) ≤ m - μ → f T * Real.exp (κ * T) ≤ μ + ε * (1 + T) := by
    intro ε hε hεm
    have hb : ∀ x ∈ Set.Ico 0 T, f x * Real.exp (κ * x) = μ + ε * (1 + x) →
        f' x * Real.exp (κ * x) + f x * (Real.exp (κ * x) * κ) < ε := by
      intro x hx he
      have h1 : 1 ≤ Real.exp (κ * x) := Real.one_le_exp (mul_nonneg hκ hx.1)
      have hp : 0 < f x * Real.exp (κ * x) := by
        rw [he]
        have := mul_pos hε (by linarith [hx.1] : 0 < 1 + x)
        linarith
      have hpos : 0 < f x := pos_of_mul_pos_left hp (Real.exp_pos _).le
      have hfm : f x ≤ m := by
        have : f x ≤ f x * Real.exp (κ * x) := le_mul_of_one_le_right hpos.le h1
        have h3 : ε * (1 + x) ≤ ε * (1 + T) := mul_le_mul_of_nonneg_left (by linarith [hx.2]) hε.le
        linarith
      have h2 := hle x hx hfm
      have h3 : Real.exp (κ * x) * (f' x + f x * κ) ≤ 0 :=
        mul_nonpos_of_nonneg_of_nonpos (Real.exp_pos _).le (by linarith)
      linarith
    have := image_le_of_deriv_right_lt_deriv_boundary (f := fun x => f x * Real.exp (κ * x)) (a := 0) (b := T)
      (f' := fun x => f' x * Real.exp (κ * x) + f x * (Real.exp (κ * x) * κ))
      (hc.mul (by fun_prop : Continuous fun x : ℝ => Real.exp (κ * x)).continuousOn)
      (fun x hx => ((hf x hx).mul (hE x)).hasDerivWithinAt) (B := fun x => μ + ε * (1 + x)) (B' := fun _ => ε)
      (by simp only [mul_zero, Real.exp_zero, mul_one, add_zero]; linarith)
      (fun x => by simpa using (((hasDerivAt_id x).const_add 1).const_mul ε).const_add μ) hb
    exact this ⟨hT, le_rfl⟩
  have h1 : f T * Real.exp (κ * T) ≤ μ := by
    refine le_of_forall_pos_le_add fun ε hε => ?_
    have hmin : 0 < min ε (m - μ) := lt_min hε (by linarith)
    have e : min ε (m - μ) / (1 + T) * (1 + T) = min ε (m - μ) := div_mul_cancel₀ _ (by positivity)
    have := key (min ε (m - μ) / (1 + T)) (by positivity) (by rw [e]; exact min_le_right _ _)
    rw [e] at this
    linarith [min_le_left ε (m - μ)]
  have h2 : Real.exp (κ * T) * Real.exp (-κ * T) = 1 := by rw [← Real.exp_add]; simp
  calc f T = f T * Real.exp (κ * T) * Real.exp (-κ * T) := by rw [mul_assoc, h2, mul_one]
    _ ≤ _ := mul_le_mul_of_nonneg_right h1 (Real.exp_pos _).le

/-- Constants for the gains, the width of the hysteresis, a bound of the first rate and one of the disturbances. -/
theorem mis_consts {alpha gamma h : ℝ} (ha : 0 < alpha) (hg : 0 < gamma) (h0 : 0 < h) (h1 : h < 1) (M Δ : ℝ) :
    ∃ eps k : ℝ, 0 < eps ∧ 0 < k ∧ eps ^ 2 ≤ alpha / 2 ∧ eps * (1 + gamma ^ 2 / alpha) ≤ gamma ∧ 3 * k ≤ gamma ∧
      12 * k ≤ eps * (1 - h) ∧
      eps ^ 2 * (3 / 2 * (M ^ 2 / 2 + 4 * alpha) + 1 + 4 * (1 / gamma + eps / alpha) * Δ ^ 2 / k) ≤
        alpha ^ 2 * h ^ 2 / 4 := by
  obtain ⟨e0, k0, he0, -, r1, r2, -, -⟩ := rate_exists ha hg h1
  have h1' : 0 < 1 - h := by linarith
  obtain ⟨P, hP⟩ : ∃ P, P = 3 / 2 * (M ^ 2 / 2 + 4 * alpha) + 1 := ⟨_, rfl⟩
  obtain ⟨Q, hQ⟩ : ∃ Q, Q = 96 * Δ ^ 2 / (gamma * (1 - h)) := ⟨_, rfl⟩
  have hP0 : 0 < P := by rw [hP]; positivity
  have hQ0 : 0 ≤ Q := by rw [hQ]; positivity
  obtain ⟨e, he⟩ : ∃ e, e = min (min 1 e0) (alpha ^ 2 * h ^ 2 / 4 / (P + Q)) := ⟨_, rfl⟩
  have hep : 0 < e := by rw [he]; exact lt_min (lt_min one_pos he0) (by positivity)
  have l1 : e ≤ 1 := he ▸ (min_le_left _ _).trans (min_le_left _ _)
  have l2 : e ≤ e0 := he ▸ (min_le_left _ _).trans (min_le_right _ _)
  have l3 : e * (P + Q) ≤ alpha ^ 2 * h ^ 2 / 4 := by
    rw [← le_div_iff₀ (by positivity)]; exact he ▸ min_le_right _ _
  have s2 : e * (1 + gamma ^ 2 / alpha) ≤ gamma := le_trans (by gcongr) r2
  have heg : e ≤ gamma := by
    have : 0 ≤ e * (gamma ^ 2 / alpha) := by positivity
    linarith
  have hea : e / alpha ≤ 1 / gamma := by
    have h2 : gamma * (gamma * e / alpha) ≤ gamma * 1 := by
      have e1 : gamma * (gamma * e / alpha) = e * (gamma ^ 2 / alpha) := by ring
      linarith
    have h3 := le_of_mul_le_mul_left h2 hg
    rw [le_div_iff₀ hg]
    calc e / alpha * gamma = gamma * e / alpha := by ring
      _ ≤ 1 := h3
  refine ⟨e, e * (1 - h) / 12, hep, by positivity, le_trans (by gcongr) r1, s2, ?_, by linarith, ?_⟩
  · have : e * (1 - h) ≤ e * 1 := mul_le_mul_of_nonneg_left (by linarith) hep.le
    linarith
  · rw [← hP]
    have hG : e * (4 * (1 / gamma + e / alpha) * Δ ^ 2 / (e * (1 - h) / 12)) ≤ Q := by
      have e1 : e * (4 * (1 / gamma + e / alpha) * Δ ^ 2 / (e * (1 - h) / 12)) =
          48 * Δ ^ 2 / (1 - h) * (1 / gamma + e / alpha) := by field_simp; ring
      have e2 : Q = 48 * Δ ^ 2 / (1 - h) * (1 / gamma + 1 / gamma) := by rw [hQ]; field_simp; ring
      rw [e1, e2]
      gcongr
    have h2 : e ^ 2 * P ≤ e * P := by
      have : e ^ 2 ≤ e := by nlinarith
      exact mul_le_mul_of_nonneg_right this hP0.le
    have h3 : e ^ 2 * (4 * (1 / gamma + e / alpha) * Δ ^ 2 / (e * (1 - h) / 12)) ≤ e * Q := by
      rw [sq, mul_assoc]; exact mul_le_mul_of_nonneg_left hG hep.le
    rw [mul_add]
    linarith

theorem entries_bound {D : M3} {ε : ℝ} (hD : ∀ i j, |D i j| ≤ ε) (x : V3) : npNorm (D *ᵥ x) ≤ 3 * ε * npNorm x := by
  have hε : 0 ≤ ε := (abs_nonneg _).trans (hD 0 0)
  refine le_of_sq_le_sq ?_ (mul_nonneg (by linarith) (npNorm_nonneg _))
  have hrow : ∀ i, (D *ᵥ x) i ^ 2 ≤ 3 * ε ^ 2 * npNorm x ^ 2 := by
    intro i
    have e : (D *ᵥ x) i = (fun j => D i j) ⬝ᵥ x := rfl
    have h1 := dot_sq_le (fun j => D i j) x
    have h2 : (fun j => D i j) ⬝ᵥ (fun j => D i j) ≤ 3 * ε ^ 2 := by
      rw [Matrix.vec3_dotProduct]
      have hs : ∀ j, D i j * D i j ≤ ε ^ 2 := fun j => by
        rw [← sq, ← sq_abs]; exact pow_le_pow_left₀ (abs_nonneg _) (hD i j) 2
      linarith [hs 0, hs 1, hs 2]
    rw [e, ← dot_self3]
    exact h1.trans (mul_le_mul_of_nonneg_right h2 (dot_self_nonneg3 _))
  rw [npNorm3_sq]
  linarith [hrow 0, hrow 1, hrow 2]

/-- Inertias near one with an inverse have an inverse, and the error they cause in the acceleration is small. -/
theorem mis_matrix {I : M3} {lam : ℝ} (hl : 0 < lam) (hI : ∀ v, lam * npNorm v ≤ npNorm (I *ᵥ v)) {ρ : ℝ} (hρ : 0 < ρ) :
    ∃ ε > 0, ∀ J : M3, (∀ i j, |J i j - I i j| ≤ ε) →
      (∀ v, J⁻¹ *ᵥ (J *ᵥ v) = v) ∧ (∀ x, npNorm (J⁻¹ *ᵥ ((I - J) *ᵥ x)) ≤ ρ * npNorm x) ∧
      ∀ w, npNorm (J⁻¹ *ᵥ npCross w ((I - J) *ᵥ w)) ≤ ρ * npNorm w ^ 2 := by
  refine ⟨min (lam / 6) (ρ * lam / 6), lt_min (by positivity) (by positivity), fun J hJ => ?_⟩
  obtain ⟨ε, hε⟩ : ∃ ε, ε = min (lam / 6) (ρ * lam / 6) := ⟨_, rfl⟩
  rw [← hε] at hJ
  have l1 : ε ≤ lam / 6 := hε ▸ min_le_left _ _
  have l2 : ε ≤ ρ * lam / 6 := hε ▸ min_le_right _ _
  have hD : ∀ x, npNorm ((I - J) *ᵥ x) ≤ 3 * ε * npNorm x := entries_bound fun i j => by
    rw [Matrix.sub_apply, abs_sub_comm]; exact hJ i j
  have hlow : ∀ v, lam / 2 * npNorm v ≤ npNorm (J *ᵥ v) := by
    intro v
    have h1 := hI v
    have h2 : npNorm (I *ᵥ v) ≤ npNorm (J *ᵥ v) + npNorm ((I - J) *ᵥ v) := by
      have : I *ᵥ v = J *ᵥ v + (I - J) *ᵥ v := by rw [Matrix.sub_mulVec]; abel
      rw [this]; exact npNorm_add3 _ _
    have h3 := hD v
    have h4 : 3 * ε * npNorm v ≤ lam / 2 * npNorm v := mul_le_mul_of_nonneg_right (by linarith) (npNorm_nonneg _)
    linarith
  have hunit : IsUnit J := by
    rw [← Matrix.mulVec_injective_iff_isUnit]
    intro x y hxy
    have h1 := hlow (x - y)
    change J *ᵥ x = J *ᵥ y at hxy
    rw [Matrix.mulVec_sub, hxy, sub_self] at h1
    by_contra hne
    have h2 := npNorm_pos (sub_ne_zero.2 hne)
    have h3 : npNorm (0 : V3) = 0 := by simp [npNorm]
    rw [h3] at h1
    have := mul_pos (half_pos hl) h2
    linarith
  have hdet := (Matrix.isUnit_iff_isUnit_det J).1 hunit
  have hK : ∀ y, npNorm (J⁻¹ *ᵥ y) ≤ 2 / lam * npNorm y := by
    intro y
    have h1 := hlow (J⁻¹ *ᵥ y)
    rw [Matrix.mulVec_mulVec, Matrix.mul_nonsing_inv J hdet, Matrix.one_mulVec] at h1
    rw [div_mul_eq_mul_div, le_div_iff₀ hl]
    linarith
  have hq : ∀ r : ℝ, 0 ≤ r → 2 / lam * (3 * ε * r) ≤ ρ * r := by
    intro r hr
    have e : ρ * r = 2 / lam * (3 * (ρ * lam / 6) * r) := by field_simp; ring
    rw [e]
    gcongr
  refine ⟨fun v => by rw [Matrix.mulVec_mulVec, Matrix.nonsing_inv_mul J hdet, Matrix.one_mulVec], fun x => ?_, fun w => ?_⟩
  · exact (hK _).trans ((mul_le_mul_of_nonneg_left (hD x) (by positivity)).trans (hq _ (npNorm_nonneg _)))
  · have h1 : npNorm (npCross w ((I - J) *ᵥ w)) ≤ 3 * ε * npNorm w ^ 2 := by
      refine (cross_norm_le _ _).trans ?_
      have := mul_le_mul_of_nonneg_left (hD w) (npNorm_nonneg w)
      linarith
    exact (hK _).trans ((mul_le_mul_of_nonneg_left h1 (by positivity)).trans (hq _ (sq_nonneg _)))

/-- The size of the error in the acceleration, in terms of the strict function. -/
theorem mis_size {alpha gamma eps m ρ sgn : ℝ} (ha : 0 < alpha) (he : 0 < eps) (h1 : eps ^ 2 ≤ alpha / 2)
    (hs : sgn = 1 ∨ sgn = -1) {e : V4} (hu : IsUnit4 e) {w : V3} (hV : strict alpha eps sgn e w ≤ m) {r1 r2 : V3}
    (h2 : npNorm r1 ≤ ρ * npNorm w ^ 2)
    (h3 : npNorm r2 ≤ ρ * npNorm (-(sgn * alpha) • vecPart e - gamma • w)) :
    npNorm (r1 + r2) ^ 2 ≤ ρ ^ 2 * (32 * m + 8 * alpha + 16 * gamma ^ 2) * strict alpha eps sgn e w := by
  have hs2 : sgn ^ 2 = 1 := by rcases hs with rfl | rfl <;> norm_num
  obtain ⟨V, hVe⟩ : ∃ V, V = strict alpha eps sgn e w := ⟨_, rfl⟩
  rw [← hVe] at hV ⊢
  have hb := (strict_between ha he h1 hs hu w).1
  rw [← hVe] at hb
  have hv := vecPart_unit hu
  have hx : sgn * e 0 ≤ 1 := by
    have h4 := dot_self_nonneg3 (vecPart e)
    have : (sgn * e 0) ^ 2 ≤ 1 := by rw [mul_pow, hs2]; linarith
    exact (abs_le.1 ((sq_le_one_iff_abs_le_one _).1 this)).2
  unfold lyap at hb
  have haw : npNorm w ^ 2 ≤ 4 * V := by
    rw [← dot_self3]
    have : 0 ≤ 2 * alpha * (1 - sgn * e 0) := mul_nonneg (by linarith) (by linarith)
    linarith
  have hbv : alpha * npNorm (vecPart e) ^ 2 ≤ 2 * V := by
    rw [← dot_self3, hv]
    have h5 := dot_self_nonneg3 w
    have h6 : 1 - e 0 ^ 2 ≤ 2 * (1 - sgn * e 0) := by
      have : e 0 ^ 2 = (sgn * e 0) ^ 2 := by rw [mul_pow, hs2, one_mul]
      rw [this]; nlinarith [sq_nonneg (1 - sgn * e 0)]
    have := mul_le_mul_of_nonneg_left h6 ha.le
    linarith
  have hV0 : 0 ≤ V := by linarith [sq_nonneg (npNorm w)]
  have k1 : npNorm (r1 + r2) ^ 2 ≤ 2 * npNorm r1 ^ 2 + 2 * npNorm r2 ^ 2 := by
    have := pow_le_pow_left₀ (npNorm_nonneg _) (npNorm_add3 r1 r2) 2
    nlinarith [sq_nonneg (npNorm r1 - npNorm r2)]
  have k2 : npNorm r1 ^ 2 ≤ ρ ^ 2 * (16 * m * V) := by
    refine (pow_le_pow_left₀ (npNorm_nonneg _) h2 2).trans ?_
    rw [mul_pow]
    refine mul_le_mul_of_nonneg_left ?_ (sq_nonneg _)
    have h7 : (npNorm w ^ 2) ^ 2 ≤ (4 * V) ^ 2 := pow_le_pow_left₀ (sq_nonneg _) haw 2
    have h8 : V * V ≤ m * V := mul_le_mul_of_nonneg_right hV hV0
    linarith
  have k3 : npNorm (-(sgn * alpha) • vecPart e - gamma • w) ^ 2 ≤ (4 * alpha + 8 * gamma ^ 2) * V := by
    have h8 := npNorm_sub3 (-(sgn * alpha) • vecPart e) (gamma • w)
    rw [npNorm_smul, npNorm_smul] at h8
    have h9 := pow_le_pow_left₀ (npNorm_nonneg _) h8 2
    have e1 : (|-(sgn * alpha)| * npNorm (vecPart e)) ^ 2 = alpha * (alpha * npNorm (vecPart e) ^ 2) := by
      rw [mul_pow, sq_abs, neg_sq, mul_pow, hs2]; ring
    have e2 : (|gamma| * npNorm w) ^ 2 = gamma ^ 2 * npNorm w ^ 2 := by rw [mul_pow, sq_abs]
    have h10 := mul_le_mul_of_nonneg_left hbv ha.le
    have h11 := mul_le_mul_of_nonneg_left haw (sq_nonneg gamma)
    obtain ⟨p, hp⟩ : ∃ p, p = |-(sgn * alpha)| * npNorm (vecPart e) := ⟨_, rfl⟩
    obtain ⟨r, hr⟩ : ∃ r, r = |gamma| * npNorm w := ⟨_, rfl⟩
    rw [← hp] at h9 e1
    rw [← hr] at h9 e2
    have : (p + r) ^ 2 ≤ 2 * p ^ 2 + 2 * r ^ 2 := by nlinarith [sq_nonneg (p - r)]
    linarith
  have k4 : npNorm r2 ^ 2 ≤ ρ ^ 2 * ((4 * alpha + 8 * gamma ^ 2) * V) := by
    refine (pow_le_pow_left₀ (npNorm_nonneg _) h3 2).trans ?_
    rw [mul_pow]
    exact mul_le_mul_of_nonneg_left k3 (sq_nonneg _)
  linarith

/-- The decay over a stretch without switch, for an additional acceleration made of an error `r` that is small where the
strict function is and a disturbance `x`. -/
theorem mis_flow {alpha gamma hyst eps k δ m θ : ℝ} (ha : 0 < alpha) (hg : 0 < gamma) (he : 0 < eps)
    (hk : 0 < k) (h1 : eps ^ 2 ≤ alpha / 2) (h2 : eps * (1 + gamma ^ 2 / alpha) ≤ gamma) (h3 : 3 * k ≤ gamma)
    (h4 : 12 * k ≤ eps * (1 - hyst)) (hθ : 2 * (1 / gamma + eps / alpha) * θ ≤ k / 2)
    {qc : V4} (hqc : npNorm qc = 1) {sgn : ℝ} (hs : sgn = 1 ∨ sgn = -1) {q : ℝ → V4}
    {w : ℝ → V3} {T : ℝ} (hT : 0 ≤ T) (hu : npNorm (q 0) = 1)
    (hcq : ContinuousOn q (Set.Icc 0 T)) (hcw : ContinuousOn w (Set.Icc 0 T))
    (hq : ∀ t ∈ Set.Ico 0 T, HasDerivAt q ((0.5 : ℝ) • product (q t) (pureQ (w t))) t)
    (hw : ∀ t ∈ Set.Ico 0 T, ∃ r x : V3, npNorm x ≤ δ ∧
      (strict alpha eps sgn (errorQuat (q t) qc) (w t) ≤ m →
        npNorm r ^ 2 ≤ θ * strict alpha eps sgn (errorQuat (q t) qc) (w t)) ∧
      HasDerivAt w (-(sgn * alpha) • vecPart (errorQuat (q t) qc) - gamma • w t + (r + x)) t)
    (hx : ∀ t ∈ Set.Ico 0 T, -hyst ≤ sgn * errorQuat (q t) qc 0) {μ : ℝ} (hμ : 0 ≤ μ)
    (hμm : μ + 4 * (1 / gamma + eps / alpha) * δ ^ 2 / k < m)
    (h0 : strict alpha eps sgn (errorQuat (q 0) qc) (w 0) ≤ μ + 4 * (1 / gamma + eps / alpha) * δ ^ 2 / k) :
    strict alpha eps sgn (errorQuat (q T) qc) (w T) ≤
      μ * Real.exp (-(k / 2) * T) + 4 * (1 / gamma + eps / alpha) * δ ^ 2 / k := by
  obtain ⟨G, hG⟩ : ∃ G, G = 4 * (1 / gamma + eps / alpha) * δ ^ 2 / k := ⟨_, rfl⟩
  rw [← hG] at hμm h0 ⊢
  have hGk : k / 2 * G = 2 * (1 / gamma + eps / alpha) * δ ^ 2 := by rw [hG]; field_simp; ring
  have hunit : ∀ t ∈ Set.Ico 0 T, IsUnit4 (errorQuat (q t) qc) := by
    intro t ht
    refine errorQuat_unit ((isUnit4_iff _).2 ?_) ((isUnit4_iff _).2 hqc)
    rw [norm_flow ht.1 (hcq.mono (Set.Icc_subset_Icc_right ht.2.le)) fun τ hτ => hq τ ⟨hτ.1, hτ.2.trans ht.2⟩, hu]
  have hs2 : sgn ^ 2 = 1 := by rcases hs with rfl | rfl <;> norm_num
  have := local_barrier (f := fun t => strict alpha eps sgn (errorQuat (q t) qc) (w t) - G) (T := T) (κ := k / 2)
    (m := m - G) (μ := μ) hT (by linarith) ((strict_continuousOn hcq hcw).sub continuousOn_const) (fun t ht => by
    obtain ⟨r, x, hxδ, hr, hdw⟩ := hw t ht
    refine ⟨_, (strict_deriv (eps := eps) hs (hq t ht) hdw).sub_const G, fun hm => ?_⟩
    have hr := hr (by linarith)
    have hv := vecPart_unit (hunit t ht)
    have hd : (r + x) ⬝ᵥ (r + x) ≤ 2 * npNorm r ^ 2 + 2 * δ ^ 2 := by
      rw [dot_self3]
      have g1 := pow_le_pow_left₀ (npNorm_nonneg _) (npNorm_add3 r x) 2
      have g2 := pow_le_pow_left₀ (npNorm_nonneg _) hxδ 2
      nlinarith [sq_nonneg (npNorm r - npNorm x)]
    have hb : vecPart (errorQuat (q t) qc) ⬝ᵥ vecPart (errorQuat (q t) qc) = 1 - (sgn * errorQuat (q t) qc 0) ^ 2 := by
      rw [hv, mul_pow, hs2, one_mul]
    have hp : (sgn * (vecPart (errorQuat (q t) qc) ⬝ᵥ w t)) ^ 2 ≤
        (w t ⬝ᵥ w t) * (vecPart (errorQuat (q t) qc) ⬝ᵥ vecPart (errorQuat (q t) qc)) := by
      rw [mul_pow, hs2, one_mul, mul_comm]; exact dot_sq_le _ _
    have hr' : (w t ⬝ᵥ (r + x)) ^ 2 ≤ (w t ⬝ᵥ w t) * (2 * npNorm r ^ 2 + 2 * δ ^ 2) :=
      (dot_sq_le _ _).trans (mul_le_mul_of_nonneg_left hd (dot_self_nonneg3 _))
    have hu' : (sgn * (vecPart (errorQuat (q t) qc) ⬝ᵥ (r + x))) ^ 2 ≤
        (vecPart (errorQuat (q t) qc) ⬝ᵥ vecPart (errorQuat (q t) qc)) * (2 * npNorm r ^ 2 + 2 * δ ^ 2) := by
      rw [mul_pow, hs2, one_mul]
      exact (dot_sq_le _ _).trans (mul_le_mul_of_nonneg_left hd (dot_self_nonneg3 _))
    have key := decay_ineq ha hg he hk h1 h2 h3 h4 (dot_self_nonneg3 (w t))
      (add_nonneg (mul_nonneg two_pos.le (sq_nonneg _)) (mul_nonneg two_pos.le (sq_nonneg _))) hb
      (dot_self_nonneg3 _) (hx t ht) hp hr' hu'
    refine key.trans ?_
    have hstr : w t ⬝ᵥ w t / 2 + 2 * alpha * (1 - sgn * errorQuat (q t) qc 0)
        + eps * (sgn * (vecPart (errorQuat (q t) qc) ⬝ᵥ w t)) = strict alpha eps sgn (errorQuat (q t) qc) (w t) := rfl
    rw [hstr]
    obtain ⟨V, hV⟩ : ∃ V, V = strict alpha eps sgn (errorQuat (q t) qc) (w t) := ⟨_, rfl⟩
    rw [← hV] at hr ⊢
    have hV0 : 0 ≤ V := by
      have h5 := (strict_between ha he h1 hs (hunit t ht) (w t)).1
      have h6 := dot_self_nonneg3 (w t)
      have h7 : sgn * errorQuat (q t) qc 0 ≤ 1 := by
        have : (sgn * errorQuat (q t) qc 0) ^ 2 ≤ 1 := by linarith [dot_self_nonneg3 (vecPart (errorQuat (q t) qc))]
        exact (abs_le.1 ((sq_le_one_iff_abs_le_one _).1 this)).2
      have h8 : 0 ≤ 2 * alpha * (1 - sgn * errorQuat (q t) qc 0) := mul_nonneg (by linarith) (by linarith)
      unfold lyap at h5
      rw [← hV] at h5
      linarith
    have hC : 0 ≤ 1 / gamma + eps / alpha := by positivity
    have g1 := mul_le_mul_of_nonneg_left hr hC
    have g2 := mul_le_mul_of_nonneg_right hθ hV0
    linarith) hμ (by linarith) (by linarith)
  linarith

end Adcs
