import Verif.Proofs.Instability
import Verif.Proofs.Held
import Verif.Props.TargetLoop
import Mathlib.Analysis.Calculus.MeanValue

set_option autoImplicit false

/-! # A satellite with wheels between two samples -/

namespace Adcs

open scoped Matrix Quaternion Topology
open Set Filter Sim

/-- A satellite with the inertia `I` (wheels included) between two samples, under the torques `u` of the motors of
wheels with the axes `G` (columns) and the spin inertia `Js`, and no external torque: attitude `q` (scalar last), body
rates `ω` and wheel speeds `Ω` relative to the body, for a time `T`. This specifies the satellite that
`simulation/ADCS_Simulation_Basilisk.py` lines 119-125 and 184-212 set up from Basilisk's `Spacecraft` and balanced
reaction wheels, which are not in the repository. Simplified: no friction in the wheels and only torques of the
wheels. -/
def Spec.Coast (I : M3) (Js : ℝ) (G : Matrix (Fin 3) (Fin 4) ℝ) (u : Fin 4 → ℝ) (T : ℝ) (q : ℝ → V4) (ω : ℝ → V3)
    (Ω : ℝ → Fin 4 → ℝ) : Prop :=
  ∀ s ∈ Icc 0 T, ∃ (q' : V4) (ω' : V3) (Ω' : Fin 4 → ℝ), HasDerivWithinAt q q' (Icc 0 T) s ∧
    HasDerivWithinAt ω ω' (Icc 0 T) s ∧ HasDerivWithinAt Ω Ω' (Icc 0 T) s ∧
    Spec.toHLast q' = (1/2 : ℝ) • (Spec.toHLast (q s) * Spec.pureH (ω s)) ∧
    I *ᵥ ω' + Js • (G *ᵥ Ω') = -(ω s ⨯₃ (I *ᵥ ω s + Js • (G *ᵥ Ω s))) ∧
    ∀ i, Js * (Ω' i + (Gᵀ *ᵥ ω') i) = u i

/-- The inertia that the motors of the wheels turn. -/
noncomputable def Spec.loopInertia (I : M3) (Js : ℝ) (G : Matrix (Fin 3) (Fin 4) ℝ) : M3 := I - Js • (G * Gᵀ)

open Spec

theorem const_of_deriv {E : Type} [NormedAddCommGroup E] [NormedSpace ℝ E] {f : ℝ → E} {T : ℝ}
    (h : ∀ s ∈ Icc 0 T, HasDerivWithinAt f 0 (Icc 0 T) s) {s : ℝ} (hs : s ∈ Icc 0 T) : f s = f 0 := by
  have h0 : (0 : ℝ) ∈ Icc 0 T := ⟨le_rfl, hs.1.trans hs.2⟩
  have := (convex_Icc (0 : ℝ) T).norm_image_sub_le_of_norm_hasDerivWithin_le (f' := fun _ => (0 : E)) (C := 0)
    h (by simp) h0 hs
  rw [zero_mul, norm_le_zero_iff, sub_eq_zero] at this
  exact this

theorem linear_of_deriv {E : Type} [NormedAddCommGroup E] [NormedSpace ℝ E] {f : ℝ → E} {a : E} {T : ℝ}
    (h : ∀ s ∈ Icc 0 T, HasDerivWithinAt f a (Icc 0 T) s) {s : ℝ} (hs : s ∈ Icc 0 T) : f s = f 0 + s • a := by
  have h2 : ∀ s ∈ Icc 0 T, HasDerivWithinAt (fun s => f s - s • a) 0 (Icc 0 T) s := by
    intro s hs
    have h1 : HasDerivWithinAt (fun s : ℝ => s • a) ((1 : ℝ) • a) (Icc 0 T) s :=
      (hasDerivWithinAt_id s _).smul_const a
    have := (h s hs).fun_sub h1
    rwa [one_smul, sub_self] at this
  have := const_of_deriv h2 hs
  simp only [zero_smul, sub_zero] at this
  rw [← this]; abel

/-- A mulVec of a moving vector. -/
theorem hasDeriv_mulVec {m n : Type} [Fintype m] [Fintype n] (A : Matrix m n ℝ) {f : ℝ → n → ℝ} {f' : n → ℝ}
    {S : Set ℝ} {s : ℝ} (h : HasDerivWithinAt f f' S s) : HasDerivWithinAt (fun r => A *ᵥ f r) (A *ᵥ f') S s := by
  rw [hasDerivWithinAt_pi] at h ⊢
  intro i
  have : HasDerivWithinAt (fun r => ∑ j, A i j * f r j) (∑ j, A i j * f' j) S s :=
    HasDerivWithinAt.fun_sum fun j _ => (h j).const_mul (A i j)
  exact this

section

variable {I : M3} {Js : ℝ} {G : Matrix (Fin 3) (Fin 4) ℝ} {u : Fin 4 → ℝ} {T : ℝ} {q : ℝ → V4} {ω : ℝ → V3}
  {Ω : ℝ → Fin 4 → ℝ}

/-- Zero total angular momentum stays zero. -/
theorem coast_momentum (h : Coast I Js G u T q ω Ω) (h0 : I *ᵥ ω 0 + Js • (G *ᵥ Ω 0) = 0) {s : ℝ}
    (hs : s ∈ Icc 0 T) : I *ᵥ ω s + Js • (G *ᵥ Ω s) = 0 := by
  set H : ℝ → V3 := fun s => I *ᵥ ω s + Js • (G *ᵥ Ω s) with hH
  have hd : ∀ s ∈ Icc 0 T, HasDerivWithinAt (fun s => H s ⬝ᵥ H s) 0 (Icc 0 T) s := by
    intro s hs
    obtain ⟨q', ω', Ω', -, h2, h3, -, h5, -⟩ := h s hs
    have hd : HasDerivWithinAt H (-(ω s ⨯₃ H s)) (Icc 0 T) s := by
      rw [← h5]
      exact (hasDeriv_mulVec I h2).fun_add ((hasDeriv_mulVec G h3).fun_const_smul Js)
    have hdc := hasDerivWithinAt_pi.1 hd
    have e : (fun s => H s ⬝ᵥ H s) = fun s => H s 0 * H s 0 + H s 1 * H s 1 + H s 2 * H s 2 := by
      funext s; rw [dotProduct, Fin.sum_univ_three]
    rw [e]
    refine ((((hdc 0).fun_mul (hdc 0)).fun_add ((hdc 1).fun_mul (hdc 1))).fun_add
      ((hdc 2).fun_mul (hdc 2))).congr_deriv ?_
    simp [crossProduct]
    ring
  have := const_of_deriv hd hs
  rw [show H 0 = 0 from h0, zero_dotProduct, dotProduct_self_eq_zero] at this
  exact this

/-- With zero total angular momentum, rates and wheel speeds change at a constant pace. -/
theorem coast_linear (h : Coast I Js G u T q ω Ω) (h0 : I *ᵥ ω 0 + Js • (G *ᵥ Ω 0) = 0) (hJs : Js ≠ 0)
    (hJ : (loopInertia I Js G).det ≠ 0) {s : ℝ} (hs : s ∈ Icc 0 T) :
    ω s = ω 0 + s • ((loopInertia I Js G)⁻¹ *ᵥ -(G *ᵥ u)) ∧
    Ω s = Ω 0 + s • (Js⁻¹ • u - Gᵀ *ᵥ ((loopInertia I Js G)⁻¹ *ᵥ -(G *ᵥ u))) := by
  set J := loopInertia I Js G with hJdef
  have key : ∀ s ∈ Icc 0 T, HasDerivWithinAt ω (J⁻¹ *ᵥ -(G *ᵥ u)) (Icc 0 T) s ∧
      HasDerivWithinAt Ω (Js⁻¹ • u - Gᵀ *ᵥ (J⁻¹ *ᵥ -(G *ᵥ u))) (Icc 0 T) s := by
    intro s hs
    obtain ⟨q', ω', Ω', -, h2, h3, -, h5, h6⟩ := h s hs
    rw [coast_momentum h h0 hs, map_zero, neg_zero] at h5
    have h7 : Js • Ω' = u - Js • (Gᵀ *ᵥ ω') := by
      funext i
      have := h6 i
      simp only [Pi.smul_apply, Pi.sub_apply, smul_eq_mul]
      linarith
    have h8 : J *ᵥ ω' = -(G *ᵥ u) := by
      rw [hJdef, loopInertia, Matrix.sub_mulVec, Matrix.smul_mulVec, ← Matrix.mulVec_mulVec]
      have : Js • G *ᵥ Ω' = G *ᵥ u - Js • G *ᵥ (Gᵀ *ᵥ ω') := by
        rw [← Matrix.mulVec_smul, h7, Matrix.mulVec_sub, Matrix.mulVec_smul]
      rw [this] at h5
      rw [← sub_eq_zero, ← h5]
      abel
    have h9 : ω' = J⁻¹ *ᵥ -(G *ᵥ u) := by
      rw [← h8, Matrix.mulVec_mulVec, Matrix.nonsing_inv_mul J (isUnit_iff_ne_zero.2 hJ), Matrix.one_mulVec]
    have h10 : Ω' = Js⁻¹ • u - Gᵀ *ᵥ ω' := by
      have := congrArg (fun z => Js⁻¹ • z) h7
      simp only [smul_smul, inv_mul_cancel₀ hJs, one_smul, smul_sub] at this
      exact this
    rw [← h9]
    exact ⟨h2, by rw [← h10]; exact h3⟩
  exact ⟨linear_of_deriv (fun s hs => (key s hs).1) hs, linear_of_deriv (fun s hs => (key s hs).2) hs⟩

end

/-! ### The attitude in the course of one sample -/

/-- The attitude relative to the target `t`, as `(δ / 2, c)`. -/
noncomputable def relδ (t : V4) (σ : ℝ) (q : V4) : V3 :=
  ![2 * σ * rawMult (quatConjugate t) q 0, 2 * σ * rawMult (quatConjugate t) q 1, 2 * σ * rawMult (quatConjugate t) q 2]
noncomputable def relc (t : V4) (σ : ℝ) (q : V4) : ℝ := σ * rawMult (quatConjugate t) q 3

theorem rel_sq {t : V4} (ht : npNorm t = 1) {σ : ℝ} (hσ : σ = 1 ∨ σ = -1) {q : V4} (hq : npNorm q = 1) :
    relδ t σ q 0 ^ 2 + relδ t σ q 1 ^ 2 + relδ t σ q 2 ^ 2 + 4 * relc t σ q ^ 2 = 4 := by
  have h1 : npNorm (rawMult (quatConjugate t) q) = 1 := by rw [npNorm_rawMult, npNorm_conj, ht, hq, one_mul]
  have h2 := npNorm4_sq (rawMult (quatConjugate t) q)
  rw [h1] at h2
  have hs : σ ^ 2 = 1 := by rcases hσ with rfl | rfl <;> norm_num
  simp [relδ, relc]
  linear_combination (-4 * σ ^ 2) * h2 + 4 * hs

theorem near_rel {t : V4} (ht : npNorm t = 1) {σ : ℝ} (hσ : σ = 1 ∨ σ = -1) {q : V4} (hq : npNorm q = 1)
    (hc : 0 ≤ relc t σ q) : q = σ • near t (relδ t σ q) := by
  have hs : σ * σ = 1 := by rcases hσ with rfl | rfl <;> norm_num
  have h4 := rel_sq ht hσ hq
  have hsq : √(1 - (relδ t σ q 0 ^ 2 + relδ t σ q 1 ^ 2 + relδ t σ q 2 ^ 2) / 4) = relc t σ q := by
    rw [show 1 - (relδ t σ q 0 ^ 2 + relδ t σ q 1 ^ 2 + relδ t σ q 2 ^ 2) / 4 = relc t σ q ^ 2 by linarith]
    exact Real.sqrt_sq hc
  have e : (![relδ t σ q 0 / 2, relδ t σ q 1 / 2, relδ t σ q 2 / 2, relc t σ q] : V4) =
      σ • rawMult (quatConjugate t) q := by
    apply vec4_ext <;> simp [relδ, relc] <;> ring
  have h1 : t 0 ^ 2 + t 1 ^ 2 + t 2 ^ 2 + t 3 ^ 2 = 1 := by rw [← npNorm4_sq, ht]; norm_num
  rw [near, hsq, e]
  have h2 := rawMult_smul 1 σ t (rawMult (quatConjugate t) q)
  rw [one_smul, one_mul] at h2
  rw [h2, smul_smul, hs, one_smul]
  apply vec4_ext <;> simp [rawMult, quatConjugate]
  · linear_combination (-q 0) * h1
  · linear_combination (-q 1) * h1
  · linear_combination (-q 2) * h1
  · linear_combination (-q 3) * h1

theorem rel_near {t : V4} (ht : npNorm t = 1) {σ : ℝ} (hσ : σ = 1 ∨ σ = -1) (δ : V3) :
    relδ t σ (σ • near t δ) = δ ∧
      relc t σ (σ • near t δ) = √(1 - (δ 0 ^ 2 + δ 1 ^ 2 + δ 2 ^ 2) / 4) := by
  have hs : σ * σ = 1 := by rcases hσ with rfl | rfl <;> norm_num
  have h2 := rawMult_smul 1 σ (quatConjugate t) (near t δ)
  rw [one_smul, one_mul] at h2
  have h3 : rawMult (quatConjugate t) (near t δ) =
      ![δ 0 / 2, δ 1 / 2, δ 2 / 2, √(1 - (δ 0 ^ 2 + δ 1 ^ 2 + δ 2 ^ 2) / 4)] := (rawMult_conj ht _).2.2
  rw [h3] at h2
  constructor
  · apply vec3_ext <;> simp only [relδ, h2] <;> simp <;> linear_combination δ _ * hs
  · rw [relc, h2]
    simp
    rw [← mul_assoc, hs, one_mul]

/-- The unit norm stays, and the rates of the relative attitude. -/
theorem rel_deriv {t : V4} {σ : ℝ} {T : ℝ} {q : ℝ → V4} {ω : V3} {q' : V4} {s : ℝ}
    (h : HasDerivWithinAt q q' (Icc 0 T) s) (hq : toHLast q' = (1/2 : ℝ) • (toHLast (q s) * pureH ω)) :
    HasDerivWithinAt (fun s => relδ t σ (q s))
      (relc t σ (q s) • ω + (1/2 : ℝ) • (relδ t σ (q s) ⨯₃ ω)) (Icc 0 T) s ∧
    HasDerivWithinAt (fun s => relc t σ (q s)) (-(1/4) * (relδ t σ (q s) ⬝ᵥ ω)) (Icc 0 T) s := by
  have hd := hasDerivWithinAt_pi.1 h
  have hq' : q' = (1/2 : ℝ) • rawMult (q s) ![ω 0, ω 1, ω 2, 0] := by
    apply toHLast_injective
    rw [hq, toHLast_smul, toHLast_rawMult]
    rfl
  have hder : ∀ a b c e : ℝ, HasDerivWithinAt (fun r => a * q r 0 + b * q r 1 + c * q r 2 + e * q r 3)
      (a * q' 0 + b * q' 1 + c * q' 2 + e * q' 3) (Icc 0 T) s := fun a b c e =>
    ((((hd 0).const_mul a).fun_add ((hd 1).const_mul b)).fun_add ((hd 2).const_mul c)).fun_add ((hd 3).const_mul e)
  have hsum : ∀ (g : ℝ → ℝ) (g' a b c e : ℝ), (∀ r, g r = a * q r 0 + b * q r 1 + c * q r 2 + e * q r 3) →
      g' = a * q' 0 + b * q' 1 + c * q' 2 + e * q' 3 → HasDerivWithinAt g g' (Icc 0 T) s := by
    intro g g' a b c e h1 h2
    rw [funext h1, h2]
    exact hder a b c e
  constructor
  · rw [hasDerivWithinAt_pi]
    intro i
    fin_cases i
    · apply hsum _ _ (2 * σ * t 3) (2 * σ * t 2) (-(2 * σ * t 1)) (-(2 * σ * t 0))
      · intro r; simp [relδ, rawMult, quatConjugate]; ring
      · rw [hq']; simp [relδ, relc, rawMult, quatConjugate, crossProduct]; ring
    · apply hsum _ _ (-(2 * σ * t 2)) (2 * σ * t 3) (2 * σ * t 0) (-(2 * σ * t 1))
      · intro r; simp [relδ, rawMult, quatConjugate]; ring
      · rw [hq']; simp [relδ, relc, rawMult, quatConjugate, crossProduct]; ring
    · apply hsum _ _ (2 * σ * t 1) (-(2 * σ * t 0)) (2 * σ * t 3) (-(2 * σ * t 2))
      · intro r; simp [relδ, rawMult, quatConjugate]; ring
      · rw [hq']; simp [relδ, relc, rawMult, quatConjugate, crossProduct]; ring
  · apply hsum _ _ (σ * t 0) (σ * t 1) (σ * t 2) (σ * t 3)
    · intro r; simp [relc, rawMult, quatConjugate]; ring
    · rw [hq']; simp [relδ, rawMult, quatConjugate, dotProduct, Fin.sum_univ_three]; ring

/-- The norm of the attitude stays. -/
theorem coast_unit {I : M3} {Js : ℝ} {G : Matrix (Fin 3) (Fin 4) ℝ} {u : Fin 4 → ℝ} {T : ℝ} {q : ℝ → V4} {ω : ℝ → V3}
    {Ω : ℝ → Fin 4 → ℝ} (h : Coast I Js G u T q ω Ω) (h0 : npNorm (q 0) = 1) {s : ℝ} (hs : s ∈ Icc 0 T) :
    npNorm (q s) = 1 := by
  have hd : ∀ s ∈ Icc 0 T, HasDerivWithinAt (fun s => q s 0 ^ 2 + q s 1 ^ 2 + q s 2 ^ 2 + q s 3 ^ 2) 0 (Icc 0 T) s := by
    intro s hs
    obtain ⟨q', ω', Ω', h1, -, -, h4, -, -⟩ := h s hs
    have hd := hasDerivWithinAt_pi.1 h1
    have hq' : q' = (1/2 : ℝ) • rawMult (q s) ![ω s 0, ω s 1, ω s 2, 0] := by
      apply toHLast_injective
      rw [h4, toHLast_smul, toHLast_rawMult]
      rfl
    refine (((((hd 0).fun_pow 2).fun_add ((hd 1).fun_pow 2)).fun_add ((hd 2).fun_pow 2)).fun_add
      ((hd 3).fun_pow 2)).congr_deriv ?_
    rw [hq']
    simp [rawMult]
    ring
  have h1 := const_of_deriv hd hs
  have h2 := npNorm4_sq (q 0)
  have h3 := npNorm4_sq (q s)
  rw [h0] at h2
  have : npNorm (q s) ^ 2 = 1 := by rw [h3]; rw [h1, ← h2]; norm_num
  nlinarith [npNorm_nonneg (q s)]

theorem cross_le (a b : V3) : ‖a ⨯₃ b‖ ≤ 2 * ‖a‖ * ‖b‖ := by
  rw [pi_norm_le_iff_of_nonneg (by positivity)]
  have h : ∀ i j k l : Fin 3, ‖a i * b j - a k * b l‖ ≤ 2 * ‖a‖ * ‖b‖ := by
    intro i j k l
    have h1 : ‖a i * b j‖ ≤ ‖a‖ * ‖b‖ := by
      rw [norm_mul]
      exact mul_le_mul (norm_le_pi_norm a i) (norm_le_pi_norm b j) (norm_nonneg _) (norm_nonneg _)
    have h2 : ‖a k * b l‖ ≤ ‖a‖ * ‖b‖ := by
      rw [norm_mul]
      exact mul_le_mul (norm_le_pi_norm a k) (norm_le_pi_norm b l) (norm_nonneg _) (norm_nonneg _)
    have := norm_sub_le (a i * b j) (a k * b l)
    linarith
  intro i
  fin_cases i
  · exact h 1 2 2 1
  · exact h 2 0 0 2
  · exact h 0 1 1 0

theorem dot_le (a b : V3) : |a ⬝ᵥ b| ≤ 3 * ‖a‖ * ‖b‖ := by
  have h : ∀ i, |a i * b i| ≤ ‖a‖ * ‖b‖ := by
    intro i
    rw [abs_mul]
    exact mul_le_mul (abs_le_norm a i) (abs_le_norm b i) (abs_nonneg _) (norm_nonneg _)
  rw [dotProduct, Fin.sum_univ_three]
  have h0 := h 0
  have h1 := h 1
  have h2 := h 2
  have := abs_add_three (a 0 * b 0) (a 1 * b 1) (a 2 * b 2)
  linarith

/-- How far the attitude is from the sum of the mean rates after one sample. -/
theorem rel_estimate {T : ℝ} (hT : 0 ≤ T) {δ : ℝ → V3} {c : ℝ → ℝ} {ω₀ a : V3} {r : ℝ} (hr1 : r ≤ 1)
    (hω : ∀ s ∈ Icc 0 T, ‖ω₀ + s • a‖ ≤ r) (h0 : ‖δ 0‖ ≤ r) (hc0 : 0 ≤ c 0)
    (hu : ∀ s ∈ Icc 0 T, δ s 0 ^ 2 + δ s 1 ^ 2 + δ s 2 ^ 2 + 4 * c s ^ 2 = 4)
    (hd : ∀ s ∈ Icc 0 T, HasDerivWithinAt δ (c s • (ω₀ + s • a) + (1/2 : ℝ) • (δ s ⨯₃ (ω₀ + s • a))) (Icc 0 T) s)
    (hc : ∀ s ∈ Icc 0 T, HasDerivWithinAt c (-(1/4) * (δ s ⬝ᵥ (ω₀ + s • a))) (Icc 0 T) s) :
    ‖δ T - δ 0 - (T / 2) • (ω₀ + (ω₀ + T • a))‖ ≤ (2 + 4 * T + 3 * T ^ 2) * T * r ^ 2 ∧
      1 - (1 + T + 3 * T ^ 2) * r ^ 2 ≤ c T := by
  have m0 : (0 : ℝ) ∈ Icc 0 T := ⟨le_rfl, hT⟩
  have mT : T ∈ Icc 0 T := ⟨hT, le_rfl⟩
  have hr0 : 0 ≤ r := (norm_nonneg _).trans h0
  have hcabs : ∀ s ∈ Icc 0 T, |c s| ≤ 1 := by
    intro s hs
    rw [← sq_le_one_iff_abs_le_one]
    have := hu s hs
    nlinarith [sq_nonneg (δ s 0), sq_nonneg (δ s 1), sq_nonneg (δ s 2)]
  have hδabs : ∀ s ∈ Icc 0 T, ‖δ s‖ ≤ 2 := by
    intro s hs
    rw [pi_norm_le_iff_of_nonneg (by norm_num)]
    have := hu s hs
    intro i
    rw [Real.norm_eq_abs]
    apply abs_le_of_sq_le_sq _ (by norm_num)
    fin_cases i <;> simp <;>
      nlinarith [sq_nonneg (δ s 0), sq_nonneg (δ s 1), sq_nonneg (δ s 2), sq_nonneg (c s)]
  have hstep : ∀ s ∈ Icc 0 T, ‖δ s‖ ≤ (1 + 3 * T) * r := by
    intro s hs
    have h1 := (convex_Icc (0 : ℝ) T).norm_image_sub_le_of_norm_hasDerivWithin_le (C := 3 * r) hd (by
      intro x hx
      have h1 := hω x hx
      have h2 := hcabs x hx
      have h3 := cross_le (δ x) (ω₀ + x • a)
      have h4 := hδabs x hx
      calc _ ≤ ‖c x • (ω₀ + x • a)‖ + ‖(1/2 : ℝ) • (δ x ⨯₃ (ω₀ + x • a))‖ := norm_add_le _ _
        _ = |c x| * ‖ω₀ + x • a‖ + 1 / 2 * ‖δ x ⨯₃ (ω₀ + x • a)‖ := by
          rw [norm_smul, norm_smul, Real.norm_eq_abs]; norm_num
        _ ≤ 1 * r + 1 / 2 * (2 * 2 * r) := by
          have : 2 * ‖δ x‖ * ‖ω₀ + x • a‖ ≤ 2 * 2 * r := by gcongr
          have : |c x| * ‖ω₀ + x • a‖ ≤ 1 * r := by gcongr
          linarith
        _ = 3 * r := by ring) m0 hs
    rw [sub_zero, Real.norm_of_nonneg hs.1] at h1
    have h2 := norm_sub_norm_le (δ s) (δ 0)
    have h3 : 3 * r * s ≤ 3 * r * T := by have := hs.2; gcongr
    linarith
  have hclow : ∀ s ∈ Icc 0 T, 1 - (1 + T + 3 * T ^ 2) * r ^ 2 ≤ c s := by
    intro s hs
    have h1 := (convex_Icc (0 : ℝ) T).norm_image_sub_le_of_norm_hasDerivWithin_le
      (C := (1 + 3 * T) * r ^ 2) hc (by
      intro x hx
      have h1 := hω x hx
      have h3 := dot_le (δ x) (ω₀ + x • a)
      have h4 := hstep x hx
      rw [norm_mul, Real.norm_eq_abs, Real.norm_eq_abs]
      have h5 : 3 * ‖δ x‖ * ‖ω₀ + x • a‖ ≤ 3 * ((1 + 3 * T) * r) * r := by gcongr
      have h6 : 0 ≤ (1 + 3 * T) * r * r := by positivity
      have h7 : |(-(1/4) : ℝ)| = 1/4 := by norm_num
      rw [h7]
      nlinarith) m0 hs
    rw [sub_zero, Real.norm_of_nonneg hs.1, Real.norm_eq_abs] at h1
    have h2 := (abs_le.1 h1).1
    have h3 : (1 + 3 * T) * r ^ 2 * s ≤ (1 + 3 * T) * r ^ 2 * T := by have := hs.2; gcongr
    have h4 := hu 0 m0
    have h5 : ∀ i, δ 0 i ^ 2 ≤ r ^ 2 := by
      intro i
      rw [← sq_abs]
      have := (abs_le_norm (δ 0) i).trans h0
      gcongr
    have h6 := h5 0
    have h7 := h5 1
    have h8 := h5 2
    have h9 := (abs_le.1 (hcabs 0 m0)).2
    have h10 : 1 - c 0 ≤ r ^ 2 := by nlinarith
    nlinarith
  refine ⟨?_, hclow T mT⟩
  have hy : ∀ s ∈ Icc 0 T, HasDerivWithinAt (fun s => δ s - (s • ω₀ + (s ^ 2 / 2) • a))
      ((c s - 1) • (ω₀ + s • a) + (1/2 : ℝ) • (δ s ⨯₃ (ω₀ + s • a))) (Icc 0 T) s := by
    intro s hs
    have h1 : HasDerivWithinAt (fun s : ℝ => s • ω₀) ((1 : ℝ) • ω₀) (Icc 0 T) s :=
      (hasDerivWithinAt_id s _).smul_const ω₀
    have h2 : HasDerivWithinAt (fun s : ℝ => (s ^ 2 / 2) • a) (s • a) (Icc 0 T) s := by
      have : HasDerivWithinAt (fun s : ℝ => s ^ 2 / 2) s (Icc 0 T) s :=
        (((hasDerivWithinAt_id s _).fun_pow 2).div_const 2).congr_deriv (by simp)
      exact this.smul_const a
    refine ((hd s hs).fun_sub (h1.fun_add h2)).congr_deriv ?_
    module
  have h1 := (convex_Icc (0 : ℝ) T).norm_image_sub_le_of_norm_hasDerivWithin_le
    (C := (2 + 4 * T + 3 * T ^ 2) * r ^ 2) hy (by
    intro x hx
    have h1 := hω x hx
    have h2 := hclow x hx
    have h2' := (abs_le.1 (hcabs x hx)).2
    have h3 := cross_le (δ x) (ω₀ + x • a)
    have h4 := hstep x hx
    have h5 : |c x - 1| ≤ (1 + T + 3 * T ^ 2) * r ^ 2 := by
      have : 0 ≤ (1 + T + 3 * T ^ 2) * r ^ 2 := by positivity
      rw [abs_le]; constructor <;> linarith
    calc _ ≤ ‖(c x - 1) • (ω₀ + x • a)‖ + ‖(1/2 : ℝ) • (δ x ⨯₃ (ω₀ + x • a))‖ := norm_add_le _ _
      _ = |c x - 1| * ‖ω₀ + x • a‖ + 1 / 2 * ‖δ x ⨯₃ (ω₀ + x • a)‖ := by
        rw [norm_smul, norm_smul, Real.norm_eq_abs]; norm_num
      _ ≤ (1 + T + 3 * T ^ 2) * r ^ 2 * 1 + 1 / 2 * (2 * ((1 + 3 * T) * r) * r) := by
        have h6 : 2 * ‖δ x‖ * ‖ω₀ + x • a‖ ≤ 2 * ((1 + 3 * T) * r) * r := by gcongr
        have h7 : |c x - 1| * ‖ω₀ + x • a‖ ≤ (1 + T + 3 * T ^ 2) * r ^ 2 * 1 := by
          have := h1.trans hr1
          gcongr
        linarith
      _ = (2 + 4 * T + 3 * T ^ 2) * r ^ 2 := by ring) m0 mT
  rw [sub_zero, Real.norm_of_nonneg hT] at h1
  have e : δ T - δ 0 - (T / 2) • (ω₀ + (ω₀ + T • a)) =
      δ T - (T • ω₀ + (T ^ 2 / 2) • a) - (δ 0 - ((0 : ℝ) • ω₀ + ((0 : ℝ) ^ 2 / 2) • a)) := by module
  rw [e]
  calc _ ≤ _ := h1
    _ = _ := by ring

end Adcs
