import Verif.Proofs.AttError
import Verif.Props.AttFilter
import Verif.Props.Noise

set_option autoImplicit false

/-! # C161, C162, C163: the error model of the attitude filter

The attitude filter carries a covariance of six numbers: three small angles between the estimated and the
true attitude, and the error of the bias.  Here is what the three ingredients of its prediction mean: the
transition matrix, the process noise, and the division into steps. -/

namespace Adcs

open Quat Vec Obs Att Dyn Sens MeasureTheory ProbabilityTheory
open scoped Matrix Quaternion

/-! ## C161: the transition matrix -/

/-- Specification: the attitude `p` turns at the constant body rate `u`, that is `ṗ = ½ p ∘ (0, u)` in
Mathlib's quaternions. -/
def Spec.Turns (p : ℝ → V4) (u : V3) : Prop :=
  ∀ t, ∃ p', HasDerivAt p p' t ∧ Spec.toH p' = (1 / 2 : ℝ) • (Spec.toH (p t) * ⟨0, u 0, u 1, u 2⟩)

/-- Specification: the small angles of the true attitude `p` seen from the estimate `q`: twice the vector
part of `q⁻¹ p` (of `q* p`, for a unit `q`). -/
noncomputable def Spec.smallAngles (q p : V4) : V3 :=
  ![2 * (star (Spec.toH q) * Spec.toH p).imI, 2 * (star (Spec.toH q) * Spec.toH p).imJ,
    2 * (star (Spec.toH q) * Spec.toH p).imK]

theorem smallAngles_eq (q p : V4) : Spec.smallAngles q p = (2 : ℝ) • vecPart (errorQuat p q) := by
  have : star (Spec.toH q) * Spec.toH p = Spec.toH (errorQuat p q) := by
    rw [errorQuat, toH_product, toH_conjugate]
  unfold Spec.smallAngles
  rw [this]
  refine vec3_ext ?_ ?_ ?_ <;> simp [Spec.toH, vecPart]

theorem toH_smul (c : ℝ) (a : V4) : Spec.toH (c • a) = c • Spec.toH a := by
  ext <;> rfl

theorem Spec.Turns.deriv {p : ℝ → V4} {u : V3} (h : Spec.Turns p u) (t : ℝ) :
    HasDerivAt p ((0.5 : ℝ) • product (p t) ![0, u 0, u 1, u 2]) t := by
  obtain ⟨p', h1, h2⟩ := h t
  refine h1.congr_deriv (toH_injective ?_)
  rw [h2, toH_smul, toH_product, show (0.5 : ℝ) = 1 / 2 by norm_num]
  rfl

theorem turns_of_deriv {p : ℝ → V4} {u : V3}
    (h : ∀ t, HasDerivAt p ((0.5 : ℝ) • product (p t) ![0, u 0, u 1, u 2]) t) : Spec.Turns p u := by
  intro t
  refine ⟨_, h t, ?_⟩
  rw [toH_smul, toH_product, show (0.5 : ℝ) = 1 / 2 by norm_num]
  rfl

theorem product_turns {p : V4} {u : V3} : Spec.Turns (fun t => product p (expq u t)) u := by
  refine turns_of_deriv fun t => ?_
  refine (hasDerivAt_product (hasDerivAt_const t p) (expq_deriv u t)).congr_deriv ?_
  generalize expq u t = b
  refine vec4_ext ?_ ?_ ?_ ?_ <;> simp [product_0, product_1, product_2, product_3] <;> ring

/-- C161: the covariance of a prediction is `Φ P Φᵀ + N` where `Φ`, `N` do not depend on the covariance
`P`, and `Φ` is the derivative of the true error motion: let the estimate `q` turn from `k.q` at the rate
reading minus the bias estimate, and let a one-parameter family of possible truths `p r` with biases `b r`
go through the estimate at `r = 0`.  If the initial small angles change by `δ` and the bias by `β` per unit
of `r`, the small angles after the time `dt` change by the first three components of `Φ (δ, β)`, and the
bias by the last three.  This holds for every rate, also zero, and any `dt`. -/
theorem C161_transition (k : Att.Kalman) (hk : npNorm k.q = 1) (w : V3) (dt : ℝ) :
    ∃ Φ N : M6, (∀ P, ({ k with P := P }.propagate w dt).P = Φ * P * Φᵀ + N) ∧
      ∀ (q : ℝ → V4) (p : ℝ → ℝ → V4) (b : ℝ → V3) (p' : V4) (δ β : V3),
        Spec.Turns q (w - k.b) → q 0 = k.q →
        (∀ r, Spec.Turns (p r) (w - b r)) → p 0 0 = k.q → b 0 = k.b →
        HasDerivAt (fun r => p r 0) p' 0 → HasDerivAt (fun r => Spec.smallAngles (q 0) (p r 0)) δ 0 →
        HasDerivAt b β 0 →
        HasDerivAt (fun r => Spec.smallAngles (q dt) (p r dt)) (fun i => (Φ *ᵥ Sum.elim δ β) (.inl i)) 0 ∧
        HasDerivAt b (fun i => (Φ *ᵥ Sum.elim δ β) (.inr i)) 0 := by
  refine ⟨phi (w - k.b) dt, G * (processNoise dt * Gᵀ), fun P => ?_, ?_⟩
  · simp only [Kalman.propagate, Matrix.mul_assoc]
  intro q p b p' δ β hq hq0 hp hp0 hb0 hp' hδ hβ
  have hu : HasDerivAt (fun r => w - b r) (-β) 0 := by
    simpa using (hasDerivAt_const (0 : ℝ) w).fun_sub hβ
  obtain ⟨E', hE, hE2⟩ := expq_param hu dt
  simp only [hb0] at hE2
  have hunit : IsUnit4 k.q := (isUnit4_iff _).2 hk
  have hδ' : δ = (2 : ℝ) • vecPart (product (conjugate k.q) p') := by
    refine hδ.unique ?_
    have h1 := (hasDerivAt_vecPart (hasDerivAt_product
      (hasDerivAt_const (0 : ℝ) (conjugate k.q)) hp')).const_smul (2 : ℝ)
    have e : (fun r => Spec.smallAngles (q 0) (p r 0))
        = fun r => (2 : ℝ) • vecPart (product (conjugate k.q) (p r 0)) := by
      funext r; rw [smallAngles_eq, hq0, errorQuat]
    rw [e]
    refine h1.congr_deriv ?_
    congr 2
    refine vec4_ext ?_ ?_ ?_ ?_ <;> simp [product_0, product_1, product_2, product_3]
  have hmul : phi (w - k.b) dt *ᵥ Sum.elim δ β
      = Sum.elim (phi11 (w - k.b) dt *ᵥ δ + phi12 (w - k.b) dt *ᵥ β) β := by
    rw [phi, Matrix.fromBlocks_mulVec]
    simp
  rw [hmul]
  refine ⟨?_, hβ⟩
  have e : (fun r => Spec.smallAngles (q dt) (p r dt))
      = fun r => (2 : ℝ) • vecPart (product (product (conjugate (expq (w - k.b) dt))
          (product (conjugate k.q) (p r 0))) (expq (w - b r) dt)) := by
    funext r
    rw [smallAngles_eq, errorQuat, expq_unique hq.deriv dt, expq_unique (hp r).deriv dt, hq0,
      conjugate_product, product_assoc, product_assoc, product_assoc]
  rw [e]
  have h1 := hasDerivAt_product (hasDerivAt_product (hasDerivAt_const (0 : ℝ) (conjugate (expq (w - k.b) dt)))
    (hasDerivAt_product (hasDerivAt_const (0 : ℝ) (conjugate k.q)) hp')) hE
  refine ((hasDerivAt_vecPart h1).const_smul (2 : ℝ)).congr_deriv ?_
  have hz : ∀ a : V4, product 0 a = 0 := fun a => by
    refine vec4_ext ?_ ?_ ?_ ?_ <;> simp [product_0, product_1, product_2, product_3]
  have hv : ∀ a c : V4, vecPart (a + c) = vecPart a + vecPart c := fun a c => by
    refine vec3_ext ?_ ?_ ?_ <;> simp [vecPart]
  simp only [hp0, hb0, conj_product_self hunit, product_one, hz, zero_add]
  rw [hv, smul_add, hE2, expq_rotates, hδ', Matrix.mulVec_neg, neg_neg,
    Matrix.mulVec_smul]
  rfl

/-- A family that meets the hypotheses of `C161_transition`: a truth turned about x and a bias about z. -/
example (k : Att.Kalman) (hk : npNorm k.q = 1) (w : V3) :
    ∃ (q : ℝ → V4) (p : ℝ → ℝ → V4) (b : ℝ → V3) (p' : V4),
      Spec.Turns q (w - k.b) ∧ q 0 = k.q ∧ (∀ r, Spec.Turns (p r) (w - b r)) ∧ p 0 0 = k.q ∧ b 0 = k.b ∧
      HasDerivAt (fun r => p r 0) p' 0 ∧
      HasDerivAt (fun r => Spec.smallAngles (q 0) (p r 0)) ![1, 0, 0] 0 ∧ HasDerivAt b ![0, 0, 1] 0 := by
  have hunit : IsUnit4 k.q := (isUnit4_iff _).2 hk
  have hd : HasDerivAt (fun r : ℝ => (![1, r / 2, 0, 0] : V4)) ![0, 1 / 2, 0, 0] 0 := by
    rw [hasDerivAt_pi]
    intro i
    fin_cases i
    · exact hasDerivAt_const 0 1
    · exact (hasDerivAt_id (0 : ℝ)).div_const 2
    · exact hasDerivAt_const 0 0
    · exact hasDerivAt_const 0 0
  have h0 : ∀ u : V3, ∀ a : V4, product a (expq u 0) = a := fun u a => by rw [expq_zero, product_one]
  refine ⟨fun t => product k.q (expq (w - k.b) t),
    fun r t => product (product k.q ![1, r / 2, 0, 0]) (expq (w - (k.b + r • ![0, 0, 1])) t),
    fun r => k.b + r • ![0, 0, 1], product k.q ![0, 1 / 2, 0, 0], product_turns, h0 _ _,
    fun r => product_turns, ?_, by simp, ?_, ?_, ?_⟩
  · simp only [h0, zero_div, product_one]
  · simp only [h0]
    refine (hasDerivAt_product (hasDerivAt_const (0 : ℝ) k.q) hd).congr_deriv ?_
    refine vec4_ext ?_ ?_ ?_ ?_ <;> simp [product_0, product_1, product_2, product_3]
  · have e : (fun r : ℝ => Spec.smallAngles (product k.q (expq (w - k.b) 0))
        (product (product k.q ![1, r / 2, 0, 0]) (expq (w - (k.b + r • ![0, 0, 1])) 0)))
        = fun r => (2 : ℝ) • vecPart ![1, r / 2, 0, 0] := by
      funext r
      rw [smallAngles_eq, h0, h0, errorQuat, ← product_assoc, conj_product_self hunit, one_product]
    rw [e]
    refine ((hasDerivAt_vecPart hd).const_smul (2 : ℝ)).congr_deriv ?_
    refine vec3_ext ?_ ?_ ?_ <;> simp [vecPart]
  · have := ((hasDerivAt_id (0 : ℝ)).smul_const (![0, 0, 1] : V3)).const_add k.b
    simpa using this

/-! ## C162: the process noise -/

/-- Specification: the covariance matrix of the errors of a dead-reckoned attitude and of a bias that is
taken to be zero.  `θ` is the error of the integrated readings; an attitude that was turned too far by `θ`
sees the truth at the small angles `-θ`. -/
noncomputable def Spec.errorCov (θ β : Rng → V3) : M6 :=
  Matrix.of fun a b => cov[Sum.elim (fun i z => -θ z i) (fun i z => β z i) a,
    Sum.elim (fun i z => -θ z i) (fun i z => β z i) b; Gauss.draws]

/-- The claim: take the simulated gyro with the two densities that the filter assumes and with an initial
bias of standard deviation `ib`, and a filter that knows this bias to be zero up to `ib` and the attitude
exactly.  After any history of the gyro the covariance of the filter, predicted in one step with a rate
reading equal to the bias estimate, is the covariance of the errors. -/
def C162_claim : Prop :=
  ∀ (n : ℕ) (arwMean ib : ℝ) (l : List (ℝ × SatState n)) (θ β : Rng → V3), l ≠ [] → (∀ p ∈ l, 0 < p.1) →
    Spec.GyroOutcome arwMean 2.79e-4 0 8.73e-7 ib l θ β →
    ∀ k : Att.Kalman, k.P = Matrix.fromBlocks 0 0 0 (ib ^ 2 • 1) →
      (k.propagate k.b (elapsed l)).P = Spec.errorCov θ β

/-- One prediction without rotation, in blocks. -/
theorem still_step (k : Att.Kalman) {A B C D : M3} (hP : k.P = Matrix.fromBlocks A B C D) (t : ℝ) :
    (k.propagate k.b t).P = Matrix.fromBlocks
      (A - t • C - t • B + t ^ 2 • D + (gyroVar * t + 0.3333333 * driftVar * t ^ 3) • 1)
      (B - t • D + (driftVar * t ^ 2 / 2) • 1) (C - t • D + (driftVar * t ^ 2 / 2) • 1)
      (D + (driftVar * t) • 1) := by
  have hn : npNorm (0 : V3) = 0 := npNorm_eq_zero.2 rfl
  simp only [Kalman.propagate, phi, G, processNoise, sub_self, hP,
    Matrix.fromBlocks_transpose, Matrix.fromBlocks_multiply, Matrix.fromBlocks_add,
    phi11_zero hn, phi12_zero hn]
  have e : (0.5 : ℝ) = 1 / 2 := by norm_num
  congr 1 <;> simp [Matrix.transpose_smul, e] <;> module

/-- The covariance of the errors of dead reckoning with the simulated gyro. -/
theorem errorCov_eq {n : ℕ} {arwMean arwStd rrwStd ib : ℝ} {l : List (ℝ × SatState n)} {θ β : Rng → V3}
    (hl : ∀ p ∈ l, 0 < p.1) (h : Spec.GyroOutcome arwMean arwStd 0 rrwStd ib l θ β) :
    Spec.errorCov θ β = Matrix.fromBlocks
      ((ib ^ 2 * elapsed l ^ 2 + arwStd ^ 2 * elapsed l + rrwStd ^ 2 * elapsed l ^ 3 / 3) • 1)
      (-(ib ^ 2 * elapsed l + rrwStd ^ 2 * elapsed l ^ 2 / 2) • 1)
      (-(ib ^ 2 * elapsed l + rrwStd ^ 2 * elapsed l ^ 2 / 2) • 1)
      ((ib ^ 2 + rrwStd ^ 2 * elapsed l) • 1) := by
  obtain ⟨ca, a, b, H, -, h1, h2, h3⟩ := gyro_moments arwMean arwStd 0 rrwStd ib l hl
  choose x g hr _ _ _ _ hb hx using H
  obtain ⟨rfl, rfl⟩ := outcome_unique h (θ' := fun z => x z - turnedAngle l) (β' := fun z => (g z).bias)
    fun z => ⟨_, _, x z, g z, _, rfl, hr z, rfl, rfl⟩
  have eb : ∀ i, (fun z => (g z).bias i) = Gauss.aff (3 + 6 * l.length)
      (0 * (l.map fun p => Real.sqrt p.1).sum) (b i) := fun i => by funext z; exact hb z i
  have ea : ∀ i, (fun z => (x z - turnedAngle l) i) = Gauss.aff (3 + 6 * l.length) ca (a i) :=
    fun i => by funext z; exact hx z i
  ext i j
  rcases i with i | i <;> rcases j with j | j
  · simp only [Spec.errorCov, Matrix.of_apply, Sum.elim_inl, Matrix.fromBlocks_apply₁₁]
    rw [covariance_fun_neg_left, covariance_fun_neg_right, ea, ea, Gauss.aff_cov, h3]
    by_cases hij : i = j <;> simp [hij]
  · simp only [Spec.errorCov, Matrix.of_apply, Sum.elim_inl, Sum.elim_inr, Matrix.fromBlocks_apply₁₂]
    rw [covariance_fun_neg_left, ea, eb, Gauss.aff_cov, h2]
    by_cases hij : i = j <;> simp [hij]
  · simp only [Spec.errorCov, Matrix.of_apply, Sum.elim_inl, Sum.elim_inr, Matrix.fromBlocks_apply₂₁]
    rw [covariance_fun_neg_right, covariance_comm, ea, eb, Gauss.aff_cov, h2]
    by_cases hij : j = i
    · simp [hij]
    · simp [hij, Ne.symm hij]
  · simp only [Spec.errorCov, Matrix.of_apply, Sum.elim_inr, Matrix.fromBlocks_apply₂₂]
    rw [eb, eb, Gauss.aff_cov, h1]
    by_cases hij : i = j <;> simp [hij]

/-- C162, what holds: the variances of the bias agree, those of the angles agree up to the constant
`0.3333333` for a third, and the covariance of the two has the opposite sign in its drift term: the
predicted one is larger by `driftVar * T²`.  Missing: `C162_noise_fails`. -/
theorem C162_noise_partial {n : ℕ} (arwMean ib : ℝ) (l : List (ℝ × SatState n)) (θ β : Rng → V3)
    (hl : ∀ p ∈ l, 0 < p.1) (h : Spec.GyroOutcome arwMean 2.79e-4 0 8.73e-7 ib l θ β)
    (k : Att.Kalman) (hk : k.P = Matrix.fromBlocks 0 0 0 (ib ^ 2 • 1)) :
    (k.propagate k.b (elapsed l)).P = Spec.errorCov θ β + Matrix.fromBlocks
      (((0.3333333 - 1 / 3) * 8.73e-7 ^ 2 * elapsed l ^ 3) • 1) ((8.73e-7 ^ 2 * elapsed l ^ 2) • 1)
      ((8.73e-7 ^ 2 * elapsed l ^ 2) • 1) 0 := by
  rw [still_step k hk, errorCov_eq hl h, Matrix.fromBlocks_add]
  simp only [gyroVar, driftVar]
  congr 1 <;> module

/-- C162 fails: the covariance of angle and drift has the wrong sign. -/
theorem C162_noise_fails : ¬ C162_claim := by
  intro hc
  obtain ⟨s, -, -⟩ := exState 4
  have hl : ∀ p ∈ [((1 : ℝ), s)], 0 < p.1 := by simp
  obtain ⟨θ, β, h, -⟩ := C155_bias 0 2.79e-4 0 8.73e-7 1 [((1 : ℝ), s)] hl
  let k : Att.Kalman := ⟨0, 0, Matrix.fromBlocks 0 0 0 ((1 : ℝ) ^ 2 • 1), 0, 0⟩
  have h1 := hc 4 0 1 _ θ β (by simp) hl h k rfl
  rw [C162_noise_partial 0 1 _ θ β hl h k rfl] at h1
  have h2 := congrFun (congrFun h1 (.inl 0)) (.inr 0)
  simp [Matrix.add_apply, elapsed] at h2
  norm_num at h2

example (s : SatState 4) : ∃ θ β, Spec.GyroOutcome 0 2.79e-4 0 8.73e-7 3.15e-5 [((0.1 : ℝ), s), (0.1, s)] θ β := by
  obtain ⟨θ, β, h, -⟩ := C155_bias 0 2.79e-4 0 8.73e-7 3.15e-5 [((0.1 : ℝ), s), (0.1, s)]
    (by simp; norm_num)
  exact ⟨θ, β, h⟩

/-! ## C163: the division of a prediction into steps -/

/-- `n` predictions of length `dt` with the same rate reading. -/
noncomputable def predictions (k : Att.Kalman) (w : V3) (dt : ℝ) (n : ℕ) : Att.Kalman :=
  (fun k => k.propagate w dt)^[n] k

/-- The claim: without rotation the predicted covariance depends on the elapsed time only. -/
def C163_claim : Prop :=
  ∀ (k : Att.Kalman) (n : ℕ) (dt : ℝ), 0 < n → 0 < dt →
    (predictions k k.b dt n).P = (k.propagate k.b (n * dt)).P

/-- Specification: the covariance after the time `T` without rotation when white rate noise of density
`gv` and a bias driven by white noise of density `dv` act on errors with the covariance `P`: the transition
`(δ, β) ↦ (δ - T β, β)` and the integrals of the noise. -/
noncomputable def Spec.stillCov (gv dv : ℝ) (P : M6) (T : ℝ) : M6 :=
  Matrix.fromBlocks 1 (-T • 1) 0 1 * P * (Matrix.fromBlocks 1 (-T • 1) 0 1)ᵀ +
    Matrix.fromBlocks ((gv * T + dv * T ^ 3 / 3) • 1) (-(dv * T ^ 2 / 2) • 1) (-(dv * T ^ 2 / 2) • 1)
      ((dv * T) • 1)

theorem stillCov_blocks (gv dv T : ℝ) (A B C D : M3) :
    Spec.stillCov gv dv (Matrix.fromBlocks A B C D) T = Matrix.fromBlocks
      (A - T • C - T • B + T ^ 2 • D + (gv * T + dv * T ^ 3 / 3) • 1)
      (B - T • D - (dv * T ^ 2 / 2) • 1) (C - T • D - (dv * T ^ 2 / 2) • 1) (D + (dv * T) • 1) := by
  simp only [Spec.stillCov, Matrix.fromBlocks_transpose, Matrix.fromBlocks_multiply, Matrix.fromBlocks_add]
  congr 1 <;> simp [Matrix.transpose_smul] <;> module

/-- The specification depends on the elapsed time only. -/
theorem stillCov_add (gv dv s t : ℝ) (P : M6) :
    Spec.stillCov gv dv (Spec.stillCov gv dv P s) t = Spec.stillCov gv dv P (s + t) := by
  rw [← Matrix.fromBlocks_toBlocks P, stillCov_blocks, stillCov_blocks, stillCov_blocks]
  congr 1 <;> module

theorem predictions_b (k : Att.Kalman) (w : V3) (dt : ℝ) (n : ℕ) : (predictions k w dt n).b = k.b := by
  induction n with
  | zero => rfl
  | succ n ih =>
    rw [predictions, Function.iterate_succ_apply']
    exact ih

/-- C163, what holds: after `n` steps of length `dt`, `T = n dt`, the predicted covariance is the exact one
plus errors that depend on the length of the steps: the variance of the angles is too small by
`driftVar * dt * T * (T - dt)`, apart from the constant `0.3333333`, and the covariance of angle and bias
too large by `driftVar * dt * T`; both vanish as the steps become short.  Missing: `C163_steps_fails`. -/
theorem C163_steps_partial (k : Att.Kalman) (n : ℕ) (dt : ℝ) :
    (predictions k k.b dt n).P = Spec.stillCov (2.79e-4 ^ 2) (8.73e-7 ^ 2) k.P (n * dt) +
      Matrix.fromBlocks
        ((-(8.73e-7 ^ 2 * dt * (n * dt) * (n * dt - dt)) +
          (0.3333333 - 1 / 3) * 8.73e-7 ^ 2 * dt ^ 2 * (n * dt)) • 1)
        ((8.73e-7 ^ 2 * dt * (n * dt)) • 1) ((8.73e-7 ^ 2 * dt * (n * dt)) • 1) 0 := by
  obtain ⟨A, B, C, D, hP⟩ : ∃ A B C D : M3, k.P = Matrix.fromBlocks A B C D :=
    ⟨_, _, _, _, (Matrix.fromBlocks_toBlocks k.P).symm⟩
  induction n with
  | zero =>
    rw [hP, stillCov_blocks, Matrix.fromBlocks_add]
    simp [predictions, hP]
  | succ n ih =>
    rw [hP, stillCov_blocks, Matrix.fromBlocks_add] at ih ⊢
    rw [predictions, Function.iterate_succ_apply']
    have h1 := still_step (predictions k k.b dt n) ih dt
    rw [predictions_b] at h1
    refine h1.trans ?_
    simp only [gyroVar, driftVar]
    push_cast
    congr 1 <;> module

/-- C163 fails: two steps of one second predict another covariance of angle and bias than one of two seconds. -/
theorem C163_steps_fails : ¬ C163_claim := by
  intro hc
  have h1 := hc (Att.init ![1, 0, 0, 0]) 2 1 (by norm_num) (by norm_num)
  have h2 := C163_steps_partial (Att.init ![1, 0, 0, 0]) 1 2
  have h3 : predictions (Att.init ![1, 0, 0, 0]) (Att.init ![1, 0, 0, 0]).b 2 1
      = (Att.init ![1, 0, 0, 0]).propagate (Att.init ![1, 0, 0, 0]).b 2 := rfl
  rw [C163_steps_partial] at h1
  rw [h3] at h2
  norm_num at h1 h2
  rw [h2] at h1
  have h4 := congrFun (congrFun h1 (.inl 0)) (.inr 0)
  simp [Matrix.add_apply] at h4
  norm_num at h4

end Adcs
