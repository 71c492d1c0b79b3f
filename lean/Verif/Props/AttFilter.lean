import Verif.Proofs.AttFilter
import Verif.Spec.Rotation
import Mathlib.Analysis.SpecialFunctions.Trigonometric.ArctanDeriv
import Mathlib.Analysis.SpecialFunctions.Trigonometric.Deriv
import Mathlib.Analysis.Calculus.Deriv.Prod
import Mathlib.Analysis.Real.Pi.Bounds

set_option autoImplicit false

/-! # C81–C84, C106, C107: the attitude filter -/

namespace Adcs

open Spec Vec Quat Obs Obs.Att
open scoped Matrix

/-- A call made on the filter. -/
inductive AttEvent
  | measurement (q : V4)
  | propagate (w : V3) (dt : ℝ)

/-- One call. -/
noncomputable def AttEvent.apply (k : Att.Kalman) : AttEvent → Py Att.Kalman
  | .measurement q => k.measurement q
  | .propagate w dt => .ok (k.propagate w dt)

/-- A history of calls; it ends at the first exception. -/
noncomputable def attRun (k : Att.Kalman) : List AttEvent → Py Att.Kalman
  | [] => .ok k
  | e :: l =>
    match e.apply k with
    | .error x => .error x
    | .ok k' => attRun k' l

/-- Time steps are positive. -/
def AttEvent.Forward : AttEvent → Prop
  | .measurement _ => True
  | .propagate _ dt => 0 < dt

/-- A history that exercises both calls. -/
def exHistory : List AttEvent :=
  [.propagate ![0.01, 0, 0.02] 0.5, .measurement ![0.6, 0, 0.8, 0], .propagate ![0, 1, 0] 2,
    .measurement ![1, 0, 0, 0]]

example : ∀ e ∈ exHistory, e.Forward := by
  norm_num [exHistory, AttEvent.Forward]

/-! ## C81 -/

theorem init_strict (q : V4) : StrictCovariance (Att.init q).P := by
  have : (Att.init q).P = Matrix.diagonal (Sum.elim (fun _ => sensorSigma ^ 2)
      fun _ => initialBias ^ 2) := by
    simp [Att.init, Matrix.fromBlocks_diagonal]
  rw [this]
  refine StrictCovariance.diagonal fun i => ?_
  rcases i with i | i
  · exact pow_pos sensorSigma_pos 2
  · norm_num [initialBias]

/-- C81: a measurement never fails on a filter with a covariance; the new covariance is again one,
is nowhere larger than before, and its attitude part is at most the sensor covariance. -/
theorem C81_measurement (k : Att.Kalman) (h : StrictCovariance k.P) (q : V4) :
    ∃ k', k.measurement q = .ok k' ∧ StrictCovariance k'.P ∧ NoLarger k'.P k.P ∧
      NoLarger k'.P.toBlocks₁₁ (Matrix.diagonal fun _ : Fin 3 => (0.75e-7 : ℝ) ^ 2) := by
  refine ⟨_, measurement_eq h.weaken q, kpost_strict h attR_strict,
    kpost_noLarger h.weaken attR_strict, ?_⟩
  have := kpost_noLarger_meas (H := obsH) h.weaken attR_strict
  rw [obsH_P] at this
  exact this

/-- C81: propagation over a positive time keeps the covariance symmetric positive definite. -/
theorem C81_propagate (k : Att.Kalman) (h : Covariance k.P) (w : V3) (dt : ℝ) (hdt : 0 < dt) :
    StrictCovariance (k.propagate w dt).P :=
  (h.conj _).add_strict (processNoise_strict hdt)

theorem attRun_strict {k : Att.Kalman} (h : StrictCovariance k.P) (l : List AttEvent)
    (hl : ∀ e ∈ l, e.Forward) : ∃ k', attRun k l = .ok k' ∧ StrictCovariance k'.P := by
  induction l generalizing k with
  | nil => exact ⟨k, rfl, h⟩
  | cons e l ih =>
    have hl' : ∀ e ∈ l, e.Forward := fun e he => hl e (List.mem_cons_of_mem _ he)
    cases e with
    | measurement q =>
      obtain ⟨k', hk, hs, -, -⟩ := C81_measurement k h q
      simp only [attRun, AttEvent.apply, hk]
      exact ih hs hl'
    | propagate w dt =>
      have hdt : 0 < dt := hl (.propagate w dt) List.mem_cons_self
      simp only [attRun, AttEvent.apply]
      exact ih (C81_propagate k h.weaken w dt hdt) hl'

/-- C81: no history of calls with positive time steps raises an exception, and after each of them
the covariance is symmetric positive definite. -/
theorem C81_history (q : V4) (l : List AttEvent) (hl : ∀ e ∈ l, e.Forward) :
    ∃ k, attRun (Att.init q) l = .ok k ∧ StrictCovariance k.P :=
  attRun_strict (init_strict q) l hl

example : ∃ k, attRun (Att.init ![1, 0, 0, 0]) exHistory = .ok k ∧ StrictCovariance k.P :=
  C81_history _ _ (by norm_num [exHistory, AttEvent.Forward])

/-- C81: positive time steps are needed: a propagation backwards over 2000 s leaves a negative
variance. -/
theorem C81_backwards : ¬ Covariance ((Att.init ![1, 0, 0, 0]).propagate 0 (-2000)).P := by
  intro h
  have h1 := h.2 (Sum.elim 0 ![1, 0, 0])
  have e : ((Att.init ![1, 0, 0, 0]).propagate 0 (-2000)).P.mulVec (Sum.elim 0 ![1, 0, 0]) (.inr 0)
      = initialBias ^ 2 - 2000 * driftVar := by
    have hn : npNorm (0 : V3) = 0 := npNorm_eq_zero.2 rfl
    simp only [Kalman.propagate, Att.init, phi, G, processNoise, sub_self,
      Matrix.fromBlocks_transpose, Matrix.fromBlocks_multiply, Matrix.fromBlocks_add,
      phi11_zero hn, phi12_zero hn]
    rw [Matrix.fromBlocks_mulVec]
    simp [Matrix.mulVec, dotProduct, Fin.sum_univ_three, Matrix.add_apply]
    ring
  have : Sum.elim (0 : V3) ![1, 0, 0] ⬝ᵥ
      (((Att.init ![1, 0, 0, 0]).propagate 0 (-2000)).P *ᵥ Sum.elim 0 ![1, 0, 0])
      = ((Att.init ![1, 0, 0, 0]).propagate 0 (-2000)).P.mulVec (Sum.elim 0 ![1, 0, 0]) (.inr 0) := by
    simp [dotProduct, Fin.sum_univ_three]
  rw [this, e] at h1
  norm_num [initialBias, driftVar] at h1

/-! ## C82 -/

/-- The full claim of C82. -/
def C82_claim : Prop :=
  ∀ (q : V4) (l : List AttEvent), npNorm q = 1 → (∀ e ∈ l, e.Forward) →
    ∃ k, attRun (Att.init q) l = .ok k ∧ npNorm k.q = 1

theorem npNorm_e1 : npNorm (![1, 0, 0] : V3) = 1 := npNorm_vec3 (by norm_num)

theorem psi_e1 (dt : ℝ) : psi ![1, 0, 0] dt = ![Real.sin (dt * 0.5), 0, 0] := by
  simp only [psi, npNorm_e1]
  refine vec3_ext ?_ ?_ ?_ <;> simp

/-- C82 fails: one propagation makes the estimate longer than 1. -/
theorem C82_unit_fails : ¬ C82_claim := by
  intro h
  obtain ⟨k, hk, hn⟩ := h ![0, 0, 1, 0] [.propagate ![1, 0, 0] Real.pi]
    (npNorm_vec4 (by norm_num)) (by simp [AttEvent.Forward, Real.pi_pos])
  simp only [attRun, AttEvent.apply, Except.ok.injEq] at hk
  subst hk
  have h2 := omega_sumSq ![1, 0, 0] Real.pi ![0, 0, 1, 0]
  have hq : npNorm (![0, 0, 1, 0] : V4) = 1 := npNorm_vec4 (by norm_num)
  have hw : ((![1, 0, 0] : V3) - (Att.init ![0, 0, 1, 0]).b) = ![1, 0, 0] := by simp [Att.init]
  have e : npNorm (omega ![1, 0, 0] Real.pi *ᵥ ![0, 0, 1, 0]) = 1 := by
    have := hn
    simp only [Kalman.propagate, hw] at this
    exact this
  have hpi : Real.pi * 0.5 = Real.pi / 2 := by ring
  rw [e, hq, npNorm_e1, one_mul, hpi, Real.sin_pi_div_two] at h2
  norm_num at h2

/-- C82: the length of the estimate after a propagation, for any rate and step. -/
theorem C82_length (k : Att.Kalman) (w : V3) (dt : ℝ) :
    let u := w - k.b
    let a := npNorm u * dt * 0.5
    npNorm (k.propagate w dt).q ^ 2 = npNorm k.q ^ 2
      + Real.sin a ^ 2 * npNorm (vecPart k.q) ^ 2
      + 2 * (1 - Real.cos a) * k.q 0 * (psi u dt ⬝ᵥ vecPart k.q) := by
  have := omega_sumSq (w - k.b) dt k.q
  simp only [Kalman.propagate, this, npNorm3_sq, Matrix.vec3_dotProduct, vecPart_0, vecPart_1,
    vecPart_2]

/-- A propagation through at most half a turn does not lose the estimate. -/
theorem omega_ne_zero {w : V3} {dt : ℝ} (h0 : 0 ≤ dt) (h : npNorm w * dt ≤ Real.pi) {q : V4}
    (hq : q ≠ 0) : omega w dt *ᵥ q ≠ 0 := by
  intro h0'
  have h2 := omega_sumSq w dt q
  rw [h0', npNorm_eq_zero.2 rfl, npNorm4_sq] at h2
  have hp := psi_sq w dt
  have hsc := Real.sin_sq_add_cos_sq (npNorm w * dt * 0.5)
  have hc : 0 ≤ Real.cos (npNorm w * dt * 0.5) := by
    refine Real.cos_nonneg_of_neg_pi_div_two_le_of_le ?_ ?_
    · have := mul_nonneg (npNorm_nonneg w) h0
      linarith [Real.pi_pos]
    · linarith
  have hc1 := Real.cos_le_one (npNorm w * dt * 0.5)
  have hs : 0 < npNorm q ^ 2 := pow_pos (npNorm_pos hq) 2
  rw [npNorm4_sq] at hs
  generalize Real.sin (npNorm w * dt * 0.5) = s at *
  generalize Real.cos (npNorm w * dt * 0.5) = c at *
  generalize psi w dt 0 = p0 at *
  generalize psi w dt 1 = p1 at *
  generalize psi w dt 2 = p2 at *
  generalize q 0 = a at *
  generalize q 1 = x at *
  generalize q 2 = y at *
  generalize q 3 = z at *
  have hcs : (p0 * x + p1 * y + p2 * z) ^ 2 ≤ s ^ 2 * (x ^ 2 + y ^ 2 + z ^ 2) := by
    rw [← hp]
    nlinarith [sq_nonneg (p0 * y - p1 * x), sq_nonneg (p0 * z - p2 * x), sq_nonneg (p1 * z - p2 * y)]
  -- `(a + (1 - c) d)² ≥ 0` with `d = p·v`, and `(1 - c)² ≤ 1`
  have h1 : (1 - c) ^ 2 * (p0 * x + p1 * y + p2 * z) ^ 2 ≤ s ^ 2 * (x ^ 2 + y ^ 2 + z ^ 2) := by
    have : (1 - c) ^ 2 ≤ 1 := by nlinarith
    nlinarith [sq_nonneg (p0 * x + p1 * y + p2 * z)]
  have hv : x ^ 2 + y ^ 2 + z ^ 2 ≤ 0 := by
    nlinarith [sq_nonneg (a + (1 - c) * (p0 * x + p1 * y + p2 * z))]
  have hx : x = 0 := by nlinarith [sq_nonneg x, sq_nonneg y, sq_nonneg z]
  have hy : y = 0 := by nlinarith [sq_nonneg x, sq_nonneg y, sq_nonneg z]
  have hz : z = 0 := by nlinarith [sq_nonneg x, sq_nonneg y, sq_nonneg z]
  subst hx hy hz
  norm_num at h2
  linarith

theorem reset_ne (q : V4) (d : V3) (hq : q ≠ 0) : q + (0.5 : ℝ) • (xi q *ᵥ d) ≠ 0 := by
  intro h
  have h2 : npNorm (q + (0.5 : ℝ) • (xi q *ᵥ d)) ^ 2
      = npNorm q ^ 2 * (1 + 0.25 * npNorm d ^ 2) := by
    rw [C03_xi, npNorm4_sq, npNorm4_sq, npNorm3_sq]
    simp only [Pi.add_apply, Pi.smul_apply, smul_eq_mul, product_0, product_1, product_2, product_3,
      Matrix.cons_val_zero, Matrix.cons_val_one, cons4_2, cons4_3]
    ring
  rw [h, npNorm_eq_zero.2 rfl] at h2
  have := npNorm_pos hq
  have : 0 < npNorm q ^ 2 * (1 + 0.25 * npNorm d ^ 2) := by positivity
  linarith

/-- No propagation of the history turns the satellite by more than half a turn, at the rate corrected
by the bias estimate of that moment. -/
def SmallSteps : Att.Kalman → List AttEvent → Prop
  | _, [] => True
  | k, .measurement q :: l => ∀ k', k.measurement q = .ok k' → SmallSteps k' l
  | k, .propagate w dt :: l => npNorm (w - k.b) * dt ≤ Real.pi ∧ SmallSteps (k.propagate w dt) l

/-- C82 partial: after a measurement the estimate is a unit quaternion (whatever propagation did to
its length), as long as no single propagation exceeded half a turn.  Missing: the estimate is not a
unit quaternion after a propagation (`C82_unit_fails`, `C82_length`). -/
theorem C82_unit_partial (q0 : V4) (h0 : q0 ≠ 0) (l : List AttEvent) (hl : ∀ e ∈ l, e.Forward)
    (hs : SmallSteps (Att.init q0) l) (q : V4) :
    ∃ k, attRun (Att.init q0) (l ++ [.measurement q]) = .ok k ∧ npNorm k.q = 1 := by
  have key : ∀ k : Att.Kalman, StrictCovariance k.P → k.q ≠ 0 → SmallSteps k l →
      ∃ k', attRun k (l ++ [.measurement q]) = .ok k' ∧ npNorm k'.q = 1 := by
    clear hs
    induction l with
    | nil =>
      intro k hP hk _
      simp only [List.nil_append, attRun, AttEvent.apply, measurement_eq hP.weaken]
      exact ⟨_, rfl, npNorm_normalize (reset_ne _ _ hk)⟩
    | cons e l ih =>
      intro k hP hk hs
      have hl' : ∀ e ∈ l, e.Forward := fun e he => hl e (List.mem_cons_of_mem _ he)
      cases e with
      | measurement r =>
        obtain ⟨k', hk', hP', -, -⟩ := C81_measurement k hP r
        simp only [List.cons_append, attRun, AttEvent.apply, hk']
        refine ih hl' k' hP' ?_ (hs k' hk')
        rw [measurement_eq hP.weaken] at hk'
        simp only [Except.ok.injEq] at hk'
        subst hk'
        intro h
        have := npNorm_normalize (reset_ne k.q
          ((kgain k.P Att.R obsH *ᵥ (vecPart (errorQuat r k.q) - k.dq)) ∘ Sum.inl) hk)
        rw [show normalizeV _ = _ from h, npNorm_eq_zero.2 rfl] at this
        norm_num at this
      | propagate w dt =>
        have hdt : 0 < dt := hl (.propagate w dt) List.mem_cons_self
        simp only [List.cons_append, attRun, AttEvent.apply]
        exact ih hl' _ (C81_propagate k hP.weaken w dt hdt) (omega_ne_zero hdt.le hs.1 hk) hs.2
  exact key _ (init_strict q0) h0 hs

example : SmallSteps (Att.init ![1, 0, 0, 0]) [.propagate ![1, 0, 0] 2, .propagate ![0, 1, 0] 3] := by
  have h1 : npNorm (![1, 0, 0] : V3) = 1 := npNorm_vec3 (by norm_num)
  have h2 : npNorm (![0, 1, 0] : V3) = 1 := npNorm_vec3 (by norm_num)
  have := Real.pi_gt_three
  simp [SmallSteps, Att.init, Kalman.propagate, h1, h2]
  constructor <;> linarith

/-- C82: the bound on the turn is needed: some propagation maps a unit estimate to the zero
quaternion, and every later measurement leaves it there. -/
theorem C82_lost : ∃ (q : V4) (w : V3) (dt : ℝ), npNorm q = 1 ∧ 0 < dt ∧
    ((Att.init q).propagate w dt).q = 0 ∧
    ∀ r, ∃ k, ((Att.init q).propagate w dt).measurement r = .ok k ∧ k.q = 0 := by
  set c : ℝ := (1 - Real.sqrt 5) / 2 with hc
  have h5 : Real.sqrt 5 ^ 2 = 5 := Real.sq_sqrt (by norm_num)
  have h5a : 2 < Real.sqrt 5 := by
    rw [show (2 : ℝ) = Real.sqrt 4 by rw [show (4 : ℝ) = 2 ^ 2 by norm_num]; simp]
    exact Real.sqrt_lt_sqrt (by norm_num) (by norm_num)
  have h5b : Real.sqrt 5 < 3 := by nlinarith [Real.sqrt_nonneg 5]
  have hcc : c ^ 2 = c + 1 := by rw [hc]; nlinarith
  have hc1 : -1 < c := by rw [hc]; linarith
  have hc0 : c < 0 := by rw [hc]; linarith
  set s := Real.sqrt (-c) with hs
  have hss : s ^ 2 = -c := Real.sq_sqrt (by linarith)
  set n := Real.sqrt (1 + s ^ 2) with hn
  have hnn : n ^ 2 = 1 + s ^ 2 := Real.sq_sqrt (by positivity)
  have hnpos : 0 < n := Real.sqrt_pos.2 (by positivity)
  have hcos : Real.cos (Real.arccos c) = c := Real.cos_arccos hc1.le (by linarith)
  have hsin : Real.sin (Real.arccos c) = s := by
    rw [Real.sin_arccos, hs]; congr 1; linarith
  have hdt : 2 * Real.arccos c * 0.5 = Real.arccos c := by ring
  have hq : npNorm (![1 / n, -s / n, 0, 0] : V4) = 1 := by
    refine npNorm_vec4 ?_
    field_simp
    linarith
  have hz : ((Att.init ![1 / n, -s / n, 0, 0]).propagate ![1, 0, 0] (2 * Real.arccos c)).q = 0 := by
    simp only [Kalman.propagate, Att.init, sub_zero]
    rw [omega_eq, psi_e1, npNorm_e1, one_mul, hdt, hcos, hsin]
    refine vec4_ext ?_ ?_ ?_ ?_ <;>
      simp [product_0, product_1, product_2, product_3]
    · field_simp; linarith
    · field_simp; ring
  have hpos : 0 < 2 * Real.arccos c := by
    have : 0 < Real.arccos c := by rw [Real.arccos_pos]; linarith
    linarith
  refine ⟨_, _, _, hq, hpos, hz, fun r => ?_⟩
  have hP := C81_propagate (Att.init ![1 / n, -s / n, 0, 0]) (init_strict _).weaken ![1, 0, 0]
    (2 * Real.arccos c) hpos
  refine ⟨_, measurement_eq hP.weaken r, ?_⟩
  simp only [hz]
  have : ∀ d : V3, xi 0 *ᵥ d = 0 := fun d => by
    rw [C03_xi]; refine vec4_ext ?_ ?_ ?_ ?_ <;> simp [product_0, product_1, product_2, product_3]
  rw [this, smul_zero, add_zero, normalize_zero]

/-! ## C83 -/

/-- The part of C83 about the two quaternions of one attitude. -/
def C83_claim : Prop :=
  ∀ (q : V4) (l : List AttEvent) (k : Att.Kalman), npNorm q = 1 → (∀ e ∈ l, e.Forward) →
    attRun (Att.init q) l = .ok k → ∀ r : V4, npNorm r = 1 → k.measurement r = k.measurement (-r)

/-- The gain for a covariance without correlations. -/
theorem gain_diag {p d : ℝ} (hp : 0 < p) :
    kgain (Matrix.fromBlocks (p • 1) 0 0 (d • 1) : M6) Att.R obsH
      = Matrix.fromRows ((p / (p + sensorSigma ^ 2)) • (1 : M3)) 0 := by
  have hs := pow_pos sensorSigma_pos 2
  have hi : innov (Matrix.fromBlocks (p • 1) 0 0 (d • 1) : M6) Att.R obsH
      = (p + sensorSigma ^ 2) • (1 : M3) := by
    rw [innov, obsH_P, Matrix.toBlocks_fromBlocks₁₁, Att.R]
    ext i j
    by_cases h : i = j <;> simp [h]
    ring
  have hne : p + sensorSigma ^ 2 ≠ 0 := by positivity
  have hinv : ((p + sensorSigma ^ 2) • (1 : M3))⁻¹ = (p + sensorSigma ^ 2)⁻¹ • (1 : M3) := by
    refine Matrix.inv_eq_right_inv ?_
    rw [Matrix.smul_mul, Matrix.mul_smul, smul_smul, mul_inv_cancel₀ hne, one_smul, Matrix.mul_one]
  rw [kgain, hi, hinv, mul_obsH_T, Matrix.mul_smul, Matrix.mul_one]
  ext (i | i) j
  · by_cases h : i = j <;> simp [h, div_eq_inv_mul]
  · simp

/-- A measurement by a filter without correlations. -/
theorem measurement_diag {k : Att.Kalman} {p d : ℝ} (hp : 0 < p) (hd : 0 < d)
    (hP : k.P = Matrix.fromBlocks (p • 1) 0 0 (d • 1)) (h0 : k.dq = 0) (r : V4) :
    ∃ k', k.measurement r = .ok k' ∧ k'.b = k.b ∧
      k'.q = normalizeV (k.q + (0.5 * (p / (p + sensorSigma ^ 2))) •
        (xi k.q *ᵥ vecPart (errorQuat r k.q))) := by
  have hc : StrictCovariance k.P := by
    have : k.P = Matrix.diagonal (Sum.elim (fun _ => p) fun _ => d) := by
      rw [hP, ← Matrix.fromBlocks_diagonal]
      simp [← Matrix.smul_one_eq_diagonal]
    rw [this]
    refine StrictCovariance.diagonal fun i => ?_
    rcases i with i | i <;> simp [hp, hd]
  refine ⟨_, measurement_eq hc.weaken r, ?_, ?_⟩
  · simp only [hP, gain_diag hp, Matrix.fromRows_mulVec, Matrix.zero_mulVec]
    ext i; simp
  · simp only [hP, gain_diag hp, Matrix.fromRows_mulVec, h0, sub_zero]
    congr 2
    rw [Sum.elim_comp_inl, Matrix.smul_mulVec, Matrix.one_mulVec, Matrix.mulVec_smul, smul_smul]

theorem init_P (q : V4) : (Att.init q).P
    = Matrix.fromBlocks ((sensorSigma ^ 2) • 1) 0 0 ((initialBias ^ 2) • 1) := by
  simp [Att.init, ← Matrix.smul_one_eq_diagonal]

/-- C83 fails: the readings `r` and `-r` turn the estimate in opposite directions. -/
theorem C83_sign_fails : ¬ C83_claim := by
  intro h
  have hs := pow_pos sensorSigma_pos 2
  have hb : 0 < initialBias ^ 2 := by norm_num [initialBias]
  have h1 := h ![1, 0, 0, 0] [] _ (npNorm_vec4 (by norm_num)) (by simp) rfl ![0.6, 0.8, 0, 0]
    (npNorm_vec4 (by norm_num))
  obtain ⟨k1, e1, -, q1⟩ := measurement_diag (k := Att.init ![1, 0, 0, 0]) hs hb (init_P _) rfl
    ![0.6, 0.8, 0, 0]
  obtain ⟨k2, e2, -, q2⟩ := measurement_diag (k := Att.init ![1, 0, 0, 0]) hs hb (init_P _) rfl
    (-![0.6, 0.8, 0, 0])
  rw [e1, e2] at h1
  have h2 : k1 = k2 := Except.ok.inj h1
  rw [← h2, q1] at q2
  have hg : sensorSigma ^ 2 / (sensorSigma ^ 2 + sensorSigma ^ 2) = 1 / 2 := by
    have := sensorSigma_pos.ne'
    rw [← two_mul]; field_simp
  rw [hg] at q2
  have hne : ∀ d : V3, (![1, 0, 0, 0] : V4) + (0.5 * (1 / 2) : ℝ) • (xi ![1, 0, 0, 0] *ᵥ d) ≠ 0 := by
    intro d h0
    have := congrFun h0 0
    rw [C03_xi, one_product] at this
    simp at this
  have hi : (Att.init ![1, 0, 0, 0]).q = ![1, 0, 0, 0] := rfl
  rw [hi] at q2
  rw [normalize_eq (hne _), normalize_eq (hne _)] at q2
  have c1 := congrFun q2 1
  have n1 := npNorm_pos (hne (vecPart (errorQuat ![0.6, 0.8, 0, 0] ![1, 0, 0, 0])))
  have n2 := npNorm_pos (hne (vecPart (errorQuat (-![0.6, 0.8, 0, 0]) ![1, 0, 0, 0])))
  have v1 : ((![1, 0, 0, 0] : V4) + (0.5 * (1 / 2) : ℝ) • (xi ![1, 0, 0, 0] *ᵥ
      vecPart (errorQuat ![0.6, 0.8, 0, 0] ![1, 0, 0, 0]))) 1 = 0.2 := by
    rw [C03_xi, one_product]
    simp [errorQuat, product_1, conjugate_0, conjugate_1, conjugate_2, conjugate_3]; norm_num
  have v2 : ((![1, 0, 0, 0] : V4) + (0.5 * (1 / 2) : ℝ) • (xi ![1, 0, 0, 0] *ᵥ
      vecPart (errorQuat (-![0.6, 0.8, 0, 0]) ![1, 0, 0, 0]))) 1 = -0.2 := by
    rw [C03_xi, one_product]
    simp [errorQuat, product_1, conjugate_0, conjugate_1, conjugate_2, conjugate_3]; norm_num
  simp only [v1, v2, Pi.smul_apply, smul_eq_mul] at c1
  have p1 := inv_pos.2 n1
  have p2 := inv_pos.2 n2
  linarith

/-- Between calls the error state is zero. -/
theorem attRun_dq {k k' : Att.Kalman} (h : k.dq = 0) (l : List AttEvent)
    (hr : attRun k l = .ok k') : k'.dq = 0 := by
  induction l generalizing k with
  | nil => simp only [attRun, Except.ok.injEq] at hr; subst hr; exact h
  | cons e l ih =>
    simp only [attRun] at hr
    cases e with
    | measurement q =>
      simp only [AttEvent.apply] at hr
      cases hm : k.measurement q with
      | error x => simp [hm] at hr
      | ok k1 =>
        simp only [hm] at hr
        refine ih ?_ hr
        rw [Kalman.measurement] at hm
        split at hm
        · simp at hm
        · simp only [Except.ok.injEq] at hm
          rw [← hm]; rfl
    | propagate w dt =>
      simp only [AttEvent.apply] at hr
      exact ih (k := k.propagate w dt) h hr

/-- C83 partial: in every state reached by a history, a reading of the estimate itself, with either
sign, leaves the bias unchanged and the estimate too, up to normalisation.  Missing: for other
readings the sign matters (`C83_sign_fails`). -/
theorem C83_own_partial (q0 : V4) (l : List AttEvent) (hl : ∀ e ∈ l, e.Forward) (k : Att.Kalman)
    (hr : attRun (Att.init q0) l = .ok k) (r : V4) (hrq : r = k.q ∨ r = -k.q) :
    ∃ k', k.measurement r = .ok k' ∧ k'.q = normalizeV k.q ∧ k'.b = k.b := by
  obtain ⟨k2, hk2, hP⟩ := C81_history q0 l hl
  have : k2 = k := Except.ok.inj (hk2.symm.trans hr)
  subst this
  have hdq := attRun_dq (k := Att.init q0) rfl l hr
  have hz : vecPart (errorQuat r k2.q) = 0 := by
    rcases hrq with rfl | rfl <;>
    refine vec3_ext ?_ ?_ ?_ <;>
      simp [errorQuat, product_1, product_2, product_3, conjugate_0, conjugate_1, conjugate_2,
        conjugate_3] <;> ring
  refine ⟨_, measurement_eq hP.weaken r, ?_, ?_⟩
  · simp only [hz, hdq, sub_zero, Matrix.mulVec_zero]
    rw [show (0 : I6 → ℝ) ∘ Sum.inl = (0 : V3) from rfl, Matrix.mulVec_zero, smul_zero, add_zero]
  · simp only [hz, hdq, sub_zero, Matrix.mulVec_zero]
    rw [show (0 : I6 → ℝ) ∘ Sum.inr = (0 : V3) from rfl, add_zero]

example : ∃ k, attRun (Att.init ![0, 1, 0, 0]) exHistory = .ok k :=
  (C81_history _ _ (by norm_num [exHistory, AttEvent.Forward])).imp fun _ h => h.1

/-! ## C84 -/

/-- C84: transition over no time is the identity. -/
theorem C84_zero (w : V3) : phi w 0 = 1 := by
  have h11 : phi11 w 0 = 1 := by
    by_cases h : npNorm w = 0
    · exact phi11_zero h 0
    · rw [phi11_eq h]; simp
  have h12 : phi12 w 0 = 0 := by
    by_cases h : npNorm w = 0
    · rw [phi12_zero h]; simp
    · rw [phi12_eq h]; simp
  rw [phi, h11, h12, Matrix.fromBlocks_one]

/-- C84: the transition over `s + t` is the transition over `s` followed by the one over `t`. -/
theorem C84_semigroup (w : V3) (s t : ℝ) : phi w (s + t) = phi w t * phi w s := by
  rw [phi, phi, phi, Matrix.fromBlocks_multiply, phi11_add, phi12_add]
  simp

/-- C84: the attitude block rotates by `-|w| t` about `w`. -/
theorem C84_rotation (w : V3) (hw : w ≠ 0) (t : ℝ) (v : V3) :
    (phi w t).toBlocks₁₁ *ᵥ v = rodrigues (normalizeV w) (-(npNorm w * t)) v := by
  have hn : npNorm w ≠ 0 := (npNorm_pos hw).ne'
  have h3 := npNorm3_sq w
  rw [phi, Matrix.toBlocks_fromBlocks₁₁, phi11_eq hn, rodrigues, normalize_eq hw, Real.cos_neg,
    Real.sin_neg]
  generalize Real.sin (npNorm w * t) = s at *
  generalize Real.cos (npNorm w * t) = c at *
  generalize npNorm w = n at *
  refine vec3_ext ?_ ?_ ?_ <;>
    simp [cross, cross_apply, Matrix.mulVec, Matrix.vec3_dotProduct, Matrix.vecHead,
      Matrix.vecTail] <;> field_simp
  · linear_combination ((1 - c) * v 0) * h3
  · linear_combination ((1 - c) * v 1) * h3
  · linear_combination ((1 - c) * v 2) * h3

/-- C84: for zero rate the attitude block is the identity. -/
theorem C84_rest (t : ℝ) : (phi 0 t).toBlocks₁₁ = 1 := by
  rw [phi, Matrix.toBlocks_fromBlocks₁₁, phi11_zero (npNorm_eq_zero.2 rfl)]

example : (![0.1, 0, 0.2] : V3) ≠ 0 := fun h => by
  have := congrFun h 0; norm_num at this

/-! ## C106 -/

/-- The full claim of C106: propagation at a constant rate is the exact solution of the attitude
kinematics, the rotation by `|u| dt` about `u = w - b` in body coordinates. -/
def C106_claim : Prop :=
  ∀ (k : Att.Kalman) (w : V3) (dt : ℝ), npNorm k.q = 1 → w ≠ k.b → 0 < dt →
    (k.propagate w dt).q
      = product k.q (axisangleToQuat (normalizeV (w - k.b)) (npNorm (w - k.b) * dt))

theorem axisangle_psi {u : V3} (hu : u ≠ 0) (dt : ℝ) :
    axisangleToQuat (normalizeV u) (npNorm u * dt)
      = ![Real.cos (npNorm u * dt * 0.5), psi u dt 0, psi u dt 1, psi u dt 2] := by
  have hn := (npNorm_pos hu).ne'
  have h2 : npNorm u * dt / 2 = npNorm u * dt * 0.5 := by ring
  simp only [axisangleToQuat, normalize_eq hu, psi, if_pos hn, h2]
  refine vec4_ext ?_ ?_ ?_ ?_ <;> simp <;> ring

/-- C106 partial: propagation is the exact solution plus `(1 - cos(|u| dt / 2))` times the vector
part of the old estimate.  Missing: that second term should not be there (`C106_kinematics_fails`).
-/
theorem C106_deviation_partial (k : Att.Kalman) (w : V3) (dt : ℝ) (hw : w ≠ k.b) :
    (k.propagate w dt).q
      = product k.q (axisangleToQuat (normalizeV (w - k.b)) (npNorm (w - k.b) * dt))
        + (1 - Real.cos (npNorm (w - k.b) * dt / 2)) • ![0, k.q 1, k.q 2, k.q 3] := by
  have : npNorm (w - k.b) * dt / 2 = npNorm (w - k.b) * dt * 0.5 := by ring
  rw [axisangle_psi (sub_ne_zero.2 hw), this]
  exact omega_eq _ _ _

/-- C106 fails for every estimate that is not the identity attitude, unless the step is a multiple of
two full turns. -/
theorem C106_kinematics_fails : ¬ C106_claim := by
  intro h
  have hne : (![1, 0, 0] : V3) ≠ (Att.init ![0, 0, 1, 0]).b := fun h0 => by
    have := congrFun h0 0; simp [Att.init] at this
  have h1 := h (Att.init ![0, 0, 1, 0]) ![1, 0, 0] Real.pi (npNorm_vec4 (by norm_num)) hne
    Real.pi_pos
  rw [C106_deviation_partial _ _ _ hne] at h1
  have h2 := congrFun h1 2
  have hb : ((![1, 0, 0] : V3) - (Att.init ![0, 0, 1, 0]).b) = ![1, 0, 0] := by simp [Att.init]
  rw [hb, npNorm_e1, one_mul, Real.cos_pi_div_two] at h2
  simp [Att.init] at h2

/-- C106 partial: to first order in the step, propagation follows the kinematics
`dq/dt = q ∘ [0, w - b] / 2`. -/
theorem C106_first_order_partial (k : Att.Kalman) (w : V3) :
    HasDerivAt (fun dt => (k.propagate w dt).q)
      ((1 / 2 : ℝ) • product k.q ![0, (w - k.b) 0, (w - k.b) 1, (w - k.b) 2]) 0 := by
  have hq : ∀ dt, (k.propagate w dt).q
      = product k.q ![Real.cos (npNorm (w - k.b) * dt * 0.5), psi (w - k.b) dt 0,
          psi (w - k.b) dt 1, psi (w - k.b) dt 2]
        + (1 - Real.cos (npNorm (w - k.b) * dt * 0.5)) • ![0, k.q 1, k.q 2, k.q 3] :=
    fun dt => omega_eq _ _ _
  simp only [hq]
  set u := w - k.b
  have ha : HasDerivAt (fun dt : ℝ => npNorm u * dt * 0.5) (npNorm u * 0.5) 0 := by
    simpa using ((hasDerivAt_id (0 : ℝ)).const_mul (npNorm u)).mul_const 0.5
  have hc : HasDerivAt (fun dt : ℝ => Real.cos (npNorm u * dt * 0.5)) 0 0 := by
    have := ha.cos; simpa using this
  have hp : ∀ i, HasDerivAt (fun dt => psi u dt i) (0.5 * u i) 0 := by
    intro i
    by_cases hn : npNorm u = 0
    · have : u = 0 := npNorm_eq_zero.1 hn
      have e : (fun dt => psi u dt i) = fun _ => 0 := by funext dt; simp [psi, hn]
      rw [e, this]; simpa using hasDerivAt_const (0 : ℝ) (0 : ℝ)
    · have e : (fun dt => psi u dt i) = fun dt => Real.sin (npNorm u * dt * 0.5) / npNorm u * u i := by
        funext dt; simp [psi, hn]
      rw [e]
      refine ((ha.sin.div_const (npNorm u)).mul_const (u i)).congr_deriv ?_
      simp only [mul_zero, zero_mul, Real.cos_zero, one_mul]
      field_simp
  have hp0 := hp 0
  have hp1 := hp 1
  have hp2 := hp 2
  have h1c : HasDerivAt (fun dt : ℝ => 1 - Real.cos (npNorm u * dt * 0.5)) 0 0 := by
    simpa using hc.const_sub 1
  rw [hasDerivAt_pi]
  intro i
  fin_cases i <;>
    simp [product_0, product_1, product_2, product_3]
  · refine (((hc.const_mul (k.q 0)).fun_sub (hp0.const_mul (k.q 1))).fun_sub
      (hp1.const_mul (k.q 2))).fun_sub (hp2.const_mul (k.q 3)) |>.congr_deriv ?_
    ring
  · refine ((((hp0.const_mul (k.q 0)).fun_add (hc.const_mul (k.q 1))).fun_add
      (hp2.const_mul (k.q 2))).fun_sub (hp1.const_mul (k.q 3))).fun_add (h1c.mul_const (k.q 1))
      |>.congr_deriv ?_
    ring
  · refine ((((hp1.const_mul (k.q 0)).fun_sub (hp2.const_mul (k.q 1))).fun_add
      (hc.const_mul (k.q 2))).fun_add (hp0.const_mul (k.q 3))).fun_add (h1c.mul_const (k.q 2))
      |>.congr_deriv ?_
    ring
  · refine ((((hp2.const_mul (k.q 0)).fun_add (hp1.const_mul (k.q 1))).fun_sub
      (hp0.const_mul (k.q 2))).fun_add (hc.const_mul (k.q 3))).fun_add (h1c.mul_const (k.q 3))
      |>.congr_deriv ?_
    ring

/-! ## C107 -/

/-- The full claim of C107, for the first reading: the filter and the star tracker are equally
uncertain (`P11 = R`), so a reading that is a rotation by a small angle `θ` about `e` away from the
estimate moves the estimate half of the way, to first order. -/
def C107_claim : Prop :=
  ∀ (q : V4) (e : V3), npNorm q = 1 → npNorm e = 1 → ∃ α : ℝ → ℝ,
    (∀ θ, ∃ k, (Att.init q).measurement (product q (axisangleToQuat e θ)) = .ok k ∧
      k.q = product q (axisangleToQuat e (α θ))) ∧ α 0 = 0 ∧ HasDerivAt α (1 / 2) 0

/-- C107 partial: for covariance `p` in attitude without correlations, a reading that is a rotation by
`θ` about `e` away from the estimate turns the estimate about `e` by
`2 arctan(p / (p + σ²) / 2 * sin(θ/2))`, which is `p / (p + σ²) * θ / 2` to first order, and leaves the
bias alone.  Missing: the optimal correction is twice as large (`C107_gain_fails`). -/
theorem C107_gain_partial (k : Att.Kalman) (p d : ℝ) (hp : 0 < p) (hd : 0 < d)
    (hP : k.P = Matrix.fromBlocks (p • 1) 0 0 (d • 1)) (h0 : k.dq = 0) (hq : npNorm k.q = 1)
    (e : V3) (he : npNorm e = 1) :
    ∃ α : ℝ → ℝ, (∀ θ, ∃ k', k.measurement (product k.q (axisangleToQuat e θ)) = .ok k' ∧
      k'.b = k.b ∧ k'.q = product k.q (axisangleToQuat e (α θ))) ∧ α 0 = 0 ∧
      HasDerivAt α (p / (p + 0.75e-7 ^ 2) / 2) 0 := by
  set g := p / (p + sensorSigma ^ 2) with hg
  refine ⟨fun θ => 2 * Real.arctan (0.5 * g * Real.sin (θ / 2)), fun θ => ?_, by simp, ?_⟩
  · obtain ⟨k', hk, hb, hq'⟩ := measurement_diag hp hd hP h0 (product k.q (axisangleToQuat e θ))
    refine ⟨k', hk, hb, ?_⟩
    have hu := (isUnit4_iff _).2 hq
    have herr : errorQuat (product k.q (axisangleToQuat e θ)) k.q = axisangleToQuat e θ := by
      rw [errorQuat, ← product_assoc, conj_product_self hu, one_product]
    rw [hq', herr]
    set x := 0.5 * g * Real.sin (θ / 2) with hx
    have hsum : k.q + (0.5 * g) • (xi k.q *ᵥ vecPart (axisangleToQuat e θ))
        = product k.q ![1, x * e 0, x * e 1, x * e 2] := by
      rw [C03_xi]
      refine vec4_ext ?_ ?_ ?_ ?_ <;>
        simp [product_0, product_1, product_2, product_3, axisangleToQuat, hx] <;> ring
    have h3 := npNorm3_sq e
    rw [he] at h3
    have hnorm : npNorm (product k.q ![1, x * e 0, x * e 1, x * e 2]) = Real.sqrt (1 + x ^ 2) := by
      have h4 : npNorm (product k.q ![1, x * e 0, x * e 1, x * e 2]) ^ 2 = 1 + x ^ 2 := by
        have hq4 := npNorm4_sq k.q
        rw [hq] at hq4
        rw [npNorm4_sq, sumSq_product]
        simp only [Matrix.cons_val_zero, Matrix.cons_val_one, cons4_2, cons4_3]
        rw [← hq4]
        linear_combination (-(x ^ 2)) * h3
      rw [← h4, Real.sqrt_sq (npNorm_nonneg _)]
    have hpos : 0 < Real.sqrt (1 + x ^ 2) := Real.sqrt_pos.2 (by positivity)
    have hne : product k.q ![1, x * e 0, x * e 1, x * e 2] ≠ 0 := fun h => by
      rw [h, npNorm_eq_zero.2 rfl] at hnorm; exact hpos.ne hnorm
    rw [hsum, normalize_eq hne, hnorm]
    have ha : axisangleToQuat e (2 * Real.arctan x)
        = (Real.sqrt (1 + x ^ 2))⁻¹ • ![1, x * e 0, x * e 1, x * e 2] := by
      have h2 : 2 * Real.arctan x / 2 = Real.arctan x := by ring
      simp only [axisangleToQuat, h2, Real.cos_arctan, Real.sin_arctan]
      refine vec4_ext ?_ ?_ ?_ ?_ <;> simp <;> ring
    rw [ha]
    refine vec4_ext ?_ ?_ ?_ ?_ <;>
      simp [product_0, product_1, product_2, product_3] <;> ring
  · have h1 : HasDerivAt (fun θ : ℝ => Real.sin (θ / 2)) (1 / 2) 0 := by
      have := ((hasDerivAt_id (0 : ℝ)).div_const 2).sin
      simpa using this
    have h2 := ((h1.const_mul (0.5 * g)).arctan).const_mul 2
    refine h2.congr_deriv ?_
    have : (0.75e-7 : ℝ) = sensorSigma := rfl
    rw [this, ← hg]
    simp; ring

/-- C107 fails: the first reading moves the estimate by a quarter of the error, not by half. -/
theorem C107_gain_fails : ¬ C107_claim := by
  intro h
  have hq : npNorm (![1, 0, 0, 0] : V4) = 1 := npNorm_vec4 (by norm_num)
  obtain ⟨β, hβ, hβ0, hβ'⟩ := h ![1, 0, 0, 0] ![1, 0, 0] hq npNorm_e1
  have hs := pow_pos sensorSigma_pos 2
  have hb : 0 < initialBias ^ 2 := by norm_num [initialBias]
  obtain ⟨α, hα, hα0, hα'⟩ := C107_gain_partial (Att.init ![1, 0, 0, 0]) _ _ hs hb (init_P _) rfl hq
    ![1, 0, 0] npNorm_e1
  have hsin : ∀ θ, Real.sin (α θ / 2) = Real.sin (β θ / 2) := by
    intro θ
    obtain ⟨k1, e1, -, q1⟩ := hα θ
    obtain ⟨k2, e2, q2⟩ := hβ θ
    have : k1 = k2 := Except.ok.inj (e1.symm.trans e2)
    rw [this, q2] at q1
    have := congrFun q1 1
    rw [show (Att.init ![1, 0, 0, 0]).q = ![1, 0, 0, 0] from rfl, one_product, one_product] at this
    simpa [axisangleToQuat] using this.symm
  have d1 := (hα'.div_const 2).sin
  have d2 := (hβ'.div_const 2).sin
  have : (fun θ => Real.sin (α θ / 2)) = fun θ => Real.sin (β θ / 2) := funext hsin
  rw [this] at d1
  have hu := d1.unique d2
  rw [hα0, hβ0] at hu
  norm_num [sensorSigma] at hu

example : (Att.init ![1, 0, 0, 0]).P
    = Matrix.fromBlocks ((0.75e-7 ^ 2 : ℝ) • 1) 0 0 ((3.15e-5 ^ 2 : ℝ) • 1) := init_P _

end Adcs
