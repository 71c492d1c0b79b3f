import Verif.Proofs.PosBias
import Verif.Props.PosTracking
import Verif.Props.AttSteady
import Verif.Props.Spin

set_option autoImplicit false

/-! # C209: what is left of the error of the position filter when its fixes are exact -/

namespace Adcs

open Spec Vec Dyn JDay Fr Obs Obs.Pos Env
open scoped Matrix

/-! ## Specification -/

/-- A circular orbit under central gravity: the initial position and velocity are perpendicular, the speed is that of
the angular velocity `w`, and `w` is that of Kepler's third law. -/
structure Spec.CircularOrbit (w : ℝ) (x0 v0 : V3) : Prop where
  turns : 0 < w
  speed : npNorm v0 = w * npNorm x0
  perp : x0 ⬝ᵥ v0 = 0
  kepler : w ^ 2 * npNorm x0 ^ 3 = Spec.mu

/-- The filter of a satellite on the circular orbit, started with state `s`, after exact fixes at the seconds `0` to `N`. -/
noncomputable def Spec.exactFixes {n : ℕ} (s : SatState n) (w : ℝ) (x0 v0 : V3) (N : ℕ) : Py Unit × Pos.Kalman n :=
  posRun (Pos.init Spec.mu s) (Spec.fixEvents (fun i => circlePos w x0 v0 i) (fun i => circleVel w x0 v0 i) N ++
    [.update (circlePos w x0 v0 N) (circleVel w x0 v0 N)])

/-- The error is within three standard deviations of a fix. -/
def Spec.AsGoodAsFix {n : ℕ} (k : Pos.Kalman n) (x v : V3) : Prop :=
  npNorm (k.output.1 - x) ≤ 3 * 10.0598 ∧ npNorm (k.output.2 - v) ≤ 3 * 0.52038

/-! ## The push -/

/-- An acceleration off the model in one direction takes the velocity off the prediction in that direction. -/
theorem flight_push {x v acc : ℝ → V3} {D : ℝ} (hf : Spec.Flight x v acc D) (hD : D ≤ 5) {t0 : ℝ} (ht0 : 0 ≤ t0)
    {u : V3} (hu : npNorm u = 1) {D1 : ℝ}
    (h : ∀ t ∈ Set.Icc t0 (t0 + 1), D1 ≤ u ⬝ᵥ (acc t + (1.28e-6 : ℝ) • x t)) :
    D1 - 1.5e-5 ≤ u ⬝ᵥ (v (t0 + 1) - predVel 1 (x t0) (v t0)) := by
  have hle : t0 ≤ t0 + 1 := by linarith
  have hlin : ∀ t, HasDerivAt (fun t : ℝ => t - t0) 1 t := fun t => (hasDerivAt_id t).sub_const t0
  have p2 := flight_first hf hD ht0
  have hd : ∀ t ∈ Set.Icc t0 (t0 + 1), HasDerivAt (fun t => u ⬝ᵥ (v t - v t0 + ((1.28e-6 * (t - t0)) • x t0 +
      (0.64e-6 * (t - t0) ^ 2) • v t0)) - (D1 - 1.2e-5) * (t - t0))
      (u ⬝ᵥ ((acc t + (1.28e-6 : ℝ) • x t) - (1.28e-6 : ℝ) • (x t - x t0 - (t - t0) • v t0)) - (D1 - 1.2e-5) * 1) t := by
    intro t ht
    refine HasDerivAt.sub ?_ ((hlin t).const_mul _)
    have h1 : HasDerivAt (fun t => v t - v t0 + ((1.28e-6 * (t - t0)) • x t0 + (0.64e-6 * (t - t0) ^ 2) • v t0))
        (acc t + ((1.28e-6 * 1 : ℝ) • x t0 + (0.64e-6 * ((2 : ℕ) * (t - t0) ^ (2 - 1) * 1) : ℝ) • v t0)) t :=
      ((hf.vel t (ht0.trans ht.1)).sub_const _).add
        ((((hlin t).const_mul 1.28e-6).smul_const _).add ((((hlin t).pow 2).const_mul 0.64e-6).smul_const _))
    have e : acc t + ((1.28e-6 * 1 : ℝ) • x t0 + (0.64e-6 * ((2 : ℕ) * (t - t0) ^ (2 - 1) * 1) : ℝ) • v t0) =
        (acc t + (1.28e-6 : ℝ) • x t) - (1.28e-6 : ℝ) • (x t - x t0 - (t - t0) • v t0) := by
      funext i
      simp only [Pi.add_apply, Pi.sub_apply, Pi.smul_apply, smul_eq_mul]
      push_cast
      norm_num
      ring
    rw [e] at h1
    refine (hasDerivAt_dot3 (hasDerivAt_const t u) h1).congr_deriv ?_
    simp
  have mono := monotoneOn_of_deriv_nonneg (convex_Icc t0 (t0 + 1))
    (fun t ht => (hd t ht).continuousAt.continuousWithinAt)
    (fun t ht => (hd t (interior_subset ht)).differentiableAt.differentiableWithinAt) fun t ht => by
      have ht' := interior_subset ht
      rw [(hd t ht').deriv, dotProduct_sub, dotProduct_smul, smul_eq_mul]
      have h1 := h t ht'
      have h2 := (abs_le.1 (abs_dot_le u (x t - x t0 - (t - t0) • v t0))).2
      have h3 := p2 t ht'
      have h4 : (t - t0) ^ 2 ≤ 1 := by
        have : 0 ≤ t - t0 := by linarith [ht'.1]
        have : t - t0 ≤ 1 := by linarith [ht'.2]
        nlinarith
      rw [hu, one_mul] at h2
      generalize u ⬝ᵥ (x t - x t0 - (t - t0) • v t0) = z at h2 ⊢
      generalize u ⬝ᵥ (acc t + (1.28e-6 : ℝ) • x t) = z' at h1 ⊢
      norm_num
      linarith
  have hm := mono (Set.left_mem_Icc.2 hle) (Set.right_mem_Icc.2 hle) hle
  have e1 : t0 + 1 - t0 = 1 := by ring
  simp only [sub_self, mul_zero, e1] at hm
  have e : v (t0 + 1) - predVel 1 (x t0) (v t0) = (v (t0 + 1) - v t0 +
      ((1.28e-6 * (1 : ℝ)) • x t0 + (0.64e-6 * (1 : ℝ) ^ 2) • v t0)) + (1.618e-10 : ℝ) • v t0 := by
    unfold predVel Pos.a Pos.b
    funext i
    simp only [Pi.add_apply, Pi.sub_apply, Pi.smul_apply, smul_eq_mul]
    ring
  rw [e, dotProduct_add, dotProduct_smul, smul_eq_mul]
  have h5 := (abs_le.1 (abs_dot_le u (v t0))).1
  rw [hu, one_mul] at h5
  have h6 := hf.speed t0 ht0
  have z0 : u ⬝ᵥ (0 + ((0 : ℝ) • x t0 + (0.64e-6 * (0 : ℝ) ^ 2) • v t0)) - 0 = 0 := by simp
  rw [z0] at hm
  generalize u ⬝ᵥ (v (t0 + 1) - v t0 + ((1.28e-6 * (1 : ℝ)) • x t0 + (0.64e-6 * (1 : ℝ) ^ 2) • v t0)) = z at hm ⊢
  norm_num at hm h6 ⊢
  linarith

/-! ## The correction -/

theorem up_settled {P : M6} {t : ℝ} (h : Up P t) (ht : t ≤ 1e-5) (p q : V3) :
    (Sum.elim p q : I6 → ℝ) ⬝ᵥ (P *ᵥ Sum.elim p q) ≤ 9 * npNorm p ^ 2 + 0.017 * npNorm q ^ 2 ∧
    (Sum.elim 0 q : I6 → ℝ) ⬝ᵥ (P *ᵥ Sum.elim 0 q) ≤ 0.0085 * npNorm q ^ 2 := by
  have hw : ∀ w, t * axisForm 560 22 2.17 w ≤ 1e-5 * axisForm 560 22 2.17 w := fun w =>
    mul_le_mul_of_nonneg_right ht (axisForm_nonneg (by norm_num) (by norm_num) w)
  constructor
  · refine (h _).trans ((add_le_add_right (hw _) _).trans ?_)
    rw [axisForm, axisForm]
    simp only [npNorm_sq, Finset.mul_sum, ← Finset.sum_add_distrib, Sum.elim_inl, Sum.elim_inr]
    refine Finset.sum_le_sum fun i _ => ?_
    nlinarith [sq_nonneg (p i - 0.04 * q i), sq_nonneg (q i), sq_nonneg (p i)]
  · refine (h _).trans ((add_le_add_right (hw _) _).trans ?_)
    rw [axisForm, axisForm]
    simp only [npNorm_sq, Finset.mul_sum, ← Finset.sum_add_distrib, Sum.elim_inl, Sum.elim_inr, Pi.zero_apply]
    refine Finset.sum_le_sum fun i _ => ?_
    nlinarith [sq_nonneg (q i)]

/-- How much a fix corrects the velocity, in any direction. -/
theorem gain_push {P : M6} (hP : Covariance P) {t : ℝ} (h : Up P t) (ht : t ≤ 1e-5) {u : V3} (hu : npNorm u = 1)
    {fx fv : V3} {X Y : ℝ} (hX : npNorm fx ≤ X) (hY : npNorm fv ≤ Y) :
    |(Sum.elim 0 u : I6 → ℝ) ⬝ᵥ (kgain P Pos.R 1 *ᵥ Sum.elim fx fv)| ≤ 0.00275 * X + 0.045 * Y := by
  have hX0 := (npNorm_nonneg fx).trans hX
  have hY0 := (npNorm_nonneg fv).trans hY
  have hf : (Sum.elim fx fv : I6 → ℝ) =
      Pos.R *ᵥ Sum.elim ((1 / 10.0598 ^ 2 : ℝ) • fx) ((1 / 0.52038 ^ 2 : ℝ) • fv) := by
    funext i
    rcases i with i | i <;> simp [Pos.R, Matrix.mulVec_diagonal] <;> field_simp
  obtain ⟨g, hg⟩ : ∃ g : I6 → ℝ, g = Sum.elim ((1 / 10.0598 ^ 2 : ℝ) • fx) ((1 / 0.52038 ^ 2 : ℝ) • fv) := ⟨_, rfl⟩
  rw [hf, ← hg, Matrix.mulVec_mulVec, gain_post hP]
  have hK := kpost_cov (H := (1 : M6)) hP posR_strict
  have hle := kpost_noLarger (H := (1 : M6)) hP posR_strict
  have c := psd_cauchy (covariance_psd.1 hK) (Sum.elim 0 u) g
  have a1 : (Sum.elim 0 u : I6 → ℝ) ⬝ᵥ (kpost P Pos.R 1 *ᵥ Sum.elim 0 u) ≤ 0.0085 := by
    refine (hle _).trans ((up_settled h ht 0 u).2.trans ?_)
    rw [hu]; norm_num
  have a2 : g ⬝ᵥ (kpost P Pos.R 1 *ᵥ g) ≤ 9 * (X / 10.0598 ^ 2) ^ 2 + 0.017 * (Y / 0.52038 ^ 2) ^ 2 := by
    refine (hle _).trans ?_
    rw [hg]
    refine (up_settled h ht _ _).1.trans ?_
    rw [npNorm_smul, npNorm_smul, abs_of_pos (by positivity), abs_of_pos (by positivity), one_div_mul_eq_div,
      one_div_mul_eq_div]
    have := npNorm_nonneg fx
    have := npNorm_nonneg fv
    gcongr
  refine abs_le_of_sq_le_sq (c.trans ?_) (by positivity)
  refine (mul_le_mul a1 a2 (hK.2 g) (by norm_num)).trans ?_
  have hxy := mul_nonneg hX0 hY0
  norm_num
  nlinarith [sq_nonneg X, sq_nonneg Y, hxy]

/-! ## The loop -/

section loop
variable {n : ℕ} {mu : ℝ} {x v acc : ℝ → V3} {D ν c0 : ℝ} {y w : ℕ → V3}

theorem loop_second (hmu0 : 0 ≤ mu) (hmu : mu ≤ 4e14) (s : SatState n) (hc : s.clock ≠ none)
    (hf : Spec.Flight x v acc D) (hD : D ≤ 5) (hν : 0 ≤ ν)
    (hy : ∀ i : ℕ, (npNorm (y i - x i) / 10.0598) ^ 2 + (npNorm (w i - v i) / 0.52038) ^ 2 ≤ ν ^ 2) (hc0 : 0 ≤ c0)
    (h0 : npNorm (s.attrs.position - x 0) ^ 2 + npNorm (s.attrs.velocity - v 0) ^ 2 ≤ c0 ^ 2)
    (hsm : c0 + Spec.settled ν D ≤ 9880) (N : ℕ) :
    ∃ (k : Pos.Kalman n) (J : M3), posRun (Pos.init mu s) (Spec.fixEvents y w N) = (.ok (), k) ∧ Covariance k.P ∧
      posRun (Pos.init mu s) (Spec.fixEvents y w N ++ [.update (y N) (w N)]) = (.ok (), (k.update (y N) (w N)).2) ∧
      posRun (Pos.init mu s) (Spec.fixEvents y w (N + 1)) = (.ok (), ((k.update (y N) (w N)).2.propagate 1).2) ∧
      ((k.update (y N) (w N)).2.propagate 1).2.P = stepF J * (kpost k.P Pos.R 1 * (stepF J)ᵀ) + Pos.Q ∧
      ((k.update (y N) (w N)).2.propagate 1).2.x = aDiscrete 1 *ᵥ (k.update (y N) (w N)).2.x ∧
      Jᵀ = J ∧ ∀ z, npNorm (J *ᵥ z) ≤ 3.06e-6 * npNorm z := by
  obtain ⟨k, hk, kmu, kc, kP, kL, ks⟩ := loop_inv hmu0 hmu s hc hf hD y w hν hy hc0 h0 hsm N
  have hD0 : 0 ≤ D := (npNorm_nonneg _).trans (hf.model 0 le_rfl)
  have ht : (0 : ℝ) ≤ N := Nat.cast_nonneg N
  have hpw : (0.9975 : ℝ) ^ N * c0 ≤ 1 * c0 :=
    mul_le_mul_of_nonneg_right (pow_le_one₀ (by norm_num) (by norm_num)) hc0
  have hpp : 0 ≤ (0.9975 : ℝ) ^ N * c0 := by positivity
  unfold Spec.settled at ks hsm
  obtain ⟨c, hcd⟩ : ∃ c, c = (0.9975 : ℝ) ^ N * c0 + (32 * ν + 1300 * D + 0.03) := ⟨_, rfl⟩
  rw [← hcd] at ks
  have hcp : 0 ≤ c := by rw [hcd]; positivity
  have hνc : ν ≤ 0.08 * c := by norm_num at hcd ⊢; linarith
  have hνs : c + 0.08 * ν ≤ 9920 := by norm_num at hcd hsm ⊢; linarith
  obtain ⟨f1, f2, f3, f4, f5, f6, f7, f8⟩ := fix_step kP kL kc (hf.near N ht) hcp hν hνc hνs (hy N) ks
  have hpos : 0 < npNorm (k.update (y N) (w N)).2.output.1 := lt_of_lt_of_le (by norm_num) f8
  have hne : (k.update (y N) (w N)).2.output.1 ≠ 0 := fun h => hpos.ne' (npNorm_eq_zero.2 h)
  obtain ⟨J, hJ, q1, q2, q3, q4, q5⟩ := propagate_one hne
  have hg : (k.update (y N) (w N)).2.mu / npNorm (k.update (y N) (w N)).2.output.1 ^ 3 ≤ 1.53e-6 := by
    rw [div_le_iff₀ (by positivity), f2, kmu]
    have : (6.4e6 : ℝ) ^ 3 ≤ npNorm (k.update (y N) (w N)).2.output.1 ^ 3 := pow_le_pow_left₀ (by norm_num) f8 3
    norm_num at this hmu ⊢
    linarith
  have r1 : posRun (Pos.init mu s) (Spec.fixEvents y w N ++ [.update (y N) (w N)]) =
      (.ok (), (k.update (y N) (w N)).2) := by
    rw [posRun_snoc hk]
    simp only [posRun, PosEvent.apply]
    rcases hu : k.update (y N) (w N) with ⟨r, k1⟩
    rw [hu] at f1
    simp only at f1
    subst f1
    rfl
  refine ⟨k, J, hk, kP, r1, ?_, by rw [q2, f4], q3, (gradA_form hJ 0).2,
    fun z => (gradA_norms hJ (f2 ▸ kmu ▸ hmu0) hg z).1⟩
  have e : Spec.fixEvents y w (N + 1) = (Spec.fixEvents y w N ++ [.update (y N) (w N)]) ++ [.propagate 1] := by
    rw [fixEvents_succ, List.append_assoc]; rfl
  rw [e, posRun_snoc r1]
  simp only [posRun, PosEvent.apply]
  rcases hu : (k.update (y N) (w N)).2.propagate 1 with ⟨r, k2⟩
  rw [hu] at q1
  simp only at q1
  subst q1
  rfl

theorem loop_up (hmu0 : 0 ≤ mu) (hmu : mu ≤ 4e14) (s : SatState n) (hc : s.clock ≠ none)
    (hf : Spec.Flight x v acc D) (hD : D ≤ 5) (hν : 0 ≤ ν)
    (hy : ∀ i : ℕ, (npNorm (y i - x i) / 10.0598) ^ 2 + (npNorm (w i - v i) / 0.52038) ^ 2 ≤ ν ^ 2) (hc0 : 0 ≤ c0)
    (h0 : npNorm (s.attrs.position - x 0) ^ 2 + npNorm (s.attrs.velocity - v 0) ^ 2 ≤ c0 ^ 2)
    (hsm : c0 + Spec.settled ν D ≤ 9880) (N : ℕ) {k : Pos.Kalman n}
    (hk : posRun (Pos.init mu s) (Spec.fixEvents y w N) = (.ok (), k)) : Up k.P (0.97 ^ N) := by
  induction N generalizing k with
  | zero =>
    have e : k = Pos.init mu s := by
      have : (Pos.init mu s) = k := congrArg Prod.snd hk
      exact this.symm
    rw [e, pow_zero]
    exact up_one
  | succ N ih =>
    obtain ⟨k', J, h1, h2, -, h4, h5, -, h7, h8⟩ := loop_second hmu0 hmu s hc hf hD hν hy hc0 h0 hsm N
    rw [hk] at h4
    have e : k = ((k'.update (y N) (w N)).2.propagate 1).2 := congrArg Prod.snd h4
    rw [e, h5, pow_succ']
    exact up_step h2 (by positivity) (ih h1) h7 h8

end loop

theorem pred_norms (p q : V3) : npNorm (predPos 1 p q) ≤ npNorm p + npNorm q ∧
    npNorm (predVel 1 p q - q) ≤ 1.28e-6 * npNorm p + 1e-6 * npNorm q := by
  constructor
  · unfold predPos
    refine (npNorm_add3 _ _).trans ?_
    rw [npNorm_smul, npNorm_smul]
    have h1 : |(1 - 0.5 * Pos.a * 1 ^ 2 : ℝ)| ≤ 1 := by unfold Pos.a; rw [abs_le]; constructor <;> norm_num
    have h2 : |(1 - 0.5 * Pos.b * 1 ^ 2 - 0.1666 * Pos.a * 1 * 1 ^ 2 : ℝ)| ≤ 1 := by
      unfold Pos.a Pos.b; rw [abs_le]; constructor <;> norm_num
    exact add_le_add (mul_le_of_le_one_left (npNorm_nonneg _) h1) (mul_le_of_le_one_left (npNorm_nonneg _) h2)
  · have e : predVel 1 p q - q = (-1.28e-6 : ℝ) • p + (-(0.5 * 1.28e-6 + 1.618e-10) : ℝ) • q := by
      unfold predVel Pos.a Pos.b
      funext i
      simp only [Pi.add_apply, Pi.sub_apply, Pi.smul_apply, smul_eq_mul]
      ring
    rw [e]
    refine (npNorm_add3 _ _).trans ?_
    rw [npNorm_smul, npNorm_smul]
    have h1 : |(-1.28e-6 : ℝ)| ≤ 1.28e-6 := by rw [abs_le]; constructor <;> norm_num
    have h2 : |(-(0.5 * 1.28e-6 + 1.618e-10) : ℝ)| ≤ 1e-6 := by rw [abs_le]; constructor <;> norm_num
    exact add_le_add (mul_le_mul_of_nonneg_right h1 (npNorm_nonneg _)) (mul_le_mul_of_nonneg_right h2 (npNorm_nonneg _))

/-- One second of a filter that is as good as its fixes: the push prevails over the correction. -/
theorem bias_second {n : ℕ} {k1 k2 : Pos.Kalman n} {P : M6} (hP : Covariance P) {t : ℝ} (hU : Up P t) (ht : t ≤ 1e-5)
    {X V X' V' u : V3} {D D1 : ℝ} (hD0 : 0 ≤ D) (hu : npNorm u = 1) (hx : npNorm (X' - predPos 1 X V) ≤ D / 2 + 1e-5)
    (hv : npNorm (V' - predVel 1 X V) ≤ D + 1.5e-5) (hp : D1 - 1.5e-5 ≤ u ⬝ᵥ (V' - predVel 1 X V))
    (hg : Spec.AsGoodAsFix k1 X V)
    (h : k2.x = aDiscrete 1 *ᵥ k1.x + kgain P Pos.R 1 *ᵥ (Sum.elim X' V' - aDiscrete 1 *ᵥ k1.x)) :
    u ⬝ᵥ (k2.output.2 - V') ≤ u ⬝ᵥ (k1.output.2 - V) - D1 + 0.05 * D + 0.161 := by
  obtain ⟨p, hpd⟩ : ∃ p, p = k1.output.1 - X := ⟨_, rfl⟩
  obtain ⟨q, hqd⟩ : ∃ q, q = k1.output.2 - V := ⟨_, rfl⟩
  obtain ⟨dx, hdx⟩ : ∃ d, d = X' - predPos 1 X V := ⟨_, rfl⟩
  obtain ⟨dv, hdv⟩ : ∃ d, d = V' - predVel 1 X V := ⟨_, rfl⟩
  unfold Spec.AsGoodAsFix at hg
  rw [← hpd, ← hqd] at hg
  rw [← hqd]
  rw [← hdx] at hx
  rw [← hdv] at hv hp
  have ea : aDiscrete 1 *ᵥ k1.x - Sum.elim X' V' = Sum.elim (predPos 1 p q - dx) (predVel 1 p q - dv) := by
    have e1 : k1.x = Sum.elim k1.output.1 k1.output.2 := by funext i; rcases i with i | i <;> rfl
    have e2 : ∀ a b : V3, aDiscrete 1 *ᵥ (Sum.elim a b) = Sum.elim (predPos 1 a b) (predVel 1 a b) := by
      intro a b
      simp only [aDiscrete, Matrix.fromBlocks_mulVec, Sum.elim_comp_inl, Sum.elim_comp_inr, Matrix.smul_mulVec,
        Matrix.one_mulVec]
      rfl
    rw [e1, e2, hpd, hqd, hdx, hdv]
    funext i
    rcases i with i | i
    · simp only [predPos, Pi.sub_apply, Sum.elim_inl, Pi.add_apply, Pi.smul_apply, smul_eq_mul]; ring
    · simp only [predVel, Pi.sub_apply, Sum.elim_inr, Pi.add_apply, Pi.smul_apply, smul_eq_mul]; ring
  have es : k2.x - Sum.elim X' V' = Sum.elim (predPos 1 p q - dx) (predVel 1 p q - dv) +
      kgain P Pos.R 1 *ᵥ Sum.elim (-(predPos 1 p q - dx)) (-(predVel 1 p q - dv)) := by
    have e3 : (Sum.elim (-(predPos 1 p q - dx)) (-(predVel 1 p q - dv)) : I6 → ℝ) =
        -Sum.elim (predPos 1 p q - dx) (predVel 1 p q - dv) := by funext i; rcases i with i | i <;> rfl
    rw [e3, ← ea, h, neg_sub]; abel
  have ef : u ⬝ᵥ (k2.output.2 - V') = (Sum.elim 0 u : I6 → ℝ) ⬝ᵥ (k2.x - Sum.elim X' V') := by
    have e4 : k2.x - Sum.elim X' V' = Sum.elim (k2.output.1 - X') (k2.output.2 - V') := by
      funext i; rcases i with i | i <;> rfl
    rw [e4, dot_elim, zero_dotProduct, zero_add]
  rw [ef, es, dotProduct_add, dot_elim, zero_dotProduct, zero_add, dotProduct_sub]
  obtain ⟨n1, n2⟩ := pred_norms p q
  have n3 : npNorm (predVel 1 p q) ≤ npNorm (predVel 1 p q - q) + npNorm q := by
    have := npNorm_add3 (predVel 1 p q - q) q
    rwa [sub_add_cancel] at this
  have b1 : npNorm (-(predPos 1 p q - dx)) ≤ 31.75 + D / 2 := by
    rw [npNorm_neg3]
    refine (npNorm_sub3 _ _).trans ?_
    obtain ⟨g1, g2⟩ := hg
    norm_num at g1 g2 hx ⊢
    linarith
  have b2 : npNorm (-(predVel 1 p q - dv)) ≤ 1.562 + D := by
    rw [npNorm_neg3]
    refine (npNorm_sub3 _ _).trans ?_
    obtain ⟨g1, g2⟩ := hg
    norm_num at g1 g2 hv n2 ⊢
    linarith
  have b3 := (abs_le.1 (gain_push hP hU ht hu b1 b2)).2
  have b4 : u ⬝ᵥ predVel 1 p q ≤ u ⬝ᵥ q + 1e-4 := by
    have e : predVel 1 p q = q + (predVel 1 p q - q) := by abel
    rw [e, dotProduct_add]
    have := (abs_le.1 (abs_dot_le u (predVel 1 p q - q))).2
    rw [hu, one_mul] at this
    obtain ⟨g1, g2⟩ := hg
    generalize u ⬝ᵥ (predVel 1 p q - q) = z at this ⊢
    norm_num at g1 g2 n2 ⊢
    linarith
  generalize (Sum.elim 0 u : I6 → ℝ) ⬝ᵥ (kgain P Pos.R 1 *ᵥ Sum.elim (-(predPos 1 p q - dx)) (-(predVel 1 p q - dv))) = z
    at b3 ⊢
  norm_num at b3 b4 hp ⊢
  linarith

theorem small_power {N : ℕ} (h : 400 ≤ N) : (0.97 : ℝ) ^ N ≤ 1e-5 := by
  refine (pow_le_pow_of_le_one (by norm_num) (by norm_num) h).trans ?_
  have h1 : (0.97 : ℝ) ^ 20 ≤ 0.544 := by norm_num
  calc (0.97 : ℝ) ^ 400 = (0.97 ^ 20) ^ 20 := by rw [← pow_mul]
    _ ≤ 0.544 ^ 20 := pow_le_pow_left₀ (by positivity) h1 20
    _ ≤ 1e-5 := by norm_num

/-- C209: while the acceleration is off the filter's model in some direction, exact fixes do not keep the error
within three standard deviations of a fix: after 400 s it is larger at some second of any twenty. -/
theorem C209_pushed {n : ℕ} {mu : ℝ} (hmu0 : 0 ≤ mu) (hmu : mu ≤ 4e14) (s : SatState n) (hc : s.clock ≠ none)
    {x v acc : ℝ → V3} {D : ℝ} (hf : Spec.Flight x v acc D) (hD : D ≤ 5) {c0 : ℝ} (hc0 : 0 ≤ c0)
    (h0 : npNorm (s.attrs.position - x 0) ^ 2 + npNorm (s.attrs.velocity - v 0) ^ 2 ≤ c0 ^ 2)
    (hsm : c0 + (1300 * D + 0.03) ≤ 9880) {N : ℕ} (hN : 400 ≤ N) {u : V3} (hu : npNorm u = 1) {D1 : ℝ}
    (hD1 : 0.05 * D + 0.34 ≤ D1)
    (h : ∀ t : ℝ, N ≤ t → t ≤ N + 20 → D1 ≤ u ⬝ᵥ (acc t + (1.28e-6 : ℝ) • x t)) :
    ∃ i ≤ 20, ∃ k, posRun (Pos.init mu s) (Spec.fixEvents (fun i => x i) (fun i => v i) (N + i) ++
        [.update (x (N + i : ℕ)) (v (N + i : ℕ))]) = (.ok (), k) ∧
      ¬ Spec.AsGoodAsFix k (x (N + i : ℕ)) (v (N + i : ℕ)) := by
  have hD0 : 0 ≤ D := (npNorm_nonneg _).trans (hf.model 0 le_rfl)
  have hy : ∀ i : ℕ, (npNorm ((fun i : ℕ => x i) i - x i) / 10.0598) ^ 2 +
      (npNorm ((fun i : ℕ => v i) i - v i) / 0.52038) ^ 2 ≤ (0 : ℝ) ^ 2 := by
    intro i
    have : npNorm (0 : V3) = 0 := npNorm_eq_zero.2 rfl
    simp only [sub_self, this]
    norm_num
  have hsm' : c0 + Spec.settled 0 D ≤ 9880 := by unfold Spec.settled; rw [mul_zero, zero_add]; exact hsm
  have sec := loop_second hmu0 hmu s hc hf hD le_rfl hy hc0 h0 hsm'
  by_contra hno
  have good : ∀ i ≤ 20, ∃ k, posRun (Pos.init mu s) (Spec.fixEvents (fun i => x i) (fun i => v i) (N + i) ++
        [.update (x (N + i : ℕ)) (v (N + i : ℕ))]) = (.ok (), k) ∧ Spec.AsGoodAsFix k (x (N + i : ℕ)) (v (N + i : ℕ)) := by
    intro i hi
    obtain ⟨k, -, -, -, r, -⟩ := sec (N + i)
    refine ⟨_, r, ?_⟩
    by_contra hg
    exact hno ⟨i, hi, _, r, hg⟩
  have key : ∀ i ≤ 20, ∃ k, posRun (Pos.init mu s) (Spec.fixEvents (fun i => x i) (fun i => v i) (N + i) ++
        [.update (x (N + i : ℕ)) (v (N + i : ℕ))]) = (.ok (), k) ∧
      u ⬝ᵥ (k.output.2 - v (N + i : ℕ)) ≤ 3 * 0.52038 - i * 0.178 := by
    intro i
    induction i with
    | zero =>
      intro _
      obtain ⟨k, hk, hg⟩ := good 0 (by norm_num)
      refine ⟨k, hk, ?_⟩
      have := (abs_le.1 (abs_dot_le u (k.output.2 - v (N + 0 : ℕ)))).2
      rw [hu, one_mul] at this
      refine this.trans (hg.2.trans ?_)
      norm_num
    | succ i ih =>
      intro hi
      obtain ⟨k1, r1, d1⟩ := ih (by omega)
      obtain ⟨k1', r1', hg⟩ := good i (by omega)
      rw [r1] at r1'
      obtain rfl : k1 = k1' := congrArg Prod.snd r1'
      obtain ⟨k, J, a1, a2, a3, a4, a5, a6, -, -⟩ := sec (N + i)
      rw [r1] at a3
      have ek : k1 = (k.update (x (N + i : ℕ)) (v (N + i : ℕ))).2 := congrArg Prod.snd a3
      rw [← ek] at a4 a5 a6
      obtain ⟨kk, J', b1, b2, b3, -⟩ := sec (N + i + 1)
      rw [a4] at b1
      have ekk : (k1.propagate 1).2 = kk := congrArg Prod.snd b1
      have hU := loop_up hmu0 hmu s hc hf hD le_rfl hy hc0 h0 hsm' (N + i + 1) (a4.trans (congrArg _ ekk))
      have ht : (0 : ℝ) ≤ (N + i : ℕ) := Nat.cast_nonneg _
      obtain ⟨g1, g2⟩ := flight_second hf hD ht
      have g3 := flight_push hf hD ht hu (D1 := D1) fun t ht' => h t (by
          have := ht'.1
          push_cast at this
          have : (0 : ℝ) ≤ i := Nat.cast_nonneg _
          linarith) (by
          have := ht'.2
          push_cast at this
          have : (i : ℝ) + 1 ≤ 20 := by exact_mod_cast hi
          linarith)
      have ec : ((N + i : ℕ) : ℝ) + 1 = ((N + i + 1 : ℕ) : ℝ) := by push_cast; ring
      rw [ec] at g1 g2 g3
      have hx2 : (kk.update (x (N + i + 1 : ℕ)) (v (N + i + 1 : ℕ))).2.x = aDiscrete 1 *ᵥ k1.x +
          kgain kk.P Pos.R 1 *ᵥ (Sum.elim (x (N + i + 1 : ℕ)) (v (N + i + 1 : ℕ)) - aDiscrete 1 *ᵥ k1.x) := by
        rw [(posUpdate_eq b2 _ _).2.2.1, pos_gain, ← ekk, a6]
      have := bias_second b2 hU (small_power (by omega)) hD0 hu g1 g2 g3 hg hx2
      refine ⟨_, b3, ?_⟩
      change u ⬝ᵥ (_ - v (N + i + 1 : ℕ)) ≤ _
      push_cast at this d1 ⊢
      norm_num at this d1 hD1 ⊢
      linarith
  obtain ⟨k, r, hlow⟩ := key 20 le_rfl
  obtain ⟨k', r', hg⟩ := good 20 le_rfl
  rw [r] at r'
  obtain rfl : k = k' := congrArg Prod.snd r'
  have := (abs_le.1 (abs_dot_le u (k.output.2 - v (N + 20 : ℕ)))).1
  rw [hu, one_mul] at this
  have h2 := hg.2
  norm_num at hlow h2 this
  linarith

/-! ## Circular orbits -/

theorem circle_angle {w : ℝ} (hw : 0 < w) {x0 v0 : V3} (hv : npNorm v0 = w * npNorm x0) (hxv : x0 ⬝ᵥ v0 = 0)
    (s t : ℝ) : circlePos w x0 v0 s ⬝ᵥ circlePos w x0 v0 t = npNorm x0 ^ 2 * Real.cos (w * (t - s)) := by
  rw [mul_sub, Real.cos_sub, circlePos, circlePos]
  simp only [add_dotProduct, dotProduct_add, smul_dotProduct, dotProduct_smul, smul_eq_mul, dotProduct_comm v0 x0,
    dot_self_norm, hxv, hv]
  field_simp
  ring

theorem kepler_bounds {w : ℝ} {x0 v0 : V3} (ho : Spec.CircularOrbit w x0 v0) (h1 : 6.5e6 ≤ npNorm x0) :
    npNorm v0 ≤ 1e4 ∧ w ≤ 0.00121 := by
  have hr : 0 < npNorm x0 := lt_of_lt_of_le (by norm_num) h1
  have hk := ho.kepler
  have hmu : Spec.mu ≤ 3.99e14 := by unfold Spec.mu; norm_num
  have hw := ho.turns
  obtain ⟨r, hrd⟩ : ∃ r, r = npNorm x0 := ⟨_, rfl⟩
  rw [ho.speed]
  rw [← hrd] at hk h1 hr ⊢
  constructor
  · refine abs_le_of_sq_le_sq' ?_ (by norm_num) |>.2
    have h2 : (w * r) ^ 2 * r ≤ (1e4) ^ 2 * r := by
      have e : (w * r) ^ 2 * r = Spec.mu := by rw [← hk]; ring
      rw [e]
      norm_num at h1 hmu ⊢
      linarith
    exact le_of_mul_le_mul_right h2 hr
  · refine abs_le_of_sq_le_sq' ?_ (by norm_num) |>.2
    have h3 : (6.5e6 : ℝ) ^ 3 ≤ r ^ 3 := pow_le_pow_left₀ (by norm_num) h1 3
    have h2 : w ^ 2 * r ^ 3 ≤ 0.00121 ^ 2 * r ^ 3 := by
      rw [hk]
      norm_num at h3 hmu ⊢
      linarith
    exact le_of_mul_le_mul_right h2 (by positivity)

/-- The acceleration of a circular orbit off the filter's model. -/
theorem kepler_gap {w : ℝ} {x0 v0 : V3} (ho : Spec.CircularOrbit w x0 v0) (hr : 0 < npNorm x0) :
    (1.28e-6 - w ^ 2) * npNorm x0 * npNorm x0 ^ 2 = 1.28e-6 * npNorm x0 ^ 3 - Spec.mu := by
  rw [← ho.kepler]; ring

theorem start_exact {n : ℕ} {s : SatState n} {w : ℝ} {x0 v0 : V3} (hp : s.attrs.position = x0)
    (hv : s.attrs.velocity = v0) : npNorm (s.attrs.position - circlePos w x0 v0 0) ^ 2 +
      npNorm (s.attrs.velocity - circleVel w x0 v0 0) ^ 2 ≤ (0 : ℝ) ^ 2 := by
  have z : npNorm (0 : V3) = 0 := npNorm_eq_zero.2 rfl
  have e1 : s.attrs.position - circlePos w x0 v0 0 = 0 := by rw [hp]; simp [circlePos]
  have e2 : s.attrs.velocity - circleVel w x0 v0 0 = 0 := by rw [hv]; simp [circleVel]
  rw [e1, e2, z]
  norm_num

/-- C209: on circular orbits more than 100 km above or below the one that the filter's model is made for, exact fixes
and an exact start do not keep the error within three standard deviations of a fix: after 400 s it is larger at some
second of any twenty. -/
theorem C209_circular {n : ℕ} (s : SatState n) (hc : s.clock ≠ none) {w : ℝ} {x0 v0 : V3}
    (ho : Spec.CircularOrbit w x0 v0)
    (hr : (6.5e6 ≤ npNorm x0 ∧ npNorm x0 ≤ 6.68e6) ∨ (6.88e6 ≤ npNorm x0 ∧ npNorm x0 ≤ 8.3e6))
    (hp : s.attrs.position = x0) (hv : s.attrs.velocity = v0) {N : ℕ} (hN : 400 ≤ N) :
    ∃ i ≤ 20, ∃ k, Spec.exactFixes s w x0 v0 (N + i) = (.ok (), k) ∧
      ¬ Spec.AsGoodAsFix k (circlePos w x0 v0 (N + i : ℕ)) (circleVel w x0 v0 (N + i : ℕ)) := by
  have h1 : 6.5e6 ≤ npNorm x0 := by
    rcases hr with h | h
    · exact h.1
    · exact le_trans (by norm_num) h.1
  have h2 : npNorm x0 ≤ 1e7 := by
    rcases hr with h | h
    · exact h.2.trans (by norm_num)
    · exact h.2.trans (by norm_num)
  have hpos : 0 < npNorm x0 := lt_of_lt_of_le (by norm_num) h1
  obtain ⟨b1, b2⟩ := kepler_bounds ho h1
  have hfl := circle_flight ho.turns ho.speed ho.perp h1 h2 b1
  have hgap := kepler_gap ho hpos
  have hmu1 : 3.9867e14 ≤ Spec.mu := by unfold Spec.mu; norm_num
  have hmu2 : Spec.mu ≤ 3.9868e14 := by unfold Spec.mu; norm_num
  -- the side of the model's orbit
  obtain ⟨σ, hσ, hσD, hD1, hD2⟩ : ∃ σ : ℝ, σ ^ 2 = 1 ∧ σ * (1.28e-6 - w ^ 2) = |1.28e-6 - w ^ 2| ∧
      0.36 ≤ |1.28e-6 - w ^ 2| * npNorm x0 ∧ |1.28e-6 - w ^ 2| * npNorm x0 ≤ 5 := by
    obtain ⟨r, hrd⟩ : ∃ r, r = npNorm x0 := ⟨_, rfl⟩
    rw [← hrd] at hgap hr hpos ⊢
    obtain ⟨g, hg⟩ : ∃ g, g = 1.28e-6 - w ^ 2 := ⟨_, rfl⟩
    rw [← hg] at hgap ⊢
    have hr2 : 0 < r ^ 2 := by positivity
    rcases hr with ⟨l, m⟩ | ⟨l, m⟩
    · have c1 : -5 * r ^ 2 ≤ g * r * r ^ 2 := by
        rw [hgap]; norm_num at l m hmu2 ⊢
        have : (6500000 : ℝ) ^ 2 ≤ r ^ 2 := pow_le_pow_left₀ (by norm_num) l 2
        nlinarith
      have c2 : g * r * r ^ 2 ≤ -0.36 * r ^ 2 := by
        rw [hgap]; norm_num at l m hmu1 ⊢
        have k1 : r ^ 2 ≤ (6680000 : ℝ) ^ 2 := pow_le_pow_left₀ hpos.le m 2
        have k2 : r ^ 3 ≤ (6680000 : ℝ) ^ 3 := pow_le_pow_left₀ hpos.le m 3
        norm_num at k1 k2
        linarith
      have d1 := le_of_mul_le_mul_right c1 hr2
      have d2 := le_of_mul_le_mul_right c2 hr2
      have hneg : g < 0 := by
        by_contra hn
        have := mul_nonneg (not_lt.1 hn) hpos.le
        norm_num at d2
        linarith
      refine ⟨-1, by norm_num, by rw [abs_of_neg hneg]; ring, ?_, ?_⟩ <;> rw [abs_of_neg hneg] <;> norm_num at d1 d2 ⊢ <;>
        linarith
    · have c1 : g * r * r ^ 2 ≤ 5 * r ^ 2 := by
        rw [hgap]; norm_num at l m hmu1 ⊢
        have k1 : r ^ 2 ≤ (8300000 : ℝ) ^ 2 := pow_le_pow_left₀ hpos.le m 2
        norm_num at k1
        nlinarith
      have c2 : 0.36 * r ^ 2 ≤ g * r * r ^ 2 := by
        rw [hgap]; norm_num at l m hmu2 ⊢
        have k1 : (6880000 : ℝ) ^ 2 ≤ r ^ 2 := pow_le_pow_left₀ (by norm_num) l 2
        norm_num at k1
        nlinarith
      have d1 := le_of_mul_le_mul_right c1 hr2
      have d2 := le_of_mul_le_mul_right c2 hr2
      have hp' : 0 < g := by
        by_contra hn
        have := mul_nonpos_of_nonpos_of_nonneg (not_lt.1 hn) hpos.le
        norm_num at d2
        linarith
      refine ⟨1, by norm_num, by rw [abs_of_pos hp']; ring, ?_, ?_⟩ <;> rw [abs_of_pos hp'] <;> norm_num at d1 d2 ⊢ <;>
        linarith
  obtain ⟨D, hD⟩ : ∃ D, D = |1.28e-6 - w ^ 2| * npNorm x0 := ⟨_, rfl⟩
  rw [← hD] at hD1 hD2 hfl
  have hu : npNorm ((σ / npNorm x0) • circlePos w x0 v0 N) = 1 := by
    rw [npNorm_smul, (circle_norms ho.turns ho.speed ho.perp N).1, abs_div, abs_of_pos hpos]
    have : |σ| = 1 := by rw [← Real.sqrt_sq_eq_abs, hσ, Real.sqrt_one]
    rw [this]
    field_simp
  obtain ⟨i, hi, k, hk, hb⟩ := C209_pushed (mu := Spec.mu) (by unfold Spec.mu; norm_num) (by unfold Spec.mu; norm_num) s hc
    hfl hD2 le_rfl (start_exact hp hv) (by norm_num; linarith) hN hu (D1 := 0.9997 * D)
    (by norm_num at hD1 ⊢; linarith) (fun t ht1 ht2 => by
      have e : (-w ^ 2) • circlePos w x0 v0 t + (1.28e-6 : ℝ) • circlePos w x0 v0 t =
          (1.28e-6 - w ^ 2) • circlePos w x0 v0 t := by rw [← add_smul, neg_add_eq_sub]
      rw [e, smul_dotProduct, dotProduct_smul, circle_angle ho.turns ho.speed ho.perp]
      simp only [smul_eq_mul]
      have e2 : σ / npNorm x0 * ((1.28e-6 - w ^ 2) * (npNorm x0 ^ 2 * Real.cos (w * (t - N)))) =
          D * Real.cos (w * (t - N)) := by
        rw [hD, ← hσD]; field_simp
      rw [e2, mul_comm (0.9997 : ℝ)]
      refine mul_le_mul_of_nonneg_left ?_ (le_trans (by norm_num) hD1)
      refine le_trans ?_ (Real.one_sub_sq_div_two_le_cos)
      have a1 : w * (t - N) ≤ 0.00121 * 20 := mul_le_mul b2 (by linarith) (by linarith) (by norm_num)
      have a2 : 0 ≤ w * (t - N) := mul_nonneg ho.turns.le (by linarith)
      have a3 := pow_le_pow_left₀ a2 a1 2
      norm_num at a3 ⊢
      linarith)
  exact ⟨i, hi, k, hk, hb⟩

/-- The full claim: on a circular orbit, a filter that starts at the true state and gets exact fixes each second is
never further off than three standard deviations of a fix. -/
def C209_claim : Prop :=
  ∀ (n : ℕ) (s : SatState n) (w : ℝ) (x0 v0 : V3), s.clock ≠ none → Spec.CircularOrbit w x0 v0 →
    6.5e6 ≤ npNorm x0 → npNorm x0 ≤ 8.3e6 → s.attrs.position = x0 → s.attrs.velocity = v0 →
    ∀ N, ∃ k, Spec.exactFixes s w x0 v0 N = (.ok (), k) ∧
      Spec.AsGoodAsFix k (circlePos w x0 v0 N) (circleVel w x0 v0 N)

/-- C209, with what is missing of the full claim: only on orbits within half a kilometre of 6778.5 km radius. -/
theorem C209_near_partial {n : ℕ} (s : SatState n) (hc : s.clock ≠ none) {w : ℝ} {x0 v0 : V3}
    (ho : Spec.CircularOrbit w x0 v0) (h1 : 6.778e6 ≤ npNorm x0) (h2 : npNorm x0 ≤ 6.779e6)
    (hp : s.attrs.position = x0) (hv : s.attrs.velocity = v0) (N : ℕ) :
    ∃ k, Spec.exactFixes s w x0 v0 N = (.ok (), k) ∧
      Spec.AsGoodAsFix k (circlePos w x0 v0 N) (circleVel w x0 v0 N) := by
  have h1' : 6.5e6 ≤ npNorm x0 := le_trans (by norm_num) h1
  have hpos : 0 < npNorm x0 := lt_of_lt_of_le (by norm_num) h1
  have hfl := circle_flight ho.turns ho.speed ho.perp h1' (h2.trans (by norm_num)) (kepler_bounds ho h1').1
  have hgap := kepler_gap ho hpos
  have hD : |1.28e-6 - w ^ 2| * npNorm x0 ≤ 0.00228 := by
    have hmu1 : 3.98678e14 ≤ Spec.mu := by unfold Spec.mu; norm_num
    have hmu2 : Spec.mu ≤ 3.986782e14 := by unfold Spec.mu; norm_num
    obtain ⟨r, hrd⟩ : ∃ r, r = npNorm x0 := ⟨_, rfl⟩
    rw [← hrd] at hgap h1 h2 hpos ⊢
    have hr2 : 0 < r ^ 2 := by positivity
    have k1 : r ^ 2 ≤ (6779000 : ℝ) ^ 2 := pow_le_pow_left₀ hpos.le (by norm_num at h2 ⊢; exact h2) 2
    have k2 : (6778000 : ℝ) ^ 2 ≤ r ^ 2 := pow_le_pow_left₀ (by norm_num) (by norm_num at h1 ⊢; exact h1) 2
    have c1 : (1.28e-6 - w ^ 2) * r * r ^ 2 ≤ 0.00228 * r ^ 2 := by
      rw [hgap]; norm_num at h1 h2 hmu1 k1 ⊢
      nlinarith
    have c2 : -0.00228 * r ^ 2 ≤ (1.28e-6 - w ^ 2) * r * r ^ 2 := by
      rw [hgap]; norm_num at h1 h2 hmu2 k2 ⊢
      nlinarith
    have d1 := le_of_mul_le_mul_right c1 hr2
    have d2 := le_of_mul_le_mul_right c2 hr2
    rw [← abs_of_pos hpos, ← abs_mul, abs_le]
    norm_num at d1 d2 ⊢
    exact ⟨d2, d1⟩
  have hy : ∀ i : ℕ, (npNorm ((fun i : ℕ => circlePos w x0 v0 i) i - circlePos w x0 v0 i) / 10.0598) ^ 2 +
      (npNorm ((fun i : ℕ => circleVel w x0 v0 i) i - circleVel w x0 v0 i) / 0.52038) ^ 2 ≤ (0 : ℝ) ^ 2 := by
    intro i
    have : npNorm (0 : V3) = 0 := npNorm_eq_zero.2 rfl
    simp only [sub_self, this]
    norm_num
  obtain ⟨D, hDe⟩ : ∃ D, D = |1.28e-6 - w ^ 2| * npNorm x0 := ⟨_, rfl⟩
  rw [← hDe] at hD hfl
  norm_num at hD
  obtain ⟨k, r1, r2, r3, -⟩ := C208_tracks (mu := Spec.mu) (by unfold Spec.mu; norm_num) (by unfold Spec.mu; norm_num) s hc
    hfl (by linarith) _ _ le_rfl hy le_rfl (start_exact hp hv) (by norm_num; linarith) N
  refine ⟨k, r1, r2.trans ?_, r3.trans ?_⟩ <;> norm_num <;> linarith

/-- A state at the given position and velocity. -/
theorem state_at (x v : V3) (h : 6.3e6 ≤ npNorm x) :
    ∃ s : SatState 0, s.clock ≠ none ∧ s.attrs.position = x ∧ s.attrs.velocity = v := by
  obtain ⟨s, hs, -⟩ := C127_new (n := 0) ⟨x, v, ![1, 0, 0, 0], 0, 0⟩ ⟨0, 0⟩ h
  obtain ⟨hc, ha, hk⟩ := mkState_consistent hs
  obtain ⟨c, lat, long, hh, -, -, e⟩ := mkState_ok.1 hs
  exact ⟨s, by rw [hk]; simp, by rw [e], by rw [e]⟩

theorem norm_e1 {a : ℝ} (ha : 0 ≤ a) : npNorm (![a, 0, 0] : V3) = a := by
  have := npNorm3_sq ![a, 0, 0]
  simp only [Matrix.cons_val_zero, Matrix.cons_val_one, Matrix.cons_val] at this
  exact (sq_eq_sq₀ (npNorm_nonneg _) ha).1 (by rw [this]; ring)

theorem norm_e2 {a : ℝ} (ha : 0 ≤ a) : npNorm (![0, a, 0] : V3) = a := by
  have := npNorm3_sq ![0, a, 0]
  simp only [Matrix.cons_val_zero, Matrix.cons_val_one, Matrix.cons_val] at this
  exact (sq_eq_sq₀ (npNorm_nonneg _) ha).1 (by rw [this]; ring)

/-- Every radius has a circular orbit. -/
theorem circle_at {r : ℝ} (hr : 0 < r) :
    Spec.CircularOrbit √(Spec.mu / r ^ 3) ![r, 0, 0] ![0, √(Spec.mu / r ^ 3) * r, 0] where
  turns := Real.sqrt_pos.2 (div_pos (by unfold Spec.mu; norm_num) (by positivity))
  speed := by rw [norm_e1 hr.le, norm_e2 (by positivity)]
  perp := by simp [dotProduct, Fin.sum_univ_three]
  kepler := by
    rw [norm_e1 hr.le, Real.sq_sqrt (div_nonneg (by unfold Spec.mu; norm_num) (by positivity))]
    field_simp

/-- The hypotheses of `C209_circular` and `C209_near_partial` are met. -/
example : ∃ (s : SatState 0) (w : ℝ) (x0 v0 : V3), s.clock ≠ none ∧ Spec.CircularOrbit w x0 v0 ∧
    6.778e6 ≤ npNorm x0 ∧ npNorm x0 ≤ 6.779e6 ∧ s.attrs.position = x0 ∧ s.attrs.velocity = v0 := by
  have h0 : (0 : ℝ) < 6778500 := by norm_num
  obtain ⟨s, h1, h2, h3⟩ := state_at ![6778500, 0, 0] ![0, √(Spec.mu / 6778500 ^ 3) * 6778500, 0]
    (by rw [norm_e1 h0.le]; norm_num)
  exact ⟨s, _, _, _, h1, circle_at h0, by rw [norm_e1 h0.le]; norm_num, by rw [norm_e1 h0.le]; norm_num, h2, h3⟩

/-- C209: the full claim fails, on an orbit 500 km up. -/
theorem C209_bias_fails : ¬ C209_claim := by
  intro h
  have h0 : (0 : ℝ) < 6880000 := by norm_num
  obtain ⟨s, h1, h2, h3⟩ := state_at ![6880000, 0, 0] ![0, √(Spec.mu / 6880000 ^ 3) * 6880000, 0]
    (by rw [norm_e1 h0.le]; norm_num)
  have ho := circle_at h0
  have hn := norm_e1 h0.le
  obtain ⟨i, -, k, hk, hb⟩ := C209_circular s h1 ho (Or.inr ⟨by rw [hn]; norm_num, by rw [hn]; norm_num⟩) h2 h3 (le_refl 400)
  obtain ⟨k', hk', hg⟩ := h 0 s _ _ _ h1 ho (by rw [hn]; norm_num) (by rw [hn]; norm_num) h2 h3 (400 + i)
  rw [hk] at hk'
  obtain rfl : k = k' := congrArg Prod.snd hk'
  exact hb hg

end Adcs
