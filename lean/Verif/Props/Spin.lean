import Verif.Props.Dynamics
import Verif.Proofs.ExampleSat
import Mathlib.Analysis.SpecialFunctions.Trigonometric.DerivHyp
import Mathlib.Topology.Order.IntermediateValue

set_option autoImplicit false

/-! # C178: spins of a satellite that is left alone -/

namespace Adcs

open Str Sens JDay Quat Vec Dyn
open scoped Matrix

/-- A satellite with its wheels at rest, no command and no torque from outside: its rates change as the library's
dynamics say. -/
def Spec.Alone (sat : Satellite) (st : ℝ → SatState sat.rw.n) : Prop :=
  ∀ t, 0 ≤ t → (st t).attrs.wheelVel = 0 ∧ ∃ F d, derivative sat (st t) ⟨F, 0⟩ 0 = .ok d ∧
    HasDerivAt (fun τ => (st τ).attrs.bodyAngVel) d.rate t

/-- The part of a rate across the axis `e`. -/
def Spec.across (e w : V3) : V3 := w - (w ⬝ᵥ e) • e

theorem momentum_zero (sat : Satellite) : sat.rw.momentum 0 = 0 := by
  unfold RWSystem.momentum Wheel.momentum
  apply Finset.sum_eq_zero
  intro i _
  funext k
  simp

/-- Euler's equation. -/
theorem alone_euler {sat : Satellite} {mass : ℝ} {dims : V3} {ab cd : ℝ} (hb : Built sat mass dims ab cd)
    {st : ℝ → SatState sat.rw.n} (h : Spec.Alone sat st) {t : ℝ} (ht : 0 ≤ t) : ∃ w' : V3,
    HasDerivAt (fun τ => (st τ).attrs.bodyAngVel) w' t ∧
    sat.totalMoment *ᵥ w' =
      -((st t).attrs.bodyAngVel ⨯₃ (sat.totalMoment *ᵥ (st t).attrs.bodyAngVel)) := by
  obtain ⟨hw, F, d, hd, hder⟩ := h t ht
  refine ⟨d.rate, hder, ?_⟩
  simp only [derivative, npVDiv] at hd
  by_cases h0 : sat.mass = 0
  · rw [if_pos h0] at hd; simp at hd
  rw [if_neg h0] at hd
  simp only [Except.ok.injEq] at hd
  subst hd
  simp only
  rw [Matrix.mulVec_mulVec, hb.inverse, Matrix.one_mulVec, hw, torque_eq_momentum, momentum_zero,
    npCross_eq_crossProduct]
  simp

theorem symm_dot3 {J : M3} (hJ : J.IsSymm) (x y : V3) : x ⬝ᵥ (J *ᵥ y) = (J *ᵥ x) ⬝ᵥ y := by
  rw [Matrix.dotProduct_mulVec, ← Matrix.mulVec_transpose, hJ.eq]

theorem hasDerivAt_dot3 {f g : ℝ → V3} {f' g' : V3} {t : ℝ} (hf : HasDerivAt f f' t) (hg : HasDerivAt g g' t) :
    HasDerivAt (fun τ => f τ ⬝ᵥ g τ) (f' ⬝ᵥ g t + f t ⬝ᵥ g') t := by
  have h1 := hasDerivAt_pi.1 hf
  have h2 := hasDerivAt_pi.1 hg
  have := (((h1 0).fun_mul (h2 0)).fun_add ((h1 1).fun_mul (h2 1))).fun_add ((h1 2).fun_mul (h2 2))
  have e : (fun τ => f τ ⬝ᵥ g τ) = fun τ => f τ 0 * g τ 0 + f τ 1 * g τ 1 + f τ 2 * g τ 2 := by
    funext τ; rw [Matrix.vec3_dotProduct]
  rw [e]
  refine this.congr_deriv ?_
  simp only [Matrix.vec3_dotProduct]
  ring

theorem hasDerivAt_mulVec3 {J : M3} {f : ℝ → V3} {f' : V3} {t : ℝ} (hf : HasDerivAt f f' t) :
    HasDerivAt (fun τ => J *ᵥ f τ) (J *ᵥ f') t := by
  have h1 := hasDerivAt_pi.1 hf
  rw [hasDerivAt_pi]
  intro i
  have := (((h1 0).const_mul (J i 0)).fun_add ((h1 1).const_mul (J i 1))).fun_add ((h1 2).const_mul (J i 2))
  have e : (fun τ => (J *ᵥ f τ) i) = fun τ => J i 0 * f τ 0 + J i 1 * f τ 1 + J i 2 * f τ 2 := by
    funext τ; simp [Matrix.mulVec, dotProduct, Fin.sum_univ_three]
  rw [e]
  refine this.congr_deriv ?_
  simp [Matrix.mulVec, dotProduct, Fin.sum_univ_three]

theorem constant_of_deriv {f : ℝ → ℝ} (h : ∀ t, 0 ≤ t → HasDerivAt f 0 t) {t : ℝ} (ht : 0 ≤ t) : f t = f 0 := by
  have hd : DifferentiableOn ℝ f (Set.Icc 0 t) := fun x hx => (h x hx.1).differentiableAt.differentiableWithinAt
  exact constant_of_derivWithin_zero hd (fun x hx =>
    ((h x hx.1).hasDerivWithinAt).derivWithin (uniqueDiffOn_Icc (lt_of_le_of_lt hx.1 hx.2) x ⟨hx.1, hx.2.le⟩))
    t ⟨ht, le_rfl⟩

/-- Energy and momentum are conserved. -/
theorem alone_invariants {sat : Satellite} {mass : ℝ} {dims : V3} {ab cd : ℝ} (hb : Built sat mass dims ab cd)
    (hJ : sat.totalMoment.IsSymm) {st : ℝ → SatState sat.rw.n} (h : Spec.Alone sat st) {t : ℝ} (ht : 0 ≤ t) :
    let w := fun τ => (st τ).attrs.bodyAngVel
    let J := sat.totalMoment
    w t ⬝ᵥ (J *ᵥ w t) = w 0 ⬝ᵥ (J *ᵥ w 0) ∧
    (J *ᵥ w t) ⬝ᵥ (J *ᵥ w t) = (J *ᵥ w 0) ⬝ᵥ (J *ᵥ w 0) := by
  intro w J
  constructor
  · apply constant_of_deriv (f := fun τ => w τ ⬝ᵥ (J *ᵥ w τ)) _ ht
    intro τ hτ
    obtain ⟨w', h1, h2⟩ := alone_euler hb h hτ
    refine (hasDerivAt_dot3 h1 (hasDerivAt_mulVec3 h1)).congr_deriv ?_
    rw [symm_dot3 hJ w', h2, dotProduct_comm _ (w τ)]
    simp only [dotProduct_neg]
    change -(w τ ⬝ᵥ w τ ⨯₃ _) + -(w τ ⬝ᵥ w τ ⨯₃ _) = 0
    rw [dot_self_cross]; simp
  · apply constant_of_deriv (f := fun τ => (J *ᵥ w τ) ⬝ᵥ (J *ᵥ w τ)) _ ht
    intro τ hτ
    obtain ⟨w', h1, h2⟩ := alone_euler hb h hτ
    refine (hasDerivAt_dot3 (hasDerivAt_mulVec3 h1) (hasDerivAt_mulVec3 h1)).congr_deriv ?_
    rw [h2, dotProduct_comm _ (J *ᵥ w τ)]
    simp only [dotProduct_neg]
    change -((J *ᵥ w τ) ⬝ᵥ w τ ⨯₃ (J *ᵥ w τ)) + -((J *ᵥ w τ) ⬝ᵥ w τ ⨯₃ (J *ᵥ w τ)) = 0
    rw [dot_cross_self]; simp

/-- `e` is a principal axis of `J` with moment `c`, and the moments about the axes across it are between `m` and
`M`. -/
structure Spec.Principal (J : M3) (e : V3) (c m M : ℝ) : Prop where
  unit : npNorm e = 1
  moment : J *ᵥ e = c • e
  lower : ∀ v : V3, v ⬝ᵥ e = 0 → m * npNorm v ^ 2 ≤ v ⬝ᵥ (J *ᵥ v)
  upper : ∀ v : V3, v ⬝ᵥ e = 0 → v ⬝ᵥ (J *ᵥ v) ≤ M * npNorm v ^ 2

theorem across_dot {e : V3} (he : npNorm e = 1) (w : V3) : Spec.across e w ⬝ᵥ e = 0 := by
  have h := npNorm_sq_dot e
  rw [npDot_eq_dotProduct, he] at h
  simp only [Spec.across, sub_dotProduct, smul_dotProduct, smul_eq_mul, ← h]
  ring

theorem principal_split {J : M3} (hJ : J.IsSymm) {e : V3} {c m M : ℝ} (hp : Spec.Principal J e c m M) (w : V3) :
    let u := Spec.across e w
    (J *ᵥ u) ⬝ᵥ e = 0 ∧ w ⬝ᵥ (J *ᵥ w) = c * (w ⬝ᵥ e) ^ 2 + u ⬝ᵥ (J *ᵥ u) ∧
    (J *ᵥ w) ⬝ᵥ (J *ᵥ w) = c ^ 2 * (w ⬝ᵥ e) ^ 2 + (J *ᵥ u) ⬝ᵥ (J *ᵥ u) := by
  intro u
  have h := npNorm_sq_dot e
  rw [npDot_eq_dotProduct, hp.unit] at h
  have hu : u ⬝ᵥ e = 0 := across_dot hp.unit w
  have h1 : (J *ᵥ u) ⬝ᵥ e = 0 := by
    rw [← symm_dot3 hJ, hp.moment, dotProduct_smul, hu, smul_zero]
  have hw : w = u + (w ⬝ᵥ e) • e := by simp [u, Spec.across]
  have hJw : J *ᵥ w = J *ᵥ u + (w ⬝ᵥ e * c) • e := by
    conv_lhs => rw [hw, Matrix.mulVec_add, Matrix.mulVec_smul, hp.moment, smul_smul]
  generalize w ⬝ᵥ e = a at hw hJw ⊢
  refine ⟨h1, ?_, ?_⟩
  · rw [hJw, hw]
    simp only [add_dotProduct, dotProduct_add, smul_dotProduct, dotProduct_smul, smul_eq_mul, hu,
      dotProduct_comm e (J *ᵥ u), h1, ← h]
    ring
  · rw [hJw]
    simp only [add_dotProduct, dotProduct_add, smul_dotProduct, dotProduct_smul, smul_eq_mul,
      dotProduct_comm e (J *ᵥ u), h1, ← h]
    ring

theorem cauchy3_norm (x y : V3) : (x ⬝ᵥ y) ^ 2 ≤ npNorm x ^ 2 * npNorm y ^ 2 := by
  rw [npNorm3_sq, npNorm3_sq, Matrix.vec3_dotProduct]
  nlinarith [sq_nonneg (x 0 * y 1 - x 1 * y 0), sq_nonneg (x 0 * y 2 - x 2 * y 0),
    sq_nonneg (x 1 * y 2 - x 2 * y 1)]

/-- `m u.Ju <= |Ju|^2 <= M u.Ju` across the axis. -/
theorem principal_sq {J : M3} (hJ : J.IsSymm) {e : V3} {c m M : ℝ} (hm : 0 < m) (hp : Spec.Principal J e c m M)
    {u : V3} (hu : u ⬝ᵥ e = 0) :
    m * (u ⬝ᵥ (J *ᵥ u)) ≤ (J *ᵥ u) ⬝ᵥ (J *ᵥ u) ∧ (J *ᵥ u) ⬝ᵥ (J *ᵥ u) ≤ M * (u ⬝ᵥ (J *ᵥ u)) := by
  have h1 : (J *ᵥ u) ⬝ᵥ e = 0 := by
    rw [← symm_dot3 hJ, hp.moment, dotProduct_smul, hu, smul_zero]
  have hn : (J *ᵥ u) ⬝ᵥ (J *ᵥ u) = npNorm (J *ᵥ u) ^ 2 := by
    rw [npNorm_sq_dot, npDot_eq_dotProduct]
  have hl := hp.lower u hu
  have hcs := cauchy3_norm u (J *ᵥ u)
  have hNn := sq_nonneg (npNorm u)
  have hs0 : 0 ≤ u ⬝ᵥ (J *ᵥ u) := le_trans (mul_nonneg hm.le hNn) hl
  rw [hn]
  set s := u ⬝ᵥ (J *ᵥ u)
  set N := npNorm u ^ 2
  set K := npNorm (J *ᵥ u) ^ 2 with hK
  have hK0 : 0 ≤ K := sq_nonneg _
  constructor
  · by_contra hc
    push Not at hc
    rcases eq_or_lt_of_le hs0 with h0 | h0
    · rw [← h0] at hc; linarith
    · have h3 : m * (s ^ 2) ≤ s * K := by nlinarith
      nlinarith
  · -- Cauchy's inequality for the form of J, at u and Ju
    have hf : ∀ x : ℝ, 0 ≤ s + 2 * x * K + x ^ 2 * ((J *ᵥ u) ⬝ᵥ (J *ᵥ (J *ᵥ u))) := by
      intro x
      have h2 := hp.lower (u + x • (J *ᵥ u)) (by
        rw [add_dotProduct, smul_dotProduct, hu, h1, smul_zero, add_zero])
      have h3 : (u + x • (J *ᵥ u)) ⬝ᵥ (J *ᵥ (u + x • (J *ᵥ u))) =
          s + 2 * x * K + x ^ 2 * ((J *ᵥ u) ⬝ᵥ (J *ᵥ (J *ᵥ u))) := by
        rw [Matrix.mulVec_add, Matrix.mulVec_smul]
        simp only [add_dotProduct, dotProduct_add, smul_dotProduct, dotProduct_smul, smul_eq_mul]
        rw [symm_dot3 hJ u (J *ᵥ u), hn]
        ring
      rw [h3] at h2
      exact le_trans (mul_nonneg hm.le (sq_nonneg _)) h2
    have hup := hp.upper (J *ᵥ u) h1
    set G := (J *ᵥ u) ⬝ᵥ (J *ᵥ (J *ᵥ u))
    -- x = -1/M would do
    rcases eq_or_lt_of_le hK0 with h0 | h0
    · rw [← h0]
      by_contra hc
      push Not at hc
      have hM : M < 0 := by
        by_contra hM
        push Not at hM
        exact absurd (mul_nonneg hM hs0) (not_le.2 hc)
      have h4 := hp.upper u hu
      have h5 := mul_nonpos_of_nonpos_of_nonneg hM.le hNn
      have : s = 0 := le_antisymm (h4.trans h5) hs0
      rw [this] at hc
      linarith
    · have hGl := hp.lower (J *ᵥ u) h1
      have hM : 0 < M := by
        by_contra hM
        push Not at hM
        have := mul_pos hm h0
        have := mul_nonpos_of_nonpos_of_nonneg hM hK0
        linarith
      have h4 := hf (-(1 / M))
      have h5 : (-(1 / M)) ^ 2 * G ≤ (1 / M) * K := by
        have : (1 / M) ^ 2 * G ≤ (1 / M) ^ 2 * (M * K) := mul_le_mul_of_nonneg_left hup (sq_nonneg _)
        have e : (1 / M) ^ 2 * (M * K) = (1 / M) * K := by field_simp
        rw [neg_sq]; linarith
      have h6 : (1 / M) * K ≤ s := by linarith
      rw [one_div, inv_mul_le_iff₀ hM] at h6
      exact h6

theorem principal_zero {J : M3} {e w : V3} (h : npNorm (Spec.across e w) = 0) :
    Spec.across e w ⬝ᵥ (J *ᵥ Spec.across e w) = 0 ∧
    (J *ᵥ Spec.across e w) ⬝ᵥ (J *ᵥ Spec.across e w) = 0 := by
  rw [npNorm_eq_zero.1 h]; simp

theorem principal_le {J : M3} {e w : V3} {c m M : ℝ} (hp : Spec.Principal J e c m M)
    (h : npNorm (Spec.across e w) ≠ 0) : m ≤ M := by
  have h1 := (hp.lower _ (across_dot hp.unit w)).trans (hp.upper _ (across_dot hp.unit w))
  exact le_of_mul_le_mul_right h1 (lt_of_le_of_ne (sq_nonneg _) (pow_ne_zero 2 h).symm)

/-- The sense of a spin is kept while the rate across the axis is small. -/
theorem sense_kept {sat : Satellite} {mass : ℝ} {dims : V3} {ab cd : ℝ} (hb : Built sat mass dims ab cd)
    (hJ : sat.totalMoment.IsSymm) {e : V3} {c m M : ℝ} (hm : 0 < m) (hc : 0 < c)
    (hp : Spec.Principal sat.totalMoment e c m M) {st : ℝ → SatState sat.rw.n} (h : Spec.Alone sat st)
    (h0 : 0 < (st 0).attrs.bodyAngVel ⬝ᵥ e)
    (hs : ∀ t, 0 ≤ t → npNorm (Spec.across e (st t).attrs.bodyAngVel) ≠ 0 →
      M * npNorm (Spec.across e (st t).attrs.bodyAngVel) ^ 2 < c * ((st 0).attrs.bodyAngVel ⬝ᵥ e) ^ 2) :
    ∀ t, 0 ≤ t → 0 < (st t).attrs.bodyAngVel ⬝ᵥ e := by
  have hne : ∀ t, 0 ≤ t → (st t).attrs.bodyAngVel ⬝ᵥ e ≠ 0 := by
    intro t ht hz
    have h1 := (alone_invariants hb hJ h ht).1
    dsimp only at h1
    rw [(principal_split hJ hp (st t).attrs.bodyAngVel).2.1, (principal_split hJ hp (st 0).attrs.bodyAngVel).2.1,
      hz] at h1
    have h2 := hp.lower _ (across_dot hp.unit (st 0).attrs.bodyAngVel)
    have h3 := mul_nonneg hm.le (sq_nonneg (npNorm (Spec.across e (st 0).attrs.bodyAngVel)))
    have h4 : 0 < c * ((st 0).attrs.bodyAngVel ⬝ᵥ e) ^ 2 := mul_pos hc (pow_pos h0 2)
    by_cases hu : npNorm (Spec.across e (st t).attrs.bodyAngVel) = 0
    · rw [(principal_zero (J := sat.totalMoment) hu).1] at h1
      linarith
    · have h5 := hs t ht hu
      have h6 := hp.upper _ (across_dot hp.unit (st t).attrs.bodyAngVel)
      linarith
  intro t ht
  by_contra hneg
  push Not at hneg
  have hcont : ContinuousOn (fun τ => (st τ).attrs.bodyAngVel ⬝ᵥ e) (Set.Icc 0 t) := by
    intro τ hτ
    obtain ⟨w', h1, -⟩ := alone_euler hb h hτ.1
    exact (hasDerivAt_dot3 h1 (hasDerivAt_const τ e)).continuousAt.continuousWithinAt
  obtain ⟨τ, hτ, hz⟩ := intermediate_value_Icc' ht hcont ⟨hneg, h0.le⟩
  exact hne τ hτ.1 hz

/-- About the axis of the smallest moment of inertia a spin is stable: the rate across the axis stays within a fixed
multiple of what it was, for ever, and the sense of the spin does not change if it was small enough. -/
theorem C178_smallest {sat : Satellite} {mass : ℝ} {dims : V3} {ab cd : ℝ} (hb : Built sat mass dims ab cd)
    (hJ : sat.totalMoment.IsSymm) {e : V3} {c m M : ℝ} (hc : 0 < c) (hcm : c < m)
    (hp : Spec.Principal sat.totalMoment e c m M) {st : ℝ → SatState sat.rw.n} (h : Spec.Alone sat st) :
    let w := fun τ => (st τ).attrs.bodyAngVel
    let u := fun τ => npNorm (Spec.across e (w τ))
    (∀ t, 0 ≤ t → m * (m - c) * u t ^ 2 ≤ M * (M - c) * u 0 ^ 2) ∧
    (0 < w 0 ⬝ᵥ e → M ^ 2 * (M - c) * u 0 ^ 2 < c * (m * (m - c)) * (w 0 ⬝ᵥ e) ^ 2 →
      ∀ t, 0 ≤ t → 0 < w t ⬝ᵥ e) := by
  intro w u
  have hm : 0 < m := hc.trans hcm
  have key : ∀ t, 0 ≤ t → m * (m - c) * u t ^ 2 ≤ M * (M - c) * u 0 ^ 2 := by
    intro t ht
    obtain ⟨i1, i2⟩ := alone_invariants hb hJ h ht
    obtain ⟨-, a1, a2⟩ := principal_split hJ hp (w t)
    obtain ⟨-, b1, b2⟩ := principal_split hJ hp (w 0)
    obtain ⟨c1, -⟩ := principal_sq hJ hm hp (across_dot hp.unit (w t))
    obtain ⟨-, c2⟩ := principal_sq hJ hm hp (across_dot hp.unit (w 0))
    have d1 := hp.lower _ (across_dot hp.unit (w t))
    have d2 := hp.upper _ (across_dot hp.unit (w 0))
    change w t ⬝ᵥ _ = w 0 ⬝ᵥ _ at i1
    rw [a1, b1] at i1
    change (sat.totalMoment *ᵥ w t) ⬝ᵥ _ = (sat.totalMoment *ᵥ w 0) ⬝ᵥ _ at i2
    rw [a2, b2] at i2
    change m * u t ^ 2 ≤ _ at d1
    change _ ≤ M * u 0 ^ 2 at d2
    have k1 := mul_le_mul_of_nonneg_left d1 (sub_nonneg.2 hcm.le)
    by_cases hu : u 0 = 0
    · obtain ⟨z1, z2⟩ := principal_zero (J := sat.totalMoment) hu
      change Spec.across e (w 0) ⬝ᵥ _ = 0 at z1
      change (sat.totalMoment *ᵥ Spec.across e (w 0)) ⬝ᵥ _ = 0 at z2
      rw [z1] at i1; rw [z2] at i2
      rw [hu]
      linear_combination k1 + c1 + i2 - c * i1
    · have hM := principal_le hp hu
      have k2 := mul_le_mul_of_nonneg_left d2 (sub_nonneg.2 (hcm.le.trans hM))
      linear_combination k1 + c1 + i2 - c * i1 + c2 + k2
  refine ⟨key, fun h0 hs => sense_kept hb hJ hm hc hp h h0 fun t ht hu => ?_⟩
  have hM := principal_le hp hu
  have k1 := mul_le_mul_of_nonneg_left (key t ht) (hm.le.trans hM)
  have k2 : 0 < m * (m - c) := mul_pos hm (sub_pos.2 hcm)
  change M * u t ^ 2 < c * (w 0 ⬝ᵥ e) ^ 2
  refine lt_of_mul_lt_mul_left ?_ k2.le
  linear_combination k1 + hs

/-- Likewise about the axis of the largest moment. -/
theorem C178_largest {sat : Satellite} {mass : ℝ} {dims : V3} {ab cd : ℝ} (hb : Built sat mass dims ab cd)
    (hJ : sat.totalMoment.IsSymm) {e : V3} {c m M : ℝ} (hm : 0 < m) (hc : 0 < c) (hcM : M < c)
    (hp : Spec.Principal sat.totalMoment e c m M) {st : ℝ → SatState sat.rw.n} (h : Spec.Alone sat st) :
    let w := fun τ => (st τ).attrs.bodyAngVel
    let u := fun τ => npNorm (Spec.across e (w τ))
    (∀ t, 0 ≤ t → m * (c - M) * u t ^ 2 ≤ M * (c - m) * u 0 ^ 2) ∧
    (0 < w 0 ⬝ᵥ e → M ^ 2 * (c - m) * u 0 ^ 2 < c * (m * (c - M)) * (w 0 ⬝ᵥ e) ^ 2 →
      ∀ t, 0 ≤ t → 0 < w t ⬝ᵥ e) := by
  intro w u
  have key : ∀ t, 0 ≤ t → m * (c - M) * u t ^ 2 ≤ M * (c - m) * u 0 ^ 2 := by
    intro t ht
    obtain ⟨i1, i2⟩ := alone_invariants hb hJ h ht
    obtain ⟨-, a1, a2⟩ := principal_split hJ hp (w t)
    obtain ⟨-, b1, b2⟩ := principal_split hJ hp (w 0)
    obtain ⟨-, c1⟩ := principal_sq hJ hm hp (across_dot hp.unit (w t))
    obtain ⟨c2, -⟩ := principal_sq hJ hm hp (across_dot hp.unit (w 0))
    have d1 := hp.lower _ (across_dot hp.unit (w t))
    have d2 := hp.upper _ (across_dot hp.unit (w 0))
    change w t ⬝ᵥ _ = w 0 ⬝ᵥ _ at i1
    rw [a1, b1] at i1
    change (sat.totalMoment *ᵥ w t) ⬝ᵥ _ = (sat.totalMoment *ᵥ w 0) ⬝ᵥ _ at i2
    rw [a2, b2] at i2
    change m * u t ^ 2 ≤ _ at d1
    change _ ≤ M * u 0 ^ 2 at d2
    have k1 := mul_le_mul_of_nonneg_left d1 (sub_nonneg.2 hcM.le)
    by_cases hu : u 0 = 0
    · obtain ⟨z1, z2⟩ := principal_zero (J := sat.totalMoment) hu
      change Spec.across e (w 0) ⬝ᵥ _ = 0 at z1
      change (sat.totalMoment *ᵥ Spec.across e (w 0)) ⬝ᵥ _ = 0 at z2
      rw [z1] at i1; rw [z2] at i2
      rw [hu]
      linear_combination k1 + c1 - i2 + c * i1
    · have hM := principal_le hp hu
      have k2 := mul_le_mul_of_nonneg_left d2 (sub_nonneg.2 (hM.trans hcM.le))
      linear_combination k1 + c1 - i2 + c * i1 + c2 + k2
  refine ⟨key, fun h0 hs => sense_kept hb hJ hm hc hp h h0 fun t ht hu => ?_⟩
  have hM := principal_le hp hu
  have k1 := mul_le_mul_of_nonneg_left (key t ht) (hm.le.trans hM)
  have k2 : 0 < m * (c - M) := mul_pos hm (sub_pos.2 hcM)
  change M * u t ^ 2 < c * (w 0 ⬝ᵥ e) ^ 2
  refine lt_of_mul_lt_mul_left ?_ k2.le
  linear_combination k1 + hs

/-- Any solution of Euler's equation is a motion. -/
theorem alone_of_euler {sat : Satellite} {mass : ℝ} {dims : V3} {ab cd : ℝ} (hb : Built sat mass dims ab cd)
    (hm : mass ≠ 0) (s0 : SatState sat.rw.n) (hw : s0.attrs.wheelVel = 0) (w w' : ℝ → V3)
    (hd : ∀ t, HasDerivAt w (w' t) t)
    (he : ∀ t, sat.totalMoment *ᵥ w' t = -(w t ⨯₃ (sat.totalMoment *ᵥ w t))) :
    Spec.Alone sat fun t => { s0 with attrs := { s0.attrs with bodyAngVel := w t } } := by
  intro t _
  refine ⟨hw, 0, _, by simp only [derivative, npVDiv, hb.mass_eq.1, if_neg hm]; rfl, ?_⟩
  simp only
  refine (hd t).congr_deriv ?_
  rw [hw, torque_eq_momentum, momentum_zero, npCross_eq_crossProduct]
  have h1 : sat.invTotMoment *ᵥ (sat.totalMoment *ᵥ w' t) = w' t := by
    rw [Matrix.mulVec_mulVec, mul_eq_one_comm.1 hb.inverse, Matrix.one_mulVec]
  rw [← h1, he t]
  simp

/-- The motion that leads from one sense of the spin about the middle axis to the other. -/
noncomputable def turnover (a b k Ω : ℝ) (t : ℝ) : V3 :=
  ![a * (Real.cosh (k * t))⁻¹, -(Ω * (Real.sinh (k * t) * (Real.cosh (k * t))⁻¹)), b * (Real.cosh (k * t))⁻¹]

theorem turnover_deriv (a b k Ω t : ℝ) : HasDerivAt (turnover a b k Ω)
    ![-(a * k * (Real.sinh (k * t) * (Real.cosh (k * t))⁻¹) * (Real.cosh (k * t))⁻¹),
      -(Ω * k * (Real.cosh (k * t))⁻¹ ^ 2),
      -(b * k * (Real.sinh (k * t) * (Real.cosh (k * t))⁻¹) * (Real.cosh (k * t))⁻¹)] t := by
  have hc := (Real.cosh_pos (k * t)).ne'
  have hin : HasDerivAt (fun x : ℝ => k * x) k t := by simpa using (hasDerivAt_id t).const_mul k
  have h1 : HasDerivAt (fun x => (Real.cosh (k * x))⁻¹) (-(Real.sinh (k * t) * k) / Real.cosh (k * t) ^ 2) t :=
    (hin.cosh).fun_inv hc
  have h2 : HasDerivAt (fun x => Real.sinh (k * x)) (Real.cosh (k * t) * k) t := hin.sinh
  have h3 := Real.cosh_sq (k * t)
  rw [hasDerivAt_pi]
  intro i
  fin_cases i
  · refine (h1.const_mul a).congr_deriv ?_
    simp; field_simp
  · refine ((h2.fun_mul h1).const_mul Ω).fun_neg.congr_deriv ?_
    simp; field_simp
    linear_combination (Ω * k) * h3
  · refine (h1.const_mul b).congr_deriv ?_
    simp; field_simp

theorem cosh_inv_le {x : ℝ} (hx : 0 ≤ x) : (Real.cosh x)⁻¹ ≤ 2 / (1 + x) := by
  have h1 := Real.add_one_le_exp x
  have h2 := Real.exp_pos (-x)
  rw [inv_le_comm₀ (Real.cosh_pos x) (by positivity), inv_div, Real.cosh_eq]
  linarith

/-- Far from the middle of the motion it is close to a spin about the middle axis. -/
theorem turnover_far (a b k Ω x : ℝ) (hx : 0 ≤ k * x) (hΩ : 0 ≤ Ω) :
    npNorm (turnover a b k Ω (-x) - ![0, Ω, 0]) ≤ (|a| + |b| + Ω) * (Real.cosh (k * x))⁻¹ ∧
    npNorm (turnover a b k Ω x - ![0, -Ω, 0]) ≤ (|a| + |b| + Ω) * (Real.cosh (k * x))⁻¹ := by
  have hc := Real.cosh_pos (k * x)
  have hS0 : 0 ≤ (Real.cosh (k * x))⁻¹ := (inv_pos.2 hc).le
  have hS1 : (Real.cosh (k * x))⁻¹ ≤ 1 := inv_le_one_of_one_le₀ (Real.one_le_cosh _)
  have hsh : 0 ≤ Real.sinh (k * x) := Real.sinh_nonneg_iff.2 hx
  have hT0 : 0 ≤ Real.sinh (k * x) * (Real.cosh (k * x))⁻¹ := mul_nonneg hsh hS0
  have hT : (Real.sinh (k * x) * (Real.cosh (k * x))⁻¹) ^ 2 = 1 - (Real.cosh (k * x))⁻¹ ^ 2 := by
    have := Real.cosh_sq (k * x)
    field_simp
    linarith
  unfold turnover
  rw [mul_neg, Real.cosh_neg, Real.sinh_neg]
  generalize (Real.cosh (k * x))⁻¹ = S at *
  generalize Real.sinh (k * x) = sh at *
  have hT1 : sh * S ≤ 1 := by nlinarith
  have hd : 1 - sh * S ≤ S := by nlinarith
  have hd0 : 0 ≤ 1 - sh * S := by linarith
  have key : ∀ y : ℝ, |y| = Ω * (1 - sh * S) → npNorm ![a * S, y, b * S] ≤ (|a| + |b| + Ω) * S := by
    intro y hy
    refine (pow_le_pow_iff_left₀ (npNorm_nonneg _) (by positivity) two_ne_zero).1 ?_
    rw [npNorm3_sq]
    simp only [Matrix.cons_val_zero, Matrix.cons_val_one, cons3_2]
    have h1 : y ^ 2 ≤ (Ω * S) ^ 2 := by
      rw [← sq_abs y, hy]
      exact pow_le_pow_left₀ (mul_nonneg hΩ hd0) (mul_le_mul_of_nonneg_left hd hΩ) 2
    have h2 : (a * S) ^ 2 = |a| ^ 2 * S ^ 2 := by rw [sq_abs]; ring
    have h3 : (b * S) ^ 2 = |b| ^ 2 * S ^ 2 := by rw [sq_abs]; ring
    rw [h2, h3]
    have h4 : 0 ≤ (|a| * |b| + |a| * Ω + |b| * Ω) * S ^ 2 := by positivity
    nlinarith
  constructor
  · have e : (![a * S, -(Ω * (-sh * S)), b * S] : V3) - ![0, Ω, 0] = ![a * S, Ω * (sh * S) - Ω, b * S] := by
      apply vec3_ext <;> simp
    rw [e]
    apply key
    rw [abs_of_nonpos (by nlinarith)]; ring
  · have e : (![a * S, -(Ω * (sh * S)), b * S] : V3) - ![0, -Ω, 0] = ![a * S, Ω - Ω * (sh * S), b * S] := by
      apply vec3_ext <;> simp <;> ring
    rw [e]
    apply key
    rw [abs_of_nonneg (by nlinarith)]; ring

/-- A spin about the middle axis, however pure, need not stay: from any neighbourhood of it there are motions that turn
the satellite over, to the opposite spin. -/
theorem C178_middle {sat : Satellite} {mass : ℝ} {dims : V3} {ab cd : ℝ} (hb : Built sat mass dims ab cd)
    (hm : mass ≠ 0) {A B C : ℝ} (hA : 0 < A) (hB : 0 < B) (hC : 0 < C) (hmid : 0 < (A - B) * (B - C))
    (hJ : sat.totalMoment = Matrix.diagonal ![A, B, C]) (s0 : SatState sat.rw.n) (hw : s0.attrs.wheelVel = 0)
    {Ω ε : ℝ} (hΩ : 0 < Ω) (hε : 0 < ε) :
    ∃ (st : ℝ → SatState sat.rw.n) (T : ℝ), Spec.Alone sat st ∧ 0 < T ∧
      npNorm ((st 0).attrs.bodyAngVel - ![0, Ω, 0]) ≤ ε ∧ npNorm ((st T).attrs.bodyAngVel - ![0, -Ω, 0]) ≤ ε := by
  obtain ⟨p, hp0, hp⟩ : ∃ p : ℝ, 0 < p ∧ A * C * p ^ 2 = (A - B) * (B - C) :=
    ⟨Real.sqrt ((A - B) * (B - C) / (A * C)), Real.sqrt_pos.2 (by positivity), by
      rw [Real.sq_sqrt (by positivity)]; field_simp⟩
  have hBC : B - C ≠ 0 := by rintro h; rw [h, mul_zero] at hmid; exact lt_irrefl _ hmid
  have hAC : 0 < (B - C) * (A - C) := by nlinarith [sq_nonneg (B - C)]
  have hAC' : A - C ≠ 0 := by rintro h; rw [h, mul_zero] at hAC; exact lt_irrefl _ hAC
  obtain ⟨a, ha⟩ : ∃ a : ℝ, A * (A - C) * a ^ 2 = B * (B - C) * Ω ^ 2 := by
    refine ⟨Real.sqrt (B * ((B - C) * (A - C)) * Ω ^ 2 / (A * (A - C) ^ 2)), ?_⟩
    rw [Real.sq_sqrt (by positivity)]; field_simp
  set b := A * a * p / (B - C) with hbdef
  have hb1 : (B - C) * b = A * a * p := by rw [hbdef]; field_simp
  set k := Ω * p with hk
  have hk0 : 0 < k := mul_pos hΩ hp0
  -- the distance in time
  set Λ := |a| + |b| + Ω with hΛ
  have hΛ0 : 0 < Λ := by positivity
  set τ := 2 * Λ / (ε * k) with hτ
  have hτ0 : 0 < τ := by positivity
  have hfar := turnover_far a b k Ω τ (by positivity) hΩ.le
  have hsmall : Λ * (Real.cosh (k * τ))⁻¹ ≤ ε := by
    have h1 := cosh_inv_le (x := k * τ) (by positivity)
    calc Λ * (Real.cosh (k * τ))⁻¹ ≤ Λ * (2 / (1 + k * τ)) := mul_le_mul_of_nonneg_left h1 hΛ0.le
      _ ≤ ε := by
        rw [mul_div_assoc', div_le_iff₀ (by positivity)]
        have : ε * (k * τ) = 2 * Λ := by rw [hτ]; field_simp
        nlinarith
  refine ⟨_, 2 * τ, alone_of_euler hb hm s0 hw (fun t => turnover a b k Ω (t - τ)) _
    (fun t => (turnover_deriv a b k Ω (t - τ)).comp_sub_const t τ) ?_, by positivity, ?_, ?_⟩
  · intro t
    rw [hJ]
    unfold turnover
    generalize (Real.cosh (k * (t - τ)))⁻¹ = S
    generalize Real.sinh (k * (t - τ)) = sh
    have e1 : C * b * k = (A - B) * Ω * a := by
      apply mul_left_cancel₀ hBC
      rw [hk]
      linear_combination (C * Ω * p) * hb1 + (a * Ω) * hp
    have e2 : B * Ω * k = (A - C) * (a * b) := by
      apply mul_left_cancel₀ hBC
      rw [hk]
      linear_combination -(A - C) * a * hb1 - p * ha
    have e0 : A * a * k = (B - C) * Ω * b := by rw [hk]; linear_combination -Ω * hb1
    rw [cross_apply]
    apply vec3_ext <;> simp only [Matrix.mulVec_diagonal, Pi.neg_apply, Matrix.cons_val_zero, Matrix.cons_val_one, cons3_2]
    · linear_combination -(sh * S * S) * e0
    · linear_combination -(S ^ 2) * e2
    · linear_combination -(sh * S * S) * e1
  · simp only [zero_sub]
    exact hfar.1.trans hsmall
  · simp only [show 2 * τ - τ = τ by ring]
    exact hfar.2.trans hsmall

theorem principal_diagonal {d : V3} {i : Fin 3} {m M : ℝ} (h : ∀ j, j ≠ i → m ≤ d j ∧ d j ≤ M) :
    Spec.Principal (Matrix.diagonal d) (Pi.single i 1) (d i) m M := by
  have hq : ∀ v : V3, v ⬝ᵥ (Matrix.diagonal d *ᵥ v) = d 0 * v 0 ^ 2 + d 1 * v 1 ^ 2 + d 2 * v 2 ^ 2 := by
    intro v
    simp only [Matrix.vec3_dotProduct, Matrix.mulVec_diagonal]; ring
  have hz : ∀ v : V3, v ⬝ᵥ (Pi.single i 1 : V3) = v i := by intro v; simp
  refine ⟨?_, ?_, ?_, ?_⟩
  · rw [npNorm_eq_one]; fin_cases i <;> simp [Fin.sum_univ_three]
  · funext j
    by_cases hj : j = i
    · subst hj; simp [Matrix.mulVec_diagonal]
    · simp [Matrix.mulVec_diagonal, Pi.single_apply, hj]
  all_goals
    intro v hv
    rw [hz] at hv
    rw [hq, npNorm3_sq]
    have h0 := h 0; have h1 := h 1; have h2 := h 2
    fin_cases i <;> simp at h0 h1 h2 hv <;> rw [hv] <;>
      nlinarith [sq_nonneg (v 0), sq_nonneg (v 1), sq_nonneg (v 2)]

/-- A satellite for which all this holds: its z axis is the one of the smallest moment, its x axis the one of the
largest, and y is between. It can spin at the rate of the barbecue roll. -/
example : ∃ (sat : Satellite) (s0 : SatState sat.rw.n), Built sat 2 ![0.1, 0.1, 0.2] 0.8 2.2 ∧
    sat.totalMoment.IsSymm ∧ Spec.Principal sat.totalMoment ![0, 0, 1] 0.006214 0.012414 0.012514 ∧
    Spec.Principal sat.totalMoment ![1, 0, 0] 0.012514 0.006214 0.012414 ∧
    sat.totalMoment = Matrix.diagonal ![0.012514, 0.012414, 0.006214] ∧ s0.attrs.wheelVel = 0 ∧
    Spec.Alone sat (fun t => { s0 with attrs := { s0.attrs with bodyAngVel := ![0, 0, 0.02932] } }) ∧
    ∀ st, Spec.Alone sat st → ∀ t, 0 ≤ t →
      npNorm (Spec.across ![0, 0, 1] (st t).attrs.bodyAngVel) ≤
        1.02 * npNorm (Spec.across ![0, 0, 1] (st 0).attrs.bodyAngVel) := by
  obtain ⟨sat, hb, -, -, hI, -⟩ := exSat3 true []
  obtain ⟨s1, -, -⟩ := exState sat.rw.n
  have hsym : sat.totalMoment.IsSymm := by rw [hI]; exact Matrix.isSymm_diagonal _
  have hz : Spec.Principal sat.totalMoment ![0, 0, 1] 0.006214 0.012414 0.012514 := by
    have := principal_diagonal (d := ![0.012514, 0.012414, 0.006214]) (i := 2) (m := 0.012414) (M := 0.012514)
      (by intro j hj; fin_cases j <;> first | exact absurd rfl hj | norm_num)
    rw [hI]
    rwa [show (Pi.single (2 : Fin 3) 1 : V3) = ![0, 0, 1] by apply vec3_ext <;> simp] at this
  have hx : Spec.Principal sat.totalMoment ![1, 0, 0] 0.012514 0.006214 0.012414 := by
    have := principal_diagonal (d := ![0.012514, 0.012414, 0.006214]) (i := 0) (m := 0.006214) (M := 0.012414)
      (by intro j hj; fin_cases j <;> first | exact absurd rfl hj | norm_num)
    rw [hI]
    rwa [show (Pi.single (0 : Fin 3) 1 : V3) = ![1, 0, 0] by apply vec3_ext <;> simp] at this
  refine ⟨sat, { s1 with attrs := { s1.attrs with wheelVel := 0 } }, hb, hsym, hz, hx, hI, rfl, ?_, ?_⟩
  · refine alone_of_euler hb (by norm_num) _ rfl (fun _ => ![0, 0, 0.02932]) (fun _ => 0)
      (fun t => hasDerivAt_const t _) ?_
    intro t
    rw [hI, cross_apply]
    apply vec3_ext <;> simp [Matrix.mulVec_diagonal]
  · intro st hst t ht
    have h1 := (C178_smallest hb hsym (by norm_num) (by norm_num) hz hst).1 t ht
    refine (pow_le_pow_iff_left₀ (npNorm_nonneg _) (mul_nonneg (by norm_num) (npNorm_nonneg _)) two_ne_zero).1 ?_
    have h2 := sq_nonneg (npNorm (Spec.across ![0, 0, 1] (st 0).attrs.bodyAngVel))
    rw [mul_pow]
    norm_num at h1 ⊢
    nlinarith

end Adcs
