import Verif.Props.Everywhere

set_option autoImplicit false

/-! # Motions of a symmetric body on which a magnetic torque never acts

Lemmas for C200: solutions depend continuously on where they start; and when the error of the barbecue roll stays along
a field that turns steadily, the body is in the wanted spin or at rest upside down, apart from two resonances. -/

namespace Adcs

open Vec Quat Set Filter Topology
open scoped Matrix

/-- Solutions that start ever closer to another one, and all stay in a ball, approach it at every later time. -/
theorem flow_continuous {E : Type} [NormedAddCommGroup E] [NormedSpace ℝ E] [FiniteDimensional ℝ E] {F : E → E}
    (hF : ContDiff ℝ 1 F) {y : ℕ → ℝ → E} {z : ℝ → E} (hy : ∀ k t, 0 ≤ t → HasDerivAt (y k) (F (y k t)) t)
    (hz : ∀ t, 0 ≤ t → HasDerivAt z (F (z t)) t) {S R : ℝ} (hS : 0 ≤ S) (hR : ∀ k, ∀ t ∈ Icc 0 S, ‖y k t‖ ≤ R)
    (h0 : Tendsto (fun k => y k 0) atTop (𝓝 (z 0))) : Tendsto (fun k => y k S) atTop (𝓝 (z S)) := by
  have zc : ContinuousOn z (Icc 0 S) := fun t ht => (hz t ht.1).continuousAt.continuousWithinAt
  obtain ⟨M, hM⟩ := isCompact_Icc.exists_bound_of_continuousOn zc
  set Q := max R M
  obtain ⟨K, hK⟩ := hF.contDiffOn (s := Metric.closedBall (0 : E) Q) |>.exists_lipschitzOnWith one_ne_zero
    (convex_closedBall _ _) (isCompact_closedBall _ _)
  have hd : ∀ k, dist (y k S) (z S) ≤ dist (y k 0) (z 0) * Real.exp (K * (S - 0)) := by
    intro k
    refine dist_le_of_trajectories_ODE_of_mem (v := fun _ => F) (s := fun _ => Metric.closedBall (0 : E) Q)
      (fun _ _ => hK) (fun t ht => (hy k t ht.1).continuousAt.continuousWithinAt)
      (fun t ht => (hy k t ht.1).hasDerivWithinAt) ?_ zc (fun t ht => (hz t ht.1).hasDerivWithinAt) ?_ le_rfl S
      (right_mem_Icc.2 hS)
    · intro t ht
      rw [mem_closedBall_zero_iff]
      exact (hR k t ⟨ht.1, ht.2.le⟩).trans (le_max_left _ _)
    · intro t ht
      rw [mem_closedBall_zero_iff]
      exact (hM t ⟨ht.1, ht.2.le⟩).trans (le_max_right _ _)
  rw [tendsto_iff_dist_tendsto_zero] at h0 ⊢
  refine squeeze_zero (fun _ => dist_nonneg) hd ?_
  simpa using h0.mul_const (Real.exp (K * (S - 0)))

/-- Inertial coordinates of a vector given in a body that turns. -/
theorem hasDerivAt_outside {q : ℝ → V4} {w : V3} {X : ℝ → V3} {X' : V3} {t : ℝ}
    (hq : HasDerivAt q ((0.5 : ℝ) • product (q t) ![0, w 0, w 1, w 2]) t) (hX : HasDerivAt X X' t) :
    HasDerivAt (fun τ => sandwichOpp (q τ) (X τ)) (sandwichOpp (q t) (X' + w ⨯₃ X t)) t := by
  refine (hasDerivAt_sandwich2 (hasDerivAt_conjugate hq) hX).congr_deriv ?_
  unfold sandwichOpp
  rw [← npCross_eq_crossProduct]
  generalize q t = q
  generalize X t = X
  apply vec3_ext <;>
    simp only [vecPart_0, vecPart_1, vecPart_2, Pi.add_apply, Pi.smul_apply, smul_eq_mul, product_0,
      product_1, product_2, product_3, conjugate_0, conjugate_1, conjugate_2, conjugate_3, npCross_0, npCross_1,
      npCross_2, sandwich_0, sandwich_1, sandwich_2, Matrix.cons_val_zero, Matrix.cons_val_one, cons4_2, cons4_3] <;>
    ring

theorem opp_cross {q : V4} (hq : npNorm q = 1) (x y : V3) :
    sandwichOpp q (x ⨯₃ y) = sandwichOpp q x ⨯₃ sandwichOpp q y := by
  have h1 := (C07_sandwich_opp q hq x).2
  have h2 := (C07_sandwich_opp q hq y).2
  have h3 := (C06_sandwich_preserves q hq (sandwichOpp q x) (sandwichOpp q y)).2.2
  rw [h1, h2] at h3
  rw [← h3, (C07_sandwich_opp q hq _).1]

theorem zero_of_zero {f f' : ℝ → ℝ} (h : ∀ t, 0 < t → HasDerivAt f (f' t) t) (h0 : ∀ t, 0 < t → f t = 0) {t : ℝ}
    (ht : 0 < t) : f' t = 0 := by
  have h1 : HasDerivAt f 0 t := by
    refine (hasDerivAt_const t (0 : ℝ)).congr_of_eventuallyEq ?_
    filter_upwards [lt_mem_nhds ht] with s hs
    exact h0 s hs
  exact (h t ht).unique h1

theorem hasDerivAt_crossConst {Z : ℝ → V3} {Z' : V3} {t : ℝ} (Ω : V3) (h : HasDerivAt Z Z' t) :
    HasDerivAt (fun τ => Ω ⨯₃ Z τ) (Ω ⨯₃ Z') t := by
  have hc := hasDerivAt_pi.1 h
  have e : (fun τ => Ω ⨯₃ Z τ) = fun τ => ![Ω 1 * Z τ 2 - Ω 2 * Z τ 1, Ω 2 * Z τ 0 - Ω 0 * Z τ 2,
      Ω 0 * Z τ 1 - Ω 1 * Z τ 0] := by
    funext τ; rw [cross_apply]
  rw [e, cross_apply, hasDerivAt_pi]
  intro i
  fin_cases i
  · exact ((hc 2).const_mul _).sub ((hc 1).const_mul _)
  · exact ((hc 0).const_mul _).sub ((hc 2).const_mul _)
  · exact ((hc 1).const_mul _).sub ((hc 0).const_mul _)

/-- The direction of an axis of a body that cones, when the sum of the errors stays along the field. -/
theorem no_hidden {a n d : ℝ} (ha : 0 < a) (hn : 0 < n) (hd : 0 < d) {e₁ e₂ p Ω : V3} (he : Spec.Plane e₁ e₂)
    (hp : npNorm p = 1) {Z : ℝ → V3} (hZ : ∀ t, 0 < t → npNorm (Z t) = 1)
    (hZ' : ∀ t, 0 < t → HasDerivAt Z (Ω ⨯₃ Z t) t)
    (hE : ∀ t, 0 < t → ((2 * a) • Ω - d • p - d • Z t) ⨯₃ Spec.turning n e₁ e₂ t = 0)
    (h1 : p ⨯₃ (e₁ ⨯₃ e₂) ≠ 0) (h2 : d * (p ⬝ᵥ (e₁ ⨯₃ e₂)) ≠ 2 * a * n) :
    ∀ t, 0 < t → (Z t = p ∧ a • Ω = d • p) ∨ (Z t = -p ∧ Ω = 0) := by
  set N := e₁ ⨯₃ e₂ with hN
  set b : ℝ → V3 := Spec.turning n e₁ e₂ with hb
  set b2 : ℝ → V3 := fun τ => -Real.sin (n * τ) • e₁ + Real.cos (n * τ) • e₂ with hb2
  set E : ℝ → V3 := fun t => (2 * a) • Ω - d • p - d • Z t with hEdef
  have fr : ∀ t, Spec.Plane (b t) (b2 t) := turning_frame he n
  have nor : ∀ t, b t ⨯₃ b2 t = N := fun t => turning_normal n t
  have db : ∀ t, HasDerivAt b (n • b2 t) t := fun t => (hasDerivAt_turning n e₁ e₂ t).1
  have db2 : ∀ t, HasDerivAt b2 (-n • b t) t := fun t => (hasDerivAt_turning n e₁ e₂ t).2
  have sq : ∀ (s : V3) t, (s ⬝ᵥ b t) ^ 2 + (s ⬝ᵥ b2 t) ^ 2 + (s ⬝ᵥ N) ^ 2 = s ⬝ᵥ s := by
    intro s t
    rw [← nor t]
    exact plane_sq' (fr t) s
  have cv : ∀ x y z : V3, x ⬝ᵥ (y ⨯₃ z) = (x ⨯₃ y) ⬝ᵥ z := by
    intro x y z
    simp only [cross_apply, Matrix.vec3_dotProduct, Matrix.cons_val_zero, Matrix.cons_val_one, cons3_2]
    ring
  have EN : ∀ t, 0 < t → E t ⬝ᵥ N = 0 := by
    intro t ht
    rw [← nor t, cv, hE t ht, zero_dotProduct]
  have Eb2 : ∀ t, 0 < t → E t ⬝ᵥ b2 t = 0 := by
    intro t ht
    have hx : (E t ⨯₃ b t) ⬝ᵥ (b t ⨯₃ b2 t) = (E t ⬝ᵥ b t) * (b t ⬝ᵥ b2 t) - (E t ⬝ᵥ b2 t) * (b t ⬝ᵥ b t) := by
      generalize E t = E
      generalize b t = b
      generalize b2 t = b2
      simp only [cross_apply, Matrix.vec3_dotProduct, Matrix.cons_val_zero, Matrix.cons_val_one, cons3_2]
      ring
    rw [hE t ht, zero_dotProduct, (fr t).2.2, unit3_dot (fr t).1] at hx
    linarith
  have NN : N ⬝ᵥ N = 1 := by
    have e : N ⬝ᵥ N = (e₁ ⬝ᵥ e₁) * (e₂ ⬝ᵥ e₂) - (e₁ ⬝ᵥ e₂) ^ 2 := by
      rw [hN]
      simp only [cross_apply, Matrix.vec3_dotProduct, Matrix.cons_val_zero, Matrix.cons_val_one, cons3_2]
      ring
    rw [e, unit3_dot he.1, unit3_dot he.2.1, he.2.2]
    norm_num
  have dE : ∀ t, 0 < t → HasDerivAt E (-(d • (Ω ⨯₃ Z t))) t := by
    intro t ht
    refine (((hZ' t ht).fun_const_smul d).const_sub ((2 * a) • Ω - d • p)).congr_deriv rfl
  have dN : ∀ {X : ℝ → V3} {X' : V3} {t : ℝ}, HasDerivAt X X' t → HasDerivAt (fun τ => X τ ⬝ᵥ N) (X' ⬝ᵥ N) t := by
    intro X X' t h
    refine (hasDerivAt_dot3 h (hasDerivAt_const t N)).congr_deriv ?_
    rw [dotProduct_zero]
    ring
  have g1 : ∀ t, 0 < t → (Ω ⨯₃ Z t) ⬝ᵥ N = 0 := by
    intro t ht
    have := zero_of_zero (fun t ht => dN (dE t ht)) EN ht
    rw [neg_dotProduct, smul_dotProduct, smul_eq_mul, neg_eq_zero] at this
    exact (mul_eq_zero.1 this).resolve_left hd.ne'
  have g2 : ∀ t, 0 < t → (Ω ⨯₃ (Ω ⨯₃ Z t)) ⬝ᵥ N = 0 := fun t ht =>
    zero_of_zero (fun t ht => dN (hasDerivAt_crossConst Ω (hZ' t ht))) g1 ht
  by_cases hc : ∃ t, 0 < t ∧ Ω ⨯₃ Z t ≠ 0
  · exfalso
    obtain ⟨t, ht, hne⟩ := hc
    have par : N ⨯₃ Ω = 0 := by
      have k1 := g1 t ht
      have k2 := g2 t ht
      have uΩ : (Ω ⨯₃ Z t) ⬝ᵥ Ω = 0 := by rw [dotProduct_comm, dot_self_cross]
      generalize Ω ⨯₃ Z t = u at *
      have e : (u ⬝ᵥ u) • (N ⨯₃ Ω) = ((Ω ⨯₃ u) ⬝ᵥ N) • u - (u ⬝ᵥ N) • (Ω ⨯₃ u) + (u ⬝ᵥ Ω) • (N ⨯₃ u) := by
        apply vec3_ext <;>
          simp only [cross_apply, Matrix.vec3_dotProduct, Matrix.cons_val_zero, Matrix.cons_val_one, cons3_2,
            Pi.smul_apply, Pi.sub_apply, Pi.add_apply, smul_eq_mul] <;> ring
      rw [k1, k2, uΩ, zero_smul, zero_smul, zero_smul, sub_zero, add_zero] at e
      exact (smul_eq_zero.1 e).resolve_left fun h => hne (dotProduct_self_eq_zero.1 h)
    set ω := Ω ⬝ᵥ N with hω
    have hΩ : Ω = ω • N := by
      have e : N ⨯₃ (N ⨯₃ Ω) = (N ⬝ᵥ Ω) • N - (N ⬝ᵥ N) • Ω := by
        apply vec3_ext <;>
          simp only [cross_apply, Matrix.vec3_dotProduct, Matrix.cons_val_zero, Matrix.cons_val_one, cons3_2,
            Pi.smul_apply, Pi.sub_apply, smul_eq_mul] <;> ring
      rw [par, map_zero, NN, one_smul, dotProduct_comm, ← hω] at e
      exact (sub_eq_zero.1 e.symm).symm
    have hω0 : ω ≠ 0 := by
      intro h
      rw [hΩ, h, zero_smul, map_zero] at hne
      exact hne rfl
    have Nb : ∀ t, N ⬝ᵥ b t = 0 := fun t => by rw [← nor t, dotProduct_comm, dot_self_cross]
    have Nb2 : ∀ t, N ⬝ᵥ b2 t = 0 := fun t => by rw [← nor t, dotProduct_comm, dot_cross_self]
    have bN : ∀ t, b t ⨯₃ N = -b2 t := by
      intro t
      have e : b t ⨯₃ (b t ⨯₃ b2 t) = (b t ⬝ᵥ b2 t) • b t - (b t ⬝ᵥ b t) • b2 t := by
        generalize b t = b
        generalize b2 t = b2
        apply vec3_ext <;>
          simp only [cross_apply, Matrix.vec3_dotProduct, Matrix.cons_val_zero, Matrix.cons_val_one, cons3_2,
            Pi.smul_apply, Pi.sub_apply, smul_eq_mul] <;> ring
      rw [nor, (fr t).2.2, unit3_dot (fr t).1, zero_smul, one_smul, zero_sub] at e
      exact e
    have b2N : ∀ t, b2 t ⨯₃ N = b t := by
      intro t
      have e : b2 t ⨯₃ (b t ⨯₃ b2 t) = (b2 t ⬝ᵥ b2 t) • b t - (b t ⬝ᵥ b2 t) • b2 t := by
        generalize b t = b
        generalize b2 t = b2
        apply vec3_ext <;>
          simp only [cross_apply, Matrix.vec3_dotProduct, Matrix.cons_val_zero, Matrix.cons_val_one, cons3_2,
            Pi.smul_apply, Pi.sub_apply, smul_eq_mul] <;> ring
      rw [nor, (fr t).2.2, unit3_dot (fr t).2.1, zero_smul, one_smul, sub_zero] at e
      exact e
    have dX1 : ∀ t, HasDerivAt (fun τ => p ⬝ᵥ b τ) (n * (p ⬝ᵥ b2 t)) t := by
      intro t
      refine (hasDerivAt_dot3 (hasDerivAt_const t p) (db t)).congr_deriv ?_
      rw [zero_dotProduct, zero_add, dotProduct_smul, smul_eq_mul]
    have dX2 : ∀ t, HasDerivAt (fun τ => p ⬝ᵥ b2 τ) (-n * (p ⬝ᵥ b t)) t := by
      intro t
      refine (hasDerivAt_dot3 (hasDerivAt_const t p) (db2 t)).congr_deriv ?_
      rw [zero_dotProduct, zero_add, dotProduct_smul, smul_eq_mul]
    have rot : ∀ (x : V3) t, (Ω ⨯₃ Z t) ⬝ᵥ x = ω * (Z t ⬝ᵥ (x ⨯₃ N)) := by
      intro x t
      rw [hΩ, map_smul, LinearMap.smul_apply, smul_dotProduct, smul_eq_mul, dotProduct_comm, cv, dotProduct_comm]
    have dY1 : ∀ t, 0 < t → HasDerivAt (fun τ => Z τ ⬝ᵥ b τ) ((n - ω) * (Z t ⬝ᵥ b2 t)) t := by
      intro t ht
      refine (hasDerivAt_dot3 (hZ' t ht) (db t)).congr_deriv ?_
      rw [rot, bN, dotProduct_neg, dotProduct_smul, smul_eq_mul]
      ring
    have dY2 : ∀ t, 0 < t → HasDerivAt (fun τ => Z τ ⬝ᵥ b2 τ) ((ω - n) * (Z t ⬝ᵥ b t)) t := by
      intro t ht
      refine (hasDerivAt_dot3 (hZ' t ht) (db2 t)).congr_deriv ?_
      rw [rot, b2N, dotProduct_smul, smul_eq_mul]
      ring
    have r0 : ∀ t, 0 < t → p ⬝ᵥ b2 t + Z t ⬝ᵥ b2 t = 0 := by
      intro t ht
      have := Eb2 t ht
      simp only [hEdef, sub_dotProduct, smul_dotProduct, smul_eq_mul] at this
      rw [hΩ, smul_dotProduct, Nb2, smul_zero, mul_zero] at this
      have h : d * (p ⬝ᵥ b2 t + Z t ⬝ᵥ b2 t) = 0 := by linarith
      exact (mul_eq_zero.1 h).resolve_left hd.ne'
    have r1 : ∀ t, 0 < t → -n * (p ⬝ᵥ b t) + (ω - n) * (Z t ⬝ᵥ b t) = 0 := fun t ht =>
      zero_of_zero (fun t ht => (dX2 t).fun_add (dY2 t ht)) r0 ht
    have r2 : ∀ t, 0 < t → -n * (n * (p ⬝ᵥ b2 t)) + (ω - n) * ((n - ω) * (Z t ⬝ᵥ b2 t)) = 0 := fun t ht =>
      zero_of_zero (fun t ht => ((dX1 t).const_mul (-n)).fun_add ((dY1 t ht).const_mul (ω - n))) r1 ht
    have r3 : ∀ t, 0 < t → -n * (n * (-n * (p ⬝ᵥ b t))) + (ω - n) * ((n - ω) * ((ω - n) * (Z t ⬝ᵥ b t))) = 0 :=
      fun t ht => zero_of_zero (fun t ht => (((dX2 t).const_mul n).const_mul (-n)).fun_add
        (((dY2 t ht).const_mul (n - ω)).const_mul (ω - n))) r2 ht
    have q0 := r0 t ht
    have q1 := r1 t ht
    have q2 := r2 t ht
    have q3 := r3 t ht
    have sp := sq p t
    have sZ := sq (Z t) t
    rw [unit3_dot hp] at sp
    rw [unit3_dot (hZ t ht)] at sZ
    have hne2 : ¬ (p ⬝ᵥ b t = 0 ∧ p ⬝ᵥ b2 t = 0) := by
      rintro ⟨z1, z2⟩
      apply h1
      have e : (p ⨯₃ N) ⬝ᵥ (p ⨯₃ N) = (p ⬝ᵥ p) * (N ⬝ᵥ N) - (p ⬝ᵥ N) ^ 2 := by
        simp only [cross_apply, Matrix.vec3_dotProduct, Matrix.cons_val_zero, Matrix.cons_val_one, cons3_2]
        ring
      rw [unit3_dot hp, NN] at e
      rw [z1, z2] at sp
      exact dotProduct_self_eq_zero.1 (by linarith)
    have hm : n ^ 2 = (ω - n) ^ 2 := by
      by_contra hm
      have hm' : n ^ 2 - (ω - n) ^ 2 ≠ 0 := sub_ne_zero.2 hm
      refine hne2 ⟨?_, ?_⟩
      · have : (n ^ 2 - (ω - n) ^ 2) * (n * (p ⬝ᵥ b t)) = 0 := by linear_combination q3 + (ω - n) ^ 2 * q1
        exact (mul_eq_zero.1 ((mul_eq_zero.1 this).resolve_left hm')).resolve_left hn.ne'
      · have : (n ^ 2 - (ω - n) ^ 2) * (p ⬝ᵥ b2 t) = 0 := by linear_combination -q2 - (ω - n) ^ 2 * q0
        exact (mul_eq_zero.1 this).resolve_left hm'
    have hω2 : ω = 2 * n := by
      have : ω * (ω - 2 * n) = 0 := by linear_combination -hm
      linarith [(mul_eq_zero.1 this).resolve_left hω0]
    rw [hω2] at q1
    have q1' : Z t ⬝ᵥ b t = p ⬝ᵥ b t := by
      have : n * (Z t ⬝ᵥ b t - p ⬝ᵥ b t) = 0 := by linear_combination q1
      linarith [(mul_eq_zero.1 this).resolve_left hn.ne']
    have hNN : (Z t ⬝ᵥ N - p ⬝ᵥ N) * (Z t ⬝ᵥ N + p ⬝ᵥ N) = 0 := by
      have hb2' : Z t ⬝ᵥ b2 t = -(p ⬝ᵥ b2 t) := by linarith
      rw [q1', hb2'] at sZ
      linear_combination sZ - sp
    have hEN := EN t ht
    simp only [hEdef, sub_dotProduct, smul_dotProduct, smul_eq_mul] at hEN
    rw [← hω, hω2] at hEN
    rcases mul_eq_zero.1 hNN with h | h
    · apply h2
      have : Z t ⬝ᵥ N = p ⬝ᵥ N := by linarith
      rw [this] at hEN
      linarith
    · have : Z t ⬝ᵥ N = -(p ⬝ᵥ N) := by linarith
      rw [this] at hEN
      have : 0 < a * n := mul_pos ha hn
      nlinarith
  · push Not at hc
    have Eb : ∀ t, 0 < t → E t ⬝ᵥ b t = 0 := by
      intro t ht
      have := zero_of_zero (fun t ht => hasDerivAt_dot3 (dE t ht) (db2 t)) Eb2 ht
      rw [hc t ht, smul_zero, neg_zero, zero_dotProduct, zero_add, dotProduct_smul, smul_eq_mul] at this
      exact (mul_eq_zero.1 this).resolve_left (neg_ne_zero.2 hn.ne')
    intro t ht
    have E0 : E t = 0 := by
      have := sq (E t) t
      rw [Eb t ht, Eb2 t ht, EN t ht] at this
      exact dotProduct_self_eq_zero.1 (by linarith)
    have hsum : (2 * a) • Ω = d • (p + Z t) := by
      rw [smul_add, ← sub_eq_zero, ← E0, hEdef]
      module
    have hpz : p ⨯₃ Z t = 0 := by
      have h := congrArg (fun v => v ⨯₃ Z t) hsum
      simp only [map_smul, map_add, LinearMap.smul_apply, LinearMap.add_apply, hc t ht, smul_zero, cross_self,
        add_zero] at h
      exact (smul_eq_zero.1 h.symm).resolve_left hd.ne'
    have uZ := unit3_dot (hZ t ht)
    have up := unit3_dot hp
    have pz : p = (p ⬝ᵥ Z t) • Z t := by
      have e : Z t ⨯₃ (p ⨯₃ Z t) = (Z t ⬝ᵥ Z t) • p - (p ⬝ᵥ Z t) • Z t := by
        apply vec3_ext <;>
          simp only [cross_apply, Matrix.vec3_dotProduct, Matrix.cons_val_zero, Matrix.cons_val_one, cons3_2,
            Pi.smul_apply, Pi.sub_apply, smul_eq_mul] <;> ring
      rw [hpz, map_zero, uZ, one_smul] at e
      exact sub_eq_zero.1 e.symm
    have c1 : (p ⬝ᵥ Z t) ^ 2 = 1 := by
      have h := congrArg (fun v => v ⬝ᵥ p) pz
      simp only [smul_dotProduct, smul_eq_mul, up, dotProduct_comm (Z t) p] at h
      rw [h]; ring
    rcases mul_self_eq_one_iff.1 ((pow_two _).symm.trans c1) with h | h
    · left
      rw [h, one_smul] at pz
      refine ⟨pz.symm, ?_⟩
      rw [← pz, ← two_smul ℝ p, smul_smul, mul_comm d 2, mul_smul, mul_smul] at hsum
      exact smul_right_injective _ (two_ne_zero (α := ℝ)) hsum
    · right
      rw [h, neg_smul, one_smul] at pz
      have hz : Z t = -p := by rw [pz, neg_neg]
      refine ⟨hz, ?_⟩
      rw [hz, add_neg_cancel, smul_zero] at hsum
      exact (smul_eq_zero.1 hsum).resolve_left (by positivity)

end Adcs
