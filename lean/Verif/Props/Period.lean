import Verif.Props.Orbit
import Verif.Proofs.Kepler

set_option autoImplicit false

/-! # C189: orbits close after the time of Kepler's third law -/

namespace Adcs

open Env Dyn JDay

/-- C189: position and velocity at one time determine the motion, in either field. -/
theorem C189_unique {hiFi : Bool} {x v x' v' : ℝ → V3} {lo hi t0 : ℝ} (h : Spec.Orbit hiFi x v lo hi)
    (h' : Spec.Orbit hiFi x' v' lo hi) (h0 : t0 ∈ Set.Ioo lo hi) (hx : x t0 = x' t0) (hv : v t0 = v' t0) :
    ∀ t ∈ Set.Ioo lo hi, x t = x' t ∧ v t = v' t := by
  obtain ⟨g, hg⟩ := gravity_contDiff hiFi 1
  have flow : ∀ {x v : ℝ → V3}, Spec.Orbit hiFi x v lo hi → ∀ t ∈ Set.Ioo lo hi, x t ≠ 0 ∧
      HasDerivAt (fun t => (x t, v t)) ((fun p : V3 × V3 => (p.2, g p.1)) (x t, v t)) t := by
    intro x v h t ht
    obtain ⟨h1, a, ha, h2⟩ := h t ht
    have hne := gravity_ok ha
    have e := (hg _ hne).2
    rw [ha, Except.ok.injEq] at e
    subst e
    exact ⟨hne, h1.prodMk h2⟩
  have key := flow_unique (F := fun p : V3 × V3 => (p.2, g p.1)) (y := fun t => (x t, v t))
    (z := fun t => (x' t, v' t)) (lo := lo) (hi := hi) (t0 := t0)
    (fun t ht => contDiffAt_snd.prodMk (ContDiffAt.comp (x t, v t) (hg _ (flow h t ht).1).1 contDiffAt_fst))
    (fun t ht => (flow h t ht).2) (fun t ht => (flow h' t ht).2) h0 (by simp only [hx, hv])
  intro t ht
  exact Prod.ext_iff.1 (key t ht)

/-- Specification: the half-axis of an orbit, from its energy. -/
noncomputable def Spec.halfAxis (x v : V3) : ℝ := -Spec.mu / (2 * Spec.energy Spec.mu x v)

/-- Specification: Kepler's third law. -/
noncomputable def Spec.period (a : ℝ) : ℝ := 2 * Real.pi * Real.sqrt (a ^ 3 / Spec.mu)

/-- The motion from a start with negative energy that does not head for the centre, for all times. -/
theorem kepler_motion {x0 v0 : V3} (hx : x0 ≠ 0) (hE : Spec.energy Spec.mu x0 v0 < 0)
    (hh : Spec.orbitMomentum x0 v0 ≠ 0) (t0 : ℝ) :
    ∃ x v : ℝ → V3, x t0 = x0 ∧ v t0 = v0 ∧ (∀ lo hi, Spec.Orbit false x v lo hi) ∧
      (∀ t, x (t + Spec.period (Spec.halfAxis x0 v0)) = x t ∧ v (t + Spec.period (Spec.halfAxis x0 v0)) = v t) ∧
      ∀ t, t0 < t → t < t0 + Spec.period (Spec.halfAxis x0 v0) → x t ≠ x0 := by
  have hμ : 0 < Spec.mu := mu_eq ▸ MU_pos
  set a := Spec.halfAxis x0 v0 with ha
  set E := Spec.energy Spec.mu x0 v0 with hEdef
  have ha0 : 0 < a := by
    rw [ha, Spec.halfAxis, ← hEdef]; exact div_pos_of_neg_of_neg (by linarith) (by linarith)
  have hEa : E = -Spec.mu / (2 * a) := by
    rw [ha, Spec.halfAxis, ← hEdef]; have := hE.ne; field_simp
  set n := Real.sqrt (Spec.mu / a ^ 3) with hn
  have hn0 : 0 < n := Real.sqrt_pos.2 (by positivity)
  have hn2 : n ^ 2 * a ^ 3 = Spec.mu := by
    rw [hn, Real.sq_sqrt (by positivity)]; field_simp
  have hP : Spec.period a = 2 * Real.pi / n := by
    rw [Spec.period, hn, ← inv_div (Spec.mu) (a ^ 3), Real.sqrt_inv]; rfl
  have hr0 := npNorm_pos hx
  set r0 := npNorm x0 with hr
  set s0 := x0 ⬝ᵥ v0 with hs0
  set A := 1 - r0 / a with hA
  set B := s0 / (n * a ^ 2) with hB
  have hA1 : A < 1 := by rw [hA]; linarith [div_pos hr0 ha0]
  have hr0A : r0 = a * (1 - A) := by rw [hA]; field_simp; ring
  have hs0B : s0 = B * n * a ^ 2 := by rw [hB]; field_simp
  have hv2 : v0 ⬝ᵥ v0 = n ^ 2 * a ^ 2 * (1 + A) / (1 - A) := by
    have h1 : (v0 ⬝ᵥ v0) / 2 - Spec.mu / r0 = E := rfl
    have h2 : 1 - A ≠ 0 := by linarith
    have h3 : v0 ⬝ᵥ v0 = 2 * (E + Spec.mu / r0) := by linarith
    rw [h3, hEa, hr0A, ← hn2]
    field_simp
    ring
  have hx2 : x0 ⬝ᵥ x0 = r0 ^ 2 := by rw [hr, npNorm3_sq, Matrix.vec3_dotProduct]; ring
  have hlag : Spec.orbitMomentum x0 v0 ⬝ᵥ Spec.orbitMomentum x0 v0 = (x0 ⬝ᵥ x0) * (v0 ⬝ᵥ v0) - s0 ^ 2 := by
    rw [hs0]
    simp only [Matrix.vec3_dotProduct, Spec.orbitMomentum, Matrix.cons_val_zero, Matrix.cons_val_one, cons3_2]
    ring
  have hAB : A ^ 2 + B ^ 2 < 1 := by
    have h1 : 0 < Spec.orbitMomentum x0 v0 ⬝ᵥ Spec.orbitMomentum x0 v0 := by
      have := pow_pos (npNorm_pos hh) 2
      rw [npNorm3_sq] at this
      rw [Matrix.vec3_dotProduct]; linarith
    rw [hlag, hx2, hv2, hr0A, hs0B] at h1
    have h2 : 1 - A ≠ 0 := by linarith
    have h3 : (a * (1 - A)) ^ 2 * (n ^ 2 * a ^ 2 * (1 + A) / (1 - A)) - (B * n * a ^ 2) ^ 2 =
        n ^ 2 * a ^ 4 * (1 - (A ^ 2 + B ^ 2)) := by field_simp; ring
    rw [h3] at h1
    have := pos_of_mul_pos_right h1 (by positivity)
    linarith
  obtain ⟨φ, hφ0, hφ, hφP, hmono⟩ := anomaly hAB hn0
  have hρ : ∀ p, 0 < kepRho A B p := by
    intro p
    have h1 := Real.sin_sq_add_cos_sq p
    have h2 : (A * Real.cos p - B * Real.sin p) ^ 2 < 1 := by
      nlinarith [sq_nonneg (A * Real.sin p + B * Real.cos p)]
    have := abs_lt_of_sq_lt_sq' (a := A * Real.cos p - B * Real.sin p) (b := 1) (by linarith) (by norm_num)
    unfold kepRho; linarith [this.2]
  have hA' : 1 - A ≠ 0 := by linarith
  let X : ℝ → V3 := fun t i => kepF A (φ (t - t0)) * x0 i + kepG A B n (φ (t - t0)) * v0 i
  let V : ℝ → V3 := fun t i => kepF' A B n (φ (t - t0)) * x0 i + kepG' A B (φ (t - t0)) * v0 i
  have hnorm : ∀ t, npNorm (X t) = a * kepRho A B (φ (t - t0)) := by
    intro t
    have h1 := lagrange_norm (a := a) (p := φ (t - t0)) (B := B) hA1 hn0
    rw [← hv2, ← hs0B, ← hr0A, ← hx2, hs0] at h1
    refine (sq_eq_sq₀ (npNorm_nonneg _) (mul_pos ha0 (hρ _)).le).1 ?_
    rw [← h1, npNorm3_sq]
    simp only [Matrix.vec3_dotProduct, X]
    ring
  have hshift : ∀ t, HasDerivAt (fun t => φ (t - t0)) (n / kepRho A B (φ (t - t0))) t := fun t =>
    (hφ (t - t0)).comp_sub_const t t0
  refine ⟨X, V, ?_, ?_, fun lo hi t _ => ?_, fun t => ?_, fun t h1 h2 h3 => ?_⟩
  · funext i
    simp only [X, sub_self, hφ0, kepF, kepG, Real.cos_zero, Real.sin_zero]
    field_simp
    ring
  · funext i
    have e : 1 - A * 1 + B * 0 = 1 - A := by ring
    simp only [V, sub_self, hφ0, kepF', kepG', kepRho, Real.cos_zero, Real.sin_zero, e]
    field_simp
    ring
  · obtain ⟨l1, l2, l3, l4⟩ := lagrange (A := A) (B := B) hA1 hn0 (φ := fun t => φ (t - t0)) (t := t) (hρ _) (hshift t)
    refine ⟨hasDerivAt_pi.2 fun i => (l1.mul_const (x0 i)).add (l2.mul_const (v0 i)),
      fun i => -(Plain.MU / npNorm (X t) ^ 3) * X t i, ?_, hasDerivAt_pi.2 fun i => ?_⟩
    · have hne : 0 < npNorm (X t) := by rw [hnorm]; exact mul_pos ha0 (hρ _)
      simp only [Plain.gravityAccel, npDiv, npVDiv, if_neg hne.ne', if_neg (pow_pos hne 2).ne', Bool.false_eq_true,
        if_false, Except.ok.injEq]
      funext i
      simp only [Pi.smul_apply, smul_eq_mul]
      field_simp
    · refine ((l3.mul_const (x0 i)).add (l4.mul_const (v0 i))).congr_deriv ?_
      rw [hnorm, mu_eq, ← hn2]
      have := hρ (φ (t - t0))
      simp only [X]
      field_simp
      ring
  · have e : φ (t + Spec.period a - t0) = φ (t - t0) + 2 * Real.pi := by
      rw [hP, ← hφP]; congr 1; ring
    simp only [X, V, e, kepF, kepG, kepF', kepG', kepRho, Real.cos_add_two_pi, Real.sin_add_two_pi, and_self]
  · have p1 : 0 < φ (t - t0) := by rw [← hφ0]; exact hmono (by linarith)
    have p2 : φ (t - t0) < 2 * Real.pi := by
      have := hφP 0
      rw [hφ0, zero_add, zero_add] at this
      rw [← this, ← hP]; exact hmono (by linarith)
    have hc : Real.cos (φ (t - t0)) = 1 := by
      obtain ⟨i, hi⟩ : ∃ i, Spec.orbitMomentum x0 v0 i ≠ 0 := by
        by_contra hcon
        push Not at hcon
        exact hh (funext hcon)
      have c := fun i => congrFun h3 i
      have f1 : kepF A (φ (t - t0)) = 1 := by
        have c0 := c 0
        have c1 := c 1
        have c2 := c 2
        simp only [X] at c0 c1 c2
        generalize kepF A (φ (t - t0)) = f at *
        generalize kepG A B n (φ (t - t0)) = g at *
        have : (f - 1) * Spec.orbitMomentum x0 v0 i = 0 := by
          fin_cases i
          · simp only [Spec.orbitMomentum, Fin.zero_eta, Matrix.cons_val_zero]
            linear_combination v0 2 * c1 - v0 1 * c2
          · simp only [Spec.orbitMomentum, Fin.mk_one, Matrix.cons_val_one, Matrix.cons_val_zero]
            linear_combination v0 0 * c2 - v0 2 * c0
          · simp only [Spec.orbitMomentum, Fin.reduceFinMk, cons3_2]
            linear_combination v0 1 * c0 - v0 0 * c1
        rcases mul_eq_zero.1 this with h | h
        · linarith
        · exact absurd h hi
      unfold kepF at f1
      rw [div_eq_iff hA'] at f1
      linarith
    obtain ⟨k, hk⟩ := (Real.cos_eq_one_iff _).1 hc
    have hpi := Real.pi_pos
    rw [← hk] at p1 p2
    have k1 : (0 : ℝ) < k := by
      by_contra hneg
      push Not at hneg
      nlinarith
    have k2 : (k : ℝ) < 1 := by
      by_contra hneg
      push Not at hneg
      nlinarith
    have k1' : (0 : ℤ) < k := by exact_mod_cast k1
    have k2' : (k : ℤ) < 1 := by exact_mod_cast k2
    omega

/-- C189: from every start with negative energy that does not head for the centre there is a motion for all times. -/
theorem C189_forever {x0 v0 : V3} (hx : x0 ≠ 0) (hE : Spec.energy Spec.mu x0 v0 < 0)
    (hh : Spec.orbitMomentum x0 v0 ≠ 0) (t0 : ℝ) :
    ∃ x v : ℝ → V3, x t0 = x0 ∧ v t0 = v0 ∧ ∀ lo hi, Spec.Orbit false x v lo hi := by
  obtain ⟨x, v, h1, h2, h3, -⟩ := kepler_motion hx hE hh t0
  exact ⟨x, v, h1, h2, h3⟩

/-- C189: a satellite in orbit is back, with the same velocity, after the period of Kepler's third law, and is not
back earlier. -/
theorem C189_closed {x v : ℝ → V3} {lo hi : ℝ} (hO : Spec.Orbit false x v lo hi) {t0 t : ℝ}
    (h0 : t0 ∈ Set.Ioo lo hi) (hE : Spec.energy Spec.mu (x t0) (v t0) < 0)
    (hh : Spec.orbitMomentum (x t0) (v t0) ≠ 0) (ht : t ∈ Set.Ioo lo hi) :
    let P := Spec.period (Spec.halfAxis (x t0) (v t0))
    (t0 < t → t < t0 + P → x t ≠ x t0) ∧ (t = t0 + P → x t = x t0 ∧ v t = v t0) := by
  intro P
  obtain ⟨-, a, ha, -⟩ := hO t0 h0
  obtain ⟨x', v', h1, h2, h3, h4, h5⟩ := kepler_motion (gravity_ok ha) hE hh t0
  have key := C189_unique hO (h3 lo hi) h0 h1.symm h2.symm t ht
  refine ⟨fun l u => ?_, fun e => ?_⟩
  · rw [key.1]; exact h5 t l u
  · obtain ⟨e1, e2⟩ := h4 t0
    rw [key.1, key.2, e, e1, e2]
    exact ⟨h1, h2⟩

/-- C189, the same for the states and the environment class used by the dynamics. -/
theorem C189_states {m : ℕ} {raw : ℝ → Raw m} {lo hi : ℝ} (hO : Spec.StateOrbit false raw lo hi) {t0 t : ℝ}
    (h0 : t0 ∈ Set.Ioo lo hi) (hE : Spec.energy Spec.mu (raw t0).pos (raw t0).vel < 0)
    (hh : Spec.orbitMomentum (raw t0).pos (raw t0).vel ≠ 0) (ht : t ∈ Set.Ioo lo hi) :
    let P := Spec.period (Spec.halfAxis (raw t0).pos (raw t0).vel)
    (t0 < t → t < t0 + P → (raw t).pos ≠ (raw t0).pos) ∧
      (t = t0 + P → (raw t).pos = (raw t0).pos ∧ (raw t).vel = (raw t0).vel) :=
  C189_closed hO.orbit h0 hE hh ht

/-- An elliptic orbit: from 400 km above the equator with 8 km/s, for all times. -/
example : ∃ x v : ℝ → V3, (∀ lo hi, Spec.Orbit false x v lo hi) ∧ x 0 = ![6778137, 0, 0] ∧ v 0 = ![0, 8000, 0] ∧
    Spec.energy Spec.mu (x 0) (v 0) < 0 ∧ Spec.orbitMomentum (x 0) (v 0) ≠ 0 := by
  have hnorm : npNorm (![6778137, 0, 0] : V3) = 6778137 := by
    rw [npNorm, Fin.sum_univ_three]; simp
  have hE : Spec.energy Spec.mu ![6778137, 0, 0] ![0, 8000, 0] < 0 := by
    simp only [Spec.energy, hnorm, Matrix.vec3_dotProduct, Matrix.cons_val_zero, Matrix.cons_val_one, cons3_2, Spec.mu]
    norm_num
  have hh : Spec.orbitMomentum ![6778137, 0, 0] ![0, 8000, 0] ≠ 0 := by
    intro h
    have := congrFun h 2
    simp [Spec.orbitMomentum] at this
  obtain ⟨x, v, h1, h2, h3⟩ := C189_forever (x0 := ![6778137, 0, 0]) (v0 := ![0, 8000, 0])
    (fun h => by simpa using congrFun h 0) hE hh 0
  exact ⟨x, v, h3, h1, h2, by rw [h1, h2]; exact hE, by rw [h1, h2]; exact hh⟩

end Adcs
