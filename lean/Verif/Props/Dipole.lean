import Verif.Props.Gravity

set_option autoImplicit false

/-! # C142: the magnetic field satisfies the equations of a static field in empty space -/

namespace Adcs

open Env Dyn JDay

/-- Specification: a vector field has the partial derivatives `D i j` (of component `i` in direction `j`) at `p`. -/
def Spec.HasJacobian (F : V3 → V3) (p : V3) (D : Matrix (Fin 3) (Fin 3) ℝ) : Prop :=
  ∀ i j, HasDerivAt (fun t : ℝ => F (p + t • Pi.single j 1) i) (D i j) 0

/-- Specification: the magnetic scalar potential of a dipole. -/
noncomputable def Spec.dipolePotential (m x : V3) : ℝ := -(m ⬝ᵥ x) / npNorm x ^ 3

theorem dipole_gradient (m : V3) {p : V3} (hp : p ≠ 0) : IsGradient (Spec.dipolePotential m) p (dipole m p) := by
  intro v
  have hr := hasDerivAt_norm hp v
  have hr0 : npNorm (p + (0 : ℝ) • v) ≠ 0 := by simpa using (npNorm_pos hp).ne'
  have hd : HasDerivAt (fun t : ℝ => -(m ⬝ᵥ (p + t • v))) (-(m ⬝ᵥ v)) 0 := by
    have := (((hasDerivAt_id (0 : ℝ)).mul_const (m ⬝ᵥ v)).const_add (m ⬝ᵥ p)).fun_neg
    refine (this.congr_of_eventuallyEq (Filter.Eventually.of_forall fun t => ?_)).congr_deriv (by simp)
    simp
  have h : HasDerivAt (fun t : ℝ => Spec.dipolePotential m (p + t • v)) _ 0 :=
    hd.fun_div (hr.fun_pow 3) (pow_ne_zero 3 hr0)
  refine h.congr_deriv ?_
  have hr1 := (npNorm_pos hp).ne'
  simp only [zero_smul, add_zero, dipole, sub_dotProduct, smul_dotProduct, smul_eq_mul]
  field_simp
  ring

/-- The partial derivatives of the dipole field. -/
noncomputable def dipoleJacobian (m x : V3) : Matrix (Fin 3) (Fin 3) ℝ := fun i j =>
  3 * (m j * x i + m i * x j) / npNorm x ^ 5 + (if i = j then 3 * (m ⬝ᵥ x) / npNorm x ^ 5 else 0)
    - 15 * (m ⬝ᵥ x) * x i * x j / npNorm x ^ 7

theorem dipole_jacobian (m : V3) {p : V3} (hp : p ≠ 0) : Spec.HasJacobian (dipole m) p (dipoleJacobian m p) := by
  intro i j
  set v : V3 := Pi.single j 1 with hv
  have hr := hasDerivAt_norm hp v
  have hr0 : npNorm (p + (0 : ℝ) • v) ≠ 0 := by simpa using (npNorm_pos hp).ne'
  have hd : HasDerivAt (fun t : ℝ => m ⬝ᵥ (p + t • v)) (m ⬝ᵥ v) 0 := by
    have := (((hasDerivAt_id (0 : ℝ)).mul_const (m ⬝ᵥ v)).const_add (m ⬝ᵥ p))
    refine (this.congr_of_eventuallyEq (Filter.Eventually.of_forall fun t => ?_)).congr_deriv (by simp)
    simp
  have hx : HasDerivAt (fun t : ℝ => (p + t • v) i) (v i) 0 := by
    have := ((hasDerivAt_id (0 : ℝ)).mul_const (v i)).const_add (p i)
    simpa using this
  have h1 := ((hd.const_mul 3).fun_div (hr.fun_pow 5) (pow_ne_zero 5 hr0)).fun_mul hx
  have h2 := ((hasDerivAt_const (0 : ℝ) (1 : ℝ)).fun_div (hr.fun_pow 3) (pow_ne_zero 3 hr0)).mul_const (m i)
  have h : HasDerivAt (fun t : ℝ => dipole m (p + t • v) i) _ 0 := h1.fun_sub h2
  refine h.congr_deriv ?_
  have hr1 := (npNorm_pos hp).ne'
  have e1 : m ⬝ᵥ v = m j := by rw [hv, dotProduct_single_one]
  have e2 : p ⬝ᵥ v = p j := by rw [hv, dotProduct_single_one]
  have e3 : v i = if i = j then 1 else 0 := by rw [hv, Pi.single_apply]
  simp only [zero_smul, add_zero, e1, e2, e3, dipoleJacobian]
  split_ifs
  · field_simp
    ring
  · field_simp
    ring

/-- At each instant of the clock the field of `magnetic_field`, over all positions, has a scalar potential (no
work around closed paths), its partial derivatives are symmetric (no curl) and their trace is zero (no sources). -/
theorem C142_static (c : JClock) : ∃ B : V3 → V3, ∃ W : V3 → ℝ,
    (∀ (n : ℕ) (a : Raw n) (s : SatState n), SatState.new a (some c) = .ok s → a.pos ≠ 0 ∧
      Orb.magneticField s = .ok (B a.pos)) ∧
    ∀ p : V3, p ≠ 0 → IsGradient W p (B p) ∧ ∃ D, Spec.HasJacobian B p D ∧ D.transpose = D ∧ D.trace = 0 := by
  refine ⟨dipole (turned c.thetaGmst earthDipole), Spec.dipolePotential (turned c.thetaGmst earthDipole),
    fun n a s h => ⟨(C48_orbital h).1, C50_rotating_dipole h⟩, fun p hp => ⟨dipole_gradient _ hp, _,
    dipole_jacobian _ hp, ?_, ?_⟩⟩
  · ext i j
    simp only [Matrix.transpose_apply, dipoleJacobian, eq_comm (a := j)]
    split_ifs <;> ring
  · generalize turned c.thetaGmst earthDipole = m
    have hr := (npNorm_pos hp).ne'
    have hn := npNorm3_sq p
    rw [Matrix.trace, Fin.sum_univ_three]
    simp only [Matrix.diag_apply, dipoleJacobian, if_true, Matrix.vec3_dotProduct]
    generalize npNorm p = r at *
    field_simp
    have e : p 0 ^ 2 = r ^ 2 - p 1 ^ 2 - p 2 ^ 2 := by linarith
    linear_combination (-15 * (m 0 * p 0 + m 1 * p 1 + m 2 * p 2)) * e

example : ∃ s : SatState 4, SatState.new (exRaw 4) (some exClock) = .ok s := by
  obtain ⟨s, h, -⟩ := exState 4; exact ⟨s, h⟩

end Adcs
