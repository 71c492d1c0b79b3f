import Verif.Props.Gravity
import Verif.Props.Height
import Mathlib.Analysis.ODE.ExistUnique
import Mathlib.Analysis.SpecialFunctions.Trigonometric.Deriv

set_option autoImplicit false

/-! # C141: motion under gravity alone

The motions that `gravity_accel` prescribes: Kepler's laws for the central field, the conserved component of
the angular momentum for the high-fidelity field. -/

namespace Adcs

open Env Dyn JDay

/-- A point moves from `lo` to `hi` with the acceleration of `Environment.gravity_accel`. -/
def Spec.Orbit (hiFi : Bool) (x v : ℝ → V3) (lo hi : ℝ) : Prop :=
  ∀ t ∈ Set.Ioo lo hi, HasDerivAt x (v t) t ∧
    ∃ a, Plain.gravityAccel hiFi (x t) (npNorm (x t)) = .ok a ∧ HasDerivAt v a t

/-- The same for `OrbitalEnvironment.gravity_accel`: states of the library, with whatever clocks. -/
def Spec.StateOrbit {n : ℕ} (hiFi : Bool) (raw : ℝ → Raw n) (lo hi : ℝ) : Prop :=
  ∀ t ∈ Set.Ioo lo hi, HasDerivAt (fun t => (raw t).pos) (raw t).vel t ∧
    ∃ c s a, SatState.new (raw t) (some c) = .ok s ∧ Orb.gravityAccel hiFi s = .ok a ∧
      HasDerivAt (fun t => (raw t).vel) a t

theorem Spec.StateOrbit.orbit {n : ℕ} {hiFi : Bool} {raw : ℝ → Raw n} {lo hi : ℝ}
    (h : Spec.StateOrbit hiFi raw lo hi) :
    Spec.Orbit hiFi (fun t => (raw t).pos) (fun t => (raw t).vel) lo hi := by
  intro t ht
  obtain ⟨h1, c, s, a, hs, ha, h2⟩ := h t ht
  refine ⟨h1, a, ?_, h2⟩
  obtain ⟨c', lat, long, hh, hc, hl, rfl⟩ := mkState_ok.1 hs
  exact ha

theorem const_Ioo {f : ℝ → ℝ} {lo hi : ℝ} (h : ∀ t ∈ Set.Ioo lo hi, HasDerivAt f 0 t) {s t : ℝ}
    (hs : s ∈ Set.Ioo lo hi) (ht : t ∈ Set.Ioo lo hi) : f s = f t :=
  isOpen_Ioo.is_const_of_deriv_eq_zero isPreconnected_Ioo
    (fun u hu => (h u hu).differentiableAt.differentiableWithinAt) (fun u hu => (h u hu).deriv) hs ht

theorem gravity_ok {hiFi : Bool} {x a : V3} (h : Plain.gravityAccel hiFi x (npNorm x) = .ok a) : x ≠ 0 := by
  rintro rfl
  have : npNorm (0 : V3) = 0 := npNorm_eq_zero.2 rfl
  simp [Plain.gravityAccel, npDiv, this] at h

theorem central_ok {x a : V3} (h : Plain.gravityAccel false x (npNorm x) = .ok a) :
    ∀ i, a i = -(Plain.MU / npNorm x ^ 3) * x i := by
  have hr := npNorm_pos (gravity_ok h)
  simp only [Plain.gravityAccel, npDiv, npVDiv, if_neg hr.ne', if_neg (pow_pos hr 2).ne',
    Bool.false_eq_true, if_false, Except.ok.injEq] at h
  subst h
  intro i
  simp only [Pi.smul_apply, smul_eq_mul]
  field_simp

theorem hasDerivAt_norm_curve {x : ℝ → V3} {v : V3} {t : ℝ} (hx : x t ≠ 0) (h : HasDerivAt x v t) :
    HasDerivAt (fun t => npNorm (x t)) ((x t ⬝ᵥ v) / npNorm (x t)) t := by
  have hi := hasDerivAt_pi.1 h
  have h2 : HasDerivAt (fun t => x t 0 ^ 2 + x t 1 ^ 2 + x t 2 ^ 2) (2 * (x t ⬝ᵥ v)) t := by
    refine ((((hi 0).fun_pow 2).add ((hi 1).fun_pow 2)).add ((hi 2).fun_pow 2)).congr_deriv ?_
    rw [Matrix.vec3_dotProduct]; simp; ring
  have hpos : x t 0 ^ 2 + x t 1 ^ 2 + x t 2 ^ 2 ≠ 0 := by
    rw [← npNorm3_sq]; exact (pow_pos (npNorm_pos hx) 2).ne'
  have h3 := h2.sqrt hpos
  have e : ∀ y : V3, npNorm y = Real.sqrt (y 0 ^ 2 + y 1 ^ 2 + y 2 ^ 2) := fun y => by
    simp [npNorm, Fin.sum_univ_three]
  simp only [e]
  refine h3.congr_deriv ?_
  rw [mul_div_mul_left _ _ two_ne_zero]

/-- Specification: energy per mass in the field of a centre with gravitational parameter `μ`. -/
noncomputable def Spec.energy (μ : ℝ) (x v : V3) : ℝ := (v ⬝ᵥ v) / 2 - μ / npNorm x

/-- Specification: the eccentricity vector. -/
noncomputable def Spec.eccentricity (μ : ℝ) (x v : V3) : V3 :=
  fun i => ((v ⬝ᵥ v - μ / npNorm x) * x i - (x ⬝ᵥ v) * v i) / μ

/-- Specification: angular momentum per mass. -/
def Spec.orbitMomentum (x v : V3) : V3 := ![x 1 * v 2 - x 2 * v 1, x 2 * v 0 - x 0 * v 2, x 0 * v 1 - x 1 * v 0]

/-- What is constant along a motion in the central field. -/
theorem central_const {x v : ℝ → V3} {lo hi : ℝ} (h : Spec.Orbit false x v lo hi) {s t : ℝ}
    (hs : s ∈ Set.Ioo lo hi) (ht : t ∈ Set.Ioo lo hi) :
    Spec.orbitMomentum (x s) (v s) = Spec.orbitMomentum (x t) (v t) ∧
    Spec.energy Plain.MU (x s) (v s) = Spec.energy Plain.MU (x t) (v t) ∧
    Spec.eccentricity Plain.MU (x s) (v s) = Spec.eccentricity Plain.MU (x t) (v t) := by
  have hMU := MU_pos.ne'
  set μ := Plain.MU with hμ
  have key : ∀ u ∈ Set.Ioo lo hi, x u ≠ 0 ∧ (∀ i, HasDerivAt (fun t => x t i) (v u i) u) ∧
      (∀ i, HasDerivAt (fun t => v t i) (-(μ / npNorm (x u) ^ 3) * x u i) u) ∧
      HasDerivAt (fun t => npNorm (x t)) ((x u ⬝ᵥ v u) / npNorm (x u)) u := by
    intro u hu
    obtain ⟨h1, a, ha, h2⟩ := h u hu
    have hne := gravity_ok ha
    refine ⟨hne, hasDerivAt_pi.1 h1, fun i => ?_, hasDerivAt_norm_curve hne h1⟩
    rw [← central_ok ha i]
    exact hasDerivAt_pi.1 h2 i
  have hL : ∀ i j, ∀ u ∈ Set.Ioo lo hi, HasDerivAt (fun t => x t i * v t j - x t j * v t i) 0 u := by
    intro i j u hu
    obtain ⟨-, h1, h2, -⟩ := key u hu
    refine (((h1 i).mul (h2 j)).sub ((h1 j).mul (h2 i))).congr_deriv ?_
    ring
  refine ⟨?_, ?_, ?_⟩
  · apply vec3_ext
    · exact const_Ioo (hL 1 2) hs ht
    · exact const_Ioo (hL 2 0) hs ht
    · exact const_Ioo (hL 0 1) hs ht
  · refine const_Ioo (f := fun t => Spec.energy μ (x t) (v t)) (fun u hu => ?_) hs ht
    obtain ⟨hne, h1, h2, hr⟩ := key u hu
    have hr0 := (npNorm_pos hne).ne'
    have hv := ((((h2 0).mul (h2 0)).add ((h2 1).mul (h2 1))).add ((h2 2).mul (h2 2))).div_const 2
    have hp := (hasDerivAt_const u μ).fun_div hr hr0
    have := hv.sub hp
    have h3 : HasDerivAt (fun t => Spec.energy μ (x t) (v t)) _ u :=
      this.congr_of_eventuallyEq (Filter.Eventually.of_forall fun t => by
        simp [Spec.energy, Matrix.vec3_dotProduct])
    refine h3.congr_deriv ?_
    · rw [Matrix.vec3_dotProduct]
      field_simp
      ring
  · funext i
    refine const_Ioo (f := fun t => Spec.eccentricity μ (x t) (v t) i) (fun u hu => ?_) hs ht
    obtain ⟨hne, h1, h2, hr⟩ := key u hu
    have hr0 := (npNorm_pos hne).ne'
    have hn := npNorm3_sq (x u)
    have hv := (((h2 0).mul (h2 0)).add ((h2 1).mul (h2 1))).add ((h2 2).mul (h2 2))
    have hxv := (((h1 0).mul (h2 0)).add ((h1 1).mul (h2 1))).add ((h1 2).mul (h2 2))
    have hp := (hasDerivAt_const u μ).fun_div hr hr0
    have := (((hv.sub hp).mul (h1 i)).sub (hxv.mul (h2 i))).div_const μ
    have h3 : HasDerivAt (fun t => Spec.eccentricity μ (x t) (v t) i) _ u :=
      this.congr_of_eventuallyEq (Filter.Eventually.of_forall fun t => by
        simp [Spec.eccentricity, Matrix.vec3_dotProduct])
    refine h3.congr_deriv ?_
    · rw [Matrix.vec3_dotProduct]
      simp only [Pi.add_apply, Pi.mul_apply, Pi.sub_apply]
      generalize npNorm (x u) = r at *
      field_simp
      have e : x u 0 ^ 2 = r ^ 2 - x u 1 ^ 2 - x u 2 ^ 2 := by linarith
      ring_nf
      simp only [e]
      ring

theorem momentum_sq (x v : V3) : Spec.orbitMomentum x v ⬝ᵥ Spec.orbitMomentum x v =
    npNorm x ^ 2 * (v ⬝ᵥ v) - (x ⬝ᵥ v) ^ 2 := by
  rw [npNorm3_sq, Matrix.vec3_dotProduct, Matrix.vec3_dotProduct, Matrix.vec3_dotProduct]
  simp only [Spec.orbitMomentum, Matrix.cons_val_zero, Matrix.cons_val_one, cons3_2]
  ring

theorem eccentricity_dot {μ : ℝ} (hμ : μ ≠ 0) {x : V3} (hx : x ≠ 0) (v : V3) :
    npNorm x + Spec.eccentricity μ x v ⬝ᵥ x = Spec.orbitMomentum x v ⬝ᵥ Spec.orbitMomentum x v / μ := by
  have hr := (npNorm_pos hx).ne'
  have hn := npNorm3_sq x
  rw [momentum_sq]
  have e : Spec.eccentricity μ x v ⬝ᵥ x = ((v ⬝ᵥ v - μ / npNorm x) * npNorm x ^ 2 - (x ⬝ᵥ v) ^ 2) / μ := by
    rw [hn, Matrix.vec3_dotProduct (Spec.eccentricity μ x v) x, Matrix.vec3_dotProduct x v]
    simp only [Spec.eccentricity, Matrix.vec3_dotProduct x v]
    field_simp
    ring
  rw [e]
  field_simp
  ring

theorem eccentricity_sq {μ : ℝ} (hμ : μ ≠ 0) {x : V3} (hx : x ≠ 0) (v : V3) :
    npNorm (Spec.eccentricity μ x v) ^ 2 = 1 + 2 * Spec.energy μ x v *
      (Spec.orbitMomentum x v ⬝ᵥ Spec.orbitMomentum x v) / μ ^ 2 := by
  have hr := (npNorm_pos hx).ne'
  have hn := npNorm3_sq x
  rw [momentum_sq]
  have e : npNorm (Spec.eccentricity μ x v) ^ 2 = ((v ⬝ᵥ v - μ / npNorm x) ^ 2 * npNorm x ^ 2
      - 2 * (v ⬝ᵥ v - μ / npNorm x) * (x ⬝ᵥ v) ^ 2 + (x ⬝ᵥ v) ^ 2 * (v ⬝ᵥ v)) / μ ^ 2 := by
    rw [hn, npNorm3_sq (Spec.eccentricity μ x v), Matrix.vec3_dotProduct x v, Matrix.vec3_dotProduct v v]
    simp only [Spec.eccentricity, Matrix.vec3_dotProduct x v, Matrix.vec3_dotProduct v v]
    field_simp
    ring
  rw [e]
  unfold Spec.energy
  field_simp
  ring

theorem momentum_orthogonal (x v : V3) : Spec.orbitMomentum x v ⬝ᵥ x = 0 ∧ Spec.orbitMomentum x v ⬝ᵥ v = 0 := by
  constructor <;>
  · rw [Matrix.vec3_dotProduct]
    simp only [Spec.orbitMomentum, Matrix.cons_val_zero, Matrix.cons_val_one, cons3_2]
    ring

/-- The gravitational parameter: the constants of line 9 and 13 of environment.py. -/
noncomputable def Spec.mu : ℝ := 6.6743e-11 * 5.9733328e24

theorem mu_eq : Plain.MU = Spec.mu := rfl

/-- Central gravity: the motion stays in the plane through the centre normal to the angular momentum `h`; `h`,
the energy and the eccentricity vector keep their values; the path is the conic `|x| + e·x = |h|²/μ` with focus
in the centre, of eccentricity `|e|² = 1 + 2E|h|²/μ²`. -/
theorem C141_kepler {x v : ℝ → V3} {lo hi : ℝ} (hO : Spec.Orbit false x v lo hi) {t0 t : ℝ}
    (h0 : t0 ∈ Set.Ioo lo hi) (ht : t ∈ Set.Ioo lo hi) :
    let h := Spec.orbitMomentum (x t0) (v t0)
    let E := Spec.energy Spec.mu (x t0) (v t0)
    let e := Spec.eccentricity Spec.mu (x t0) (v t0)
    Spec.orbitMomentum (x t) (v t) = h ∧ Spec.energy Spec.mu (x t) (v t) = E ∧
    h ⬝ᵥ x t = 0 ∧ h ⬝ᵥ v t = 0 ∧
    npNorm (x t) + e ⬝ᵥ x t = h ⬝ᵥ h / Spec.mu ∧ npNorm e ^ 2 = 1 + 2 * E * (h ⬝ᵥ h) / Spec.mu ^ 2 := by
  obtain ⟨c1, c2, c3⟩ := central_const hO ht h0
  rw [mu_eq] at c2 c3
  have hμ : Spec.mu ≠ 0 := mu_eq ▸ MU_pos.ne'
  obtain ⟨-, a, ha, -⟩ := hO t ht
  obtain ⟨-, a', ha', -⟩ := hO t0 h0
  refine ⟨c1, c2, ?_, ?_, ?_, eccentricity_sq hμ (gravity_ok ha') _⟩
  · rw [← c1]; exact (momentum_orthogonal _ _).1
  · rw [← c1]; exact (momentum_orthogonal _ _).2
  · rw [← c3, ← c1]; exact eccentricity_dot hμ (gravity_ok ha) _

theorem dot_bound (e x : V3) : |e ⬝ᵥ x| ≤ npNorm e * npNorm x := by
  apply abs_le_of_sq_le_sq _ (mul_nonneg (npNorm_nonneg e) (npNorm_nonneg x))
  rw [mul_pow, npNorm3_sq, npNorm3_sq, Matrix.vec3_dotProduct]
  nlinarith [sq_nonneg (e 0 * x 1 - e 1 * x 0), sq_nonneg (e 0 * x 2 - e 2 * x 0), sq_nonneg (e 1 * x 2 - e 2 * x 1)]

/-- A motion of negative energy never leaves the shell between perigee and apogee: with the half-axis
`a = -μ/(2E)` and the eccentricity `e`, the distance stays between `a(1 - e)` and `a(1 + e)`, and the speed is
that of the vis-viva equation. -/
theorem C141_bounded {x v : ℝ → V3} {lo hi : ℝ} (hO : Spec.Orbit false x v lo hi) {t0 t : ℝ}
    (h0 : t0 ∈ Set.Ioo lo hi) (ht : t ∈ Set.Ioo lo hi) (hE : Spec.energy Spec.mu (x t0) (v t0) < 0) :
    let a := -Spec.mu / (2 * Spec.energy Spec.mu (x t0) (v t0))
    let e := npNorm (Spec.eccentricity Spec.mu (x t0) (v t0))
    0 < a ∧ e ≤ 1 ∧ a * (1 - e) ≤ npNorm (x t) ∧ npNorm (x t) ≤ a * (1 + e) ∧
      npNorm (v t) ^ 2 = Spec.mu * (2 / npNorm (x t) - 1 / a) := by
  obtain ⟨c1, c2, c3, c4, c5, c6⟩ := C141_kepler hO h0 ht
  have hμ : 0 < Spec.mu := mu_eq ▸ MU_pos
  obtain ⟨-, ac, hac, -⟩ := hO t ht
  have hr := npNorm_pos (gravity_ok hac)
  have hd := abs_le.1 (dot_bound (Spec.eccentricity Spec.mu (x t0) (v t0)) (x t))
  have hh : 0 ≤ Spec.orbitMomentum (x t0) (v t0) ⬝ᵥ Spec.orbitMomentum (x t0) (v t0) := by
    rw [Matrix.vec3_dotProduct]
    nlinarith [sq_nonneg (Spec.orbitMomentum (x t0) (v t0) 0), sq_nonneg (Spec.orbitMomentum (x t0) (v t0) 1),
      sq_nonneg (Spec.orbitMomentum (x t0) (v t0) 2)]
  have he0 := npNorm_nonneg (Spec.eccentricity Spec.mu (x t0) (v t0))
  intro a e
  have hvv : v t ⬝ᵥ v t = npNorm (v t) ^ 2 := by rw [npNorm3_sq, Matrix.vec3_dotProduct]; ring
  simp only [Spec.energy, hvv] at c2
  change (npNorm (v t) ^ 2 / 2 - Spec.mu / npNorm (x t) = Spec.energy Spec.mu (x t0) (v t0)) at c2
  generalize Spec.orbitMomentum (x t0) (v t0) ⬝ᵥ Spec.orbitMomentum (x t0) (v t0) = H at *
  generalize hEE : Spec.energy Spec.mu (x t0) (v t0) = E at *
  have ha : a = -Spec.mu / (2 * E) := by simp only [a, hEE]
  have hE0 := hE.ne
  have ha0 : 0 < a := by rw [ha]; exact div_pos_of_neg_of_neg (by linarith) (by linarith)
  have hEa : E = -Spec.mu / (2 * a) := by rw [ha]; field_simp
  have hH : H / Spec.mu = a * (1 - e ^ 2) := by
    change (e ^ 2 = _) at c6
    rw [c6, hEa]; field_simp; ring
  have he1 : e ≤ 1 := by
    by_contra hc
    have h1 : 1 < e := not_le.1 hc
    have h2 : 0 ≤ H / Spec.mu := div_nonneg hh hμ.le
    have : a * (1 - e ^ 2) < 0 := mul_neg_of_pos_of_neg ha0 (by nlinarith)
    linarith
  rw [hH] at c5
  change (-(e * npNorm (x t)) ≤ _ ∧ _ ≤ e * npNorm (x t)) at hd
  have hv2 : npNorm (v t) ^ 2 = Spec.mu * (2 / npNorm (x t) - 1 / a) := by
    have : npNorm (v t) ^ 2 = 2 * (Spec.mu / npNorm (x t)) + 2 * E := by linarith
    rw [this, hEa]; field_simp
    ring
  change 0 ≤ e at he0
  generalize npNorm (x t) = r at *
  refine ⟨ha0, he1, ?_, ?_, hv2⟩
  · have : (1 + e) * (a * (1 - e)) ≤ (1 + e) * r := by nlinarith [hd.2]
    exact le_of_mul_le_mul_left this (by linarith)
  · rcases he1.lt_or_eq with h1 | h1
    · have : (1 - e) * r ≤ (1 - e) * (a * (1 + e)) := by nlinarith [hd.1]
      exact le_of_mul_le_mul_left this (by linarith)
    · rw [h1]
      have h3 : 0 ≤ Spec.mu * (2 / r - 1 / a) := hv2 ▸ sq_nonneg _
      have h4 : 0 ≤ 2 / r - 1 / a := nonneg_of_mul_nonneg_right h3 hμ
      rw [sub_nonneg, div_le_div_iff₀ ha0 hr] at h4
      linarith

/-- The same for the states and the environment class used by the dynamics. -/
theorem C141_states {n : ℕ} {raw : ℝ → Raw n} {lo hi : ℝ} (hO : Spec.StateOrbit false raw lo hi) {t0 t : ℝ}
    (h0 : t0 ∈ Set.Ioo lo hi) (ht : t ∈ Set.Ioo lo hi) :
    let h := Spec.orbitMomentum (raw t0).pos (raw t0).vel
    let E := Spec.energy Spec.mu (raw t0).pos (raw t0).vel
    let e := Spec.eccentricity Spec.mu (raw t0).pos (raw t0).vel
    Spec.orbitMomentum (raw t).pos (raw t).vel = h ∧ Spec.energy Spec.mu (raw t).pos (raw t).vel = E ∧
    h ⬝ᵥ (raw t).pos = 0 ∧ npNorm (raw t).pos + e ⬝ᵥ (raw t).pos = h ⬝ᵥ h / Spec.mu ∧
    (E < 0 → -Spec.mu / (2 * E) * (1 - npNorm e) ≤ npNorm (raw t).pos ∧
      npNorm (raw t).pos ≤ -Spec.mu / (2 * E) * (1 + npNorm e)) := by
  obtain ⟨c1, c2, c3, -, c5, -⟩ := C141_kepler hO.orbit h0 ht
  refine ⟨c1, c2, c3, c5, fun hE => ?_⟩
  obtain ⟨-, -, b1, b2, -⟩ := C141_bounded hO.orbit h0 ht hE
  exact ⟨b1, b2⟩

/-- High-fidelity gravity, with its wrong signs (C49), still keeps the component of the angular momentum along
the Earth's axis. -/
theorem C141_axis {x v : ℝ → V3} {lo hi : ℝ} (hO : Spec.Orbit true x v lo hi) {s t : ℝ}
    (hs : s ∈ Set.Ioo lo hi) (ht : t ∈ Set.Ioo lo hi) :
    Spec.orbitMomentum (x s) (v s) 2 = Spec.orbitMomentum (x t) (v t) 2 := by
  refine const_Ioo (f := fun t => x t 0 * v t 1 - x t 1 * v t 0) (fun u hu => ?_) hs ht
  obtain ⟨h1, a, ha, h2⟩ := hO u hu
  have hx := hasDerivAt_pi.1 h1
  have hv := hasDerivAt_pi.1 h2
  refine (((hx 0).mul (hv 1)).sub ((hx 1).mul (hv 0))).congr_deriv ?_
  obtain ⟨a', ha', e⟩ := code_eq (gravity_ok ha)
  obtain rfl : a = a' := Except.ok.inj (ha.symm.trans ha')
  subst e
  simp only [trueField, geoGradient, Pi.sub_apply, Pi.smul_apply, smul_eq_mul, Matrix.cons_val_zero,
    Matrix.cons_val_one]
  ring

/-- The circular orbit of radius `r` obeys the equation: a non-trivial motion, of period `2π √(r³/μ)`
(Kepler's third law). -/
theorem C141_circular {r : ℝ} (hr : 0 < r) (lo hi : ℝ) :
    let n := Real.sqrt (Spec.mu / r ^ 3)
    Spec.Orbit false (fun t => ![r * Real.cos (n * t), r * Real.sin (n * t), 0])
      (fun t => ![-(r * n * Real.sin (n * t)), r * n * Real.cos (n * t), 0]) lo hi := by
  intro n t _
  have hμ : 0 < Spec.mu := mu_eq ▸ MU_pos
  have hn2 : n ^ 2 = Spec.mu / r ^ 3 := Real.sq_sqrt (by positivity)
  have hlin : HasDerivAt (fun t : ℝ => n * t) n t := by simpa using (hasDerivAt_id t).const_mul n
  have hs := hlin.sin
  have hc := hlin.cos
  have hnorm : npNorm (![r * Real.cos (n * t), r * Real.sin (n * t), 0] : V3) = r := by
    have h1 := npNorm3_sq (![r * Real.cos (n * t), r * Real.sin (n * t), 0] : V3)
    simp only [Matrix.cons_val_zero, Matrix.cons_val_one, cons3_2] at h1
    have h2 : npNorm (![r * Real.cos (n * t), r * Real.sin (n * t), 0] : V3) ^ 2 = r ^ 2 := by
      rw [h1]; linear_combination r ^ 2 * Real.sin_sq_add_cos_sq (n * t)
    exact (sq_eq_sq₀ (npNorm_nonneg _) hr.le).1 h2
  refine ⟨?_, ![-(r * n ^ 2 * Real.cos (n * t)), -(r * n ^ 2 * Real.sin (n * t)), 0], ?_, ?_⟩
  · rw [hasDerivAt_pi]
    intro i
    fin_cases i
    · refine (hc.const_mul r).congr_deriv ?_
      simp; ring
    · refine (hs.const_mul r).congr_deriv ?_
      simp; ring
    · exact hasDerivAt_const t 0
  · rw [hnorm]
    simp only [Plain.gravityAccel, npDiv, npVDiv, if_neg hr.ne', if_neg (pow_pos hr 2).ne', Bool.false_eq_true,
      if_false, Except.ok.injEq, hn2, mu_eq]
    apply vec3_ext <;>
    · simp
      try field_simp
  · rw [hasDerivAt_pi]
    intro i
    fin_cases i
    · refine ((hs.const_mul (r * n)).fun_neg).congr_deriv ?_
      simp; ring
    · refine (hc.const_mul (r * n)).congr_deriv ?_
      simp; ring
    · exact hasDerivAt_const t 0

example : ∃ x v : ℝ → V3, Spec.Orbit false x v (-10000) 10000 ∧ x 0 = ![6778137, 0, 0] ∧
    Spec.energy Spec.mu (x 0) (v 0) < 0 := by
  refine ⟨_, _, C141_circular (r := 6778137) (by norm_num) _ _, by simp, ?_⟩
  have hμ : 0 < Spec.mu := mu_eq ▸ MU_pos
  have hnorm : npNorm (![6778137, 0, 0] : V3) = 6778137 := by
    rw [npNorm, Fin.sum_univ_three]; simp
  have h2 := Real.sq_sqrt (show (0 : ℝ) ≤ Spec.mu / 6778137 ^ 3 by positivity)
  simp only [Spec.energy, Matrix.vec3_dotProduct, mul_zero, Real.sin_zero, Real.cos_zero, mul_one, hnorm,
    Matrix.cons_val_zero, Matrix.cons_val_one, cons3_2]
  generalize Real.sqrt (Spec.mu / 6778137 ^ 3) = n at *
  have : (6778137 : ℝ) ^ 2 * n ^ 2 = Spec.mu / 6778137 := by rw [h2]; field_simp
  nlinarith [div_pos hμ (show (0 : ℝ) < 6778137 by norm_num)]

theorem contDiffAt_npNorm {k : ℕ} (m : WithTop ℕ∞) {x0 : Fin k → ℝ} (h0 : x0 ≠ 0) :
    ContDiffAt ℝ m (fun x : Fin k → ℝ => npNorm x) x0 := by
  unfold npNorm
  refine ContDiffAt.sqrt (by fun_prop) ?_
  have := pow_pos (npNorm_pos h0) 2
  rw [npNorm_sq] at this
  exact this.ne'

/-- The equations of motion are analytic away from the centre, so they have solutions. -/
theorem gravity_contDiff (hiFi : Bool) (m : WithTop ℕ∞) : ∃ g : V3 → V3, ∀ x0, x0 ≠ 0 → ContDiffAt ℝ m g x0 ∧
    Plain.gravityAccel hiFi x0 (npNorm x0) = .ok (g x0) := by
  cases hiFi with
  | false =>
    refine ⟨fun x i => -(Plain.MU / npNorm x ^ 2) * x i / npNorm x, fun x0 h0 => ⟨?_, ?_⟩⟩
    · have hr0 := npNorm_pos h0
      have hn := contDiffAt_npNorm m h0
      have hc : ∀ i : Fin 3, ContDiffAt ℝ m (fun x : V3 => x i) x0 := fun i => (contDiff_apply ℝ ℝ i).contDiffAt
      have hμ : ContDiffAt ℝ m (fun x : V3 => Plain.MU / npNorm x ^ 2) x0 :=
        contDiffAt_const.div (hn.pow 2) (pow_pos hr0 2).ne'
      exact contDiffAt_pi.2 fun i => (hμ.neg.mul (hc i)).div hn hr0.ne'
    · have hr := npNorm_pos h0
      simp only [Plain.gravityAccel, npDiv, npVDiv, if_neg hr.ne', if_neg (pow_pos hr 2).ne', Bool.false_eq_true,
        if_false]
      rfl
  | true =>
    refine ⟨fun x => codeField x, fun x0 hx0 => ⟨?_, ?_⟩⟩
    · have hr0 := npNorm_pos hx0
      have hn := contDiffAt_npNorm m hx0
      have hc : ∀ i : Fin 3, ContDiffAt ℝ m (fun x : V3 => x i) x0 := fun i => (contDiff_apply ℝ ℝ i).contDiffAt
      have hd : ∀ i : Fin 3, ContDiffAt ℝ m (fun x : V3 => x i / npNorm x) x0 := fun i => (hc i).div hn hr0.ne'
      have hμ : ContDiffAt ℝ m (fun x : V3 => Plain.MU / npNorm x ^ 2) x0 :=
        contDiffAt_const.div (hn.pow 2) (pow_pos hr0 2).ne'
      have hre : ContDiffAt ℝ m (fun x : V3 => Plain.earthRad / npNorm x) x0 := contDiffAt_const.div hn hr0.ne'
      have h0 := hd 0
      have h1 := hd 1
      have h2 := hd 2
      have e : (fun x => codeField x) =ᶠ[nhds x0] fun x => trueField x
          - (Plain.MU / npNorm x ^ 2 * signError x) • ![x 0 / npNorm x, x 1 / npNorm x, 0] :=
        Filter.Eventually.mono (isOpen_ne.mem_nhds hx0 : ∀ᶠ x in nhds x0, x ≠ 0) fun x hx => codeField_eq hx
      refine ContDiffAt.congr_of_eventuallyEq ?_ e
      refine contDiffAt_pi.2 fun i => ?_
      fin_cases i
      all_goals
        simp only [trueField, geoGradient, signError, Fin.zero_eta, Fin.mk_one, Fin.reduceFinMk, Pi.sub_apply,
          Pi.smul_apply, smul_eq_mul, Matrix.cons_val_zero, Matrix.cons_val_one, cons3_2]
        fun_prop
    · obtain ⟨a, ha, -⟩ := code_eq hx0
      simp only [codeField, ha]

/-- From every position outside of the centre and every velocity there is such a motion, in either field. -/
theorem C141_exists (hiFi : Bool) {x0 : V3} (h0 : x0 ≠ 0) (v0 : V3) :
    ∃ (x v : ℝ → V3) (ε : ℝ), 0 < ε ∧ x 0 = x0 ∧ v 0 = v0 ∧ Spec.Orbit hiFi x v (-ε) ε := by
  obtain ⟨g, hga⟩ := gravity_contDiff hiFi 1
  have hg := (hga x0 h0).1
  have hF : ContDiffAt ℝ 1 (fun p : V3 × V3 => (p.2, g p.1)) (x0, v0) :=
    contDiffAt_snd.prodMk (ContDiffAt.comp (x0, v0) hg contDiffAt_fst)
  obtain ⟨y, hy0, ε, hε, hy⟩ := hF.exists_forall_mem_closedBall_exists_eq_forall_mem_Ioo_hasDerivAt₀ 0
  have hne : ∀ᶠ t in nhds (0 : ℝ), (y t).1 ≠ 0 := by
    have h1 : ContinuousAt y 0 := (hy 0 ⟨by linarith, by linarith⟩).continuousAt
    exact h1.fst.eventually (isOpen_ne.mem_nhds (by simp only [hy0]; exact h0))
  obtain ⟨r, hr, hball⟩ := Metric.eventually_nhds_iff.1 hne
  refine ⟨fun t => (y t).1, fun t => (y t).2, min ε r, lt_min hε hr, by simp [hy0], by simp [hy0], ?_⟩
  rintro t ⟨ht1, ht2⟩
  have hd := hy t ⟨by have := min_le_left ε r; linarith, by have := min_le_left ε r; linarith⟩
  have hx : (y t).1 ≠ 0 := hball (by
    rw [Real.dist_eq, sub_zero, abs_lt]
    exact ⟨by have := min_le_right ε r; linarith, by have := min_le_right ε r; linarith⟩)
  exact ⟨hd.fst, g (y t).1, (hga _ hx).2, hd.snd⟩

/-- Outside of a sphere inside the Earth, motions of points are motions of states, whatever the clocks. -/
theorem Spec.Orbit.states {n : ℕ} {hiFi : Bool} {x v : ℝ → V3} {lo hi : ℝ} (h : Spec.Orbit hiFi x v lo hi)
    (hr : ∀ t ∈ Set.Ioo lo hi, 6.3e6 ≤ npNorm (x t)) (c : ℝ → JClock) (raw0 : Raw n) :
    Spec.StateOrbit hiFi (fun t => { raw0 with pos := x t, vel := v t }) lo hi := by
  intro t ht
  obtain ⟨h1, a, ha, h2⟩ := h t ht
  obtain ⟨s, hs, -⟩ := C127_new { raw0 with pos := x t, vel := v t } (c t) (hr t ht)
  refine ⟨h1, c t, s, a, hs, ?_, h2⟩
  obtain ⟨c', lat, long, hh, hc, hl, rfl⟩ := mkState_ok.1 hs
  exact ha

/-- States of the library on the circular orbit at 400 km: a case of `C141_states`. -/
example (c : ℝ → JClock) (raw0 : Raw 4) : ∃ raw : ℝ → Raw 4, Spec.StateOrbit false raw (-10000) 10000 := by
  refine ⟨_, (C141_circular (r := 6778137) (by norm_num) (-10000) 10000).states (fun t _ => ?_) c raw0⟩
  generalize Real.sqrt (Spec.mu / 6778137 ^ 3) * t = θ
  have h3 := npNorm3_sq (![6778137 * Real.cos θ, 6778137 * Real.sin θ, 0] : V3)
  simp only [Matrix.cons_val_zero, Matrix.cons_val_one, cons3_2] at h3
  have h4 : npNorm (![6778137 * Real.cos θ, 6778137 * Real.sin θ, 0] : V3) ^ 2 = 6778137 ^ 2 := by
    rw [h3]; linear_combination 6778137 ^ 2 * Real.sin_sq_add_cos_sq θ
  rw [(sq_eq_sq₀ (npNorm_nonneg _) (by norm_num)).1 h4]; norm_num

end Adcs
