import Verif.Props.ZonalOrbit
import Mathlib.Analysis.SpecialFunctions.Integrals.Basic
import Mathlib.Analysis.SpecialFunctions.Trigonometric.ArctanDeriv

set_option autoImplicit false

/-! # C191: the high-fidelity field turns the planes of orbits -/

namespace Adcs

open Env Dyn JDay

/-- Specification: `Ω` is the right ascension of the ascending node. The line of nodes is normal to the angular
momentum and in the equatorial plane. -/
def Spec.NodeAt (x v : V3) (Ω : ℝ) : Prop := ∃ ρ : ℝ, 0 < ρ ∧
  Spec.orbitMomentum x v 0 = ρ * Real.sin Ω ∧ Spec.orbitMomentum x v 1 = -ρ * Real.cos Ω

/-- The part of the field that does not point to the centre. -/
noncomputable def zonalTilt (r z : ℝ) : ℝ :=
  let u := z / r
  let k := Plain.earthRad / r
  3 * Plain.J2 * k ^ 2 * u + 1 / 2 * Plain.J3 * k ^ 3 * (45 * u ^ 2 - 70 * u ^ 4 - 3)
    + 5 / 8 * Plain.J4 * k ^ 4 * u * (-18 + 112 * u ^ 2 - 126 * u ^ 4)

theorem zonal_tilt {r : ℝ} (hr : 0 < r) (z : ℝ) :
    zonalAlong r z - zonalAcross r z * z = -(Plain.MU / r ^ 2) * zonalTilt r z := by
  simp only [zonalAlong, zonalAcross, zonalTilt]
  field_simp
  ring

theorem momentum_rate {x v : ℝ → V3} {lo hi t : ℝ} (hO : Spec.Orbit true x v lo hi) (ht : t ∈ Set.Ioo lo hi) :
    HasDerivAt (fun t => Spec.orbitMomentum (x t) (v t) 0)
      (-(Plain.MU / npNorm (x t) ^ 2) * zonalTilt (npNorm (x t)) (x t 2) * x t 1) t ∧
    HasDerivAt (fun t => Spec.orbitMomentum (x t) (v t) 1)
      (Plain.MU / npNorm (x t) ^ 2 * zonalTilt (npNorm (x t)) (x t 2) * x t 0) t := by
  obtain ⟨h1, a, ha, h2⟩ := hO t ht
  have hne := gravity_ok ha
  have hr := npNorm_pos hne
  rw [zonal_form hne, Except.ok.injEq] at ha
  have e := zonal_tilt hr (x t 2)
  have hx := hasDerivAt_pi.1 h1
  have hv := hasDerivAt_pi.1 h2
  simp only [Spec.orbitMomentum, Matrix.cons_val_zero, Matrix.cons_val_one]
  constructor
  · refine (((hx 1).mul (hv 2)).sub ((hx 2).mul (hv 1))).congr_deriv ?_
    rw [← e, ← ha]
    simp only [Matrix.cons_val_one, cons3_2, Matrix.cons_val_zero]
    ring
  · refine (((hx 2).mul (hv 0)).sub ((hx 0).mul (hv 2))).congr_deriv ?_
    rw [← ha, show Plain.MU / npNorm (x t) ^ 2 * zonalTilt (npNorm (x t)) (x t 2) * x t 0 =
      -(-(Plain.MU / npNorm (x t) ^ 2) * zonalTilt (npNorm (x t)) (x t 2)) * x t 0 by ring, ← e]
    simp only [Matrix.cons_val_one, cons3_2, Matrix.cons_val_zero]
    ring

/-- The rate of the node. -/
theorem node_rate {x v : ℝ → V3} {lo hi t : ℝ} (hO : Spec.Orbit true x v lo hi) (ht : t ∈ Set.Ioo lo hi) {Ω : ℝ → ℝ}
    (hΩ : ∀ s ∈ Set.Ioo lo hi, Spec.NodeAt (x s) (v s) (Ω s)) {ω : ℝ} (hω : HasDerivAt Ω ω t) :
    ω * (Spec.orbitMomentum (x t) (v t) 0 ^ 2 + Spec.orbitMomentum (x t) (v t) 1 ^ 2) =
      -(Plain.MU / npNorm (x t) ^ 2) * (zonalTilt (npNorm (x t)) (x t 2) * x t 2) *
        Spec.orbitMomentum (x t) (v t) 2 := by
  obtain ⟨d0, d1⟩ := momentum_rate hO ht
  have hz : HasDerivAt (fun t => Spec.orbitMomentum (x t) (v t) 0 * Real.cos (Ω t)
      + Spec.orbitMomentum (x t) (v t) 1 * Real.sin (Ω t)) 0 t :=
    (hasDerivAt_const t (0 : ℝ)).congr_of_eventuallyEq
      (Filter.mem_of_superset (isOpen_Ioo.mem_nhds ht) fun s hs => by
        obtain ⟨ρ, hρ, e0, e1⟩ := hΩ s hs
        simp only [Set.mem_setOf_eq, e0, e1]
        ring)
  have h := ((d0.mul hω.cos).add (d1.mul hω.sin)).unique hz
  have ho := (momentum_orthogonal (x t) (v t)).1
  rw [Matrix.vec3_dotProduct] at ho
  obtain ⟨ρ, hρ, e0, e1⟩ := hΩ t ht
  have hsc := Real.sin_sq_add_cos_sq (Ω t)
  generalize Spec.orbitMomentum (x t) (v t) 0 = a at *
  generalize Spec.orbitMomentum (x t) (v t) 1 = b at *
  generalize Spec.orbitMomentum (x t) (v t) 2 = c at *
  generalize Plain.MU / npNorm (x t) ^ 2 = M at *
  generalize zonalTilt (npNorm (x t)) (x t 2) = T at *
  linear_combination (-ρ) * h - (-a * ω + M * T * x t 0) * e0 + (-M * T * x t 1 + b * ω) * e1 + M * T * ho

theorem tilt_pos {r z : ℝ} (hr : 6.378137e6 ≤ r) (hz : 0.002 * r ≤ |z|) (hz1 : |z| ≤ r) : 0 < zonalTilt r z * z := by
  have hr0 : 0 < r := lt_of_lt_of_le (by norm_num) hr
  have hk : Plain.earthRad / r ≤ 1 := by rw [div_le_one hr0]; exact hr
  have hk0 : 0 < Plain.earthRad / r := div_pos (by norm_num [Plain.earthRad]) hr0
  have hu0 : 0.002 ≤ |z / r| := by rw [abs_div, abs_of_pos hr0, le_div_iff₀ hr0]; exact hz
  have hu1 : |z / r| ≤ 1 := by rw [abs_div, abs_of_pos hr0, div_le_one hr0]; exact hz1
  have ez : zonalTilt r z * z = zonalTilt r z * (z / r) * r := by field_simp
  rw [ez]
  refine mul_pos ?_ hr0
  simp only [zonalTilt]
  generalize z / r = u at *
  generalize Plain.earthRad / r = k at *
  have hw0 : 0.000004 ≤ u ^ 2 := by
    have := mul_self_le_mul_self (by norm_num) hu0
    rw [← sq, ← sq, sq_abs] at this
    norm_num at this ⊢
    linarith
  have hw1 : u ^ 2 ≤ 1 := by
    rw [← sq_abs]; exact pow_le_one₀ (abs_nonneg u) hu1
  have hau : |u| ≤ 500 * u ^ 2 := by
    rw [← sq_abs]; nlinarith
  have hk3 : k ^ 3 ≤ k ^ 2 := pow_le_pow_of_le_one hk0.le hk (by norm_num)
  have hk4 : k ^ 4 ≤ k ^ 2 := pow_le_pow_of_le_one hk0.le hk (by norm_num)
  have hk2 : 0 < k ^ 2 := by positivity
  -- the third and fourth terms
  have c3 : |(45 * u ^ 2 - 70 * u ^ 4 - 3) * u| ≤ 1615 * u ^ 2 := by
    have h1 : |45 * u ^ 2 - 70 * u ^ 4 - 3| ≤ 3 + 115 * u ^ 2 := by
      have : u ^ 4 = u ^ 2 * u ^ 2 := by ring
      rw [this, abs_le]; constructor <;> nlinarith [sq_nonneg u]
    rw [abs_mul]
    calc |45 * u ^ 2 - 70 * u ^ 4 - 3| * |u| ≤ (3 + 115 * u ^ 2) * |u| := by gcongr
      _ = 3 * |u| + 115 * u ^ 2 * |u| := by ring
      _ ≤ 3 * (500 * u ^ 2) + 115 * u ^ 2 * 1 := by gcongr
      _ = 1615 * u ^ 2 := by ring
  have c4 : |u * (-18 + 112 * u ^ 2 - 126 * u ^ 4) * u| ≤ 256 * u ^ 2 := by
    have h1 : |-18 + 112 * u ^ 2 - 126 * u ^ 4| ≤ 256 := by
      have : u ^ 4 = u ^ 2 * u ^ 2 := by ring
      rw [this, abs_le]; constructor <;> nlinarith [sq_nonneg u]
    rw [show u * (-18 + 112 * u ^ 2 - 126 * u ^ 4) * u = (-18 + 112 * u ^ 2 - 126 * u ^ 4) * u ^ 2 by ring, abs_mul,
      abs_of_nonneg (sq_nonneg u)]
    gcongr
  have d3 : |1 / 2 * Plain.J3 * k ^ 3 * (45 * u ^ 2 - 70 * u ^ 4 - 3) * u| ≤ 1.27e-6 * k ^ 2 * (1615 * u ^ 2) := by
    rw [show 1 / 2 * Plain.J3 * k ^ 3 * (45 * u ^ 2 - 70 * u ^ 4 - 3) * u =
      (1 / 2 * Plain.J3) * k ^ 3 * ((45 * u ^ 2 - 70 * u ^ 4 - 3) * u) by ring, abs_mul, abs_mul,
      abs_of_pos (pow_pos hk0 3)]
    have : |1 / 2 * Plain.J3| ≤ 1.27e-6 := by rw [Plain.J3, abs_le]; constructor <;> norm_num
    gcongr
  have d4 : |5 / 8 * Plain.J4 * k ^ 4 * u * (-18 + 112 * u ^ 2 - 126 * u ^ 4) * u| ≤
      1.02e-6 * k ^ 2 * (256 * u ^ 2) := by
    rw [show 5 / 8 * Plain.J4 * k ^ 4 * u * (-18 + 112 * u ^ 2 - 126 * u ^ 4) * u =
      (5 / 8 * Plain.J4) * k ^ 4 * (u * (-18 + 112 * u ^ 2 - 126 * u ^ 4) * u) by ring, abs_mul, abs_mul,
      abs_of_pos (pow_pos hk0 4)]
    have : |5 / 8 * Plain.J4| ≤ 1.02e-6 := by rw [Plain.J4, abs_le]; constructor <;> norm_num
    gcongr
  have hu2 : 0 < u ^ 2 := lt_of_lt_of_le (by norm_num) hw0
  have hp := mul_pos hk2 hu2
  have hJ : (3.2e-3 : ℝ) ≤ 3 * Plain.J2 := by rw [Plain.J2]; norm_num
  have e2 : (3.2e-3 : ℝ) * (k ^ 2 * u ^ 2) ≤ 3 * Plain.J2 * (k ^ 2 * u ^ 2) := by gcongr
  have b3 := (abs_le.1 d3).1
  have b4 := (abs_le.1 d4).1
  have e : (3 * Plain.J2 * k ^ 2 * u + 1 / 2 * Plain.J3 * k ^ 3 * (45 * u ^ 2 - 70 * u ^ 4 - 3)
    + 5 / 8 * Plain.J4 * k ^ 4 * u * (-18 + 112 * u ^ 2 - 126 * u ^ 4)) * u = 3 * Plain.J2 * (k ^ 2 * u ^ 2)
    + 1 / 2 * Plain.J3 * k ^ 3 * (45 * u ^ 2 - 70 * u ^ 4 - 3) * u
    + 5 / 8 * Plain.J4 * k ^ 4 * u * (-18 + 112 * u ^ 2 - 126 * u ^ 4) * u := by ring
  rw [e]
  norm_num at b3 b4 e2 ⊢
  nlinarith

/-- C191: outside of the Earth and of 0.002 of the distance from the plane of the equator, the node of an orbit moves
westwards if the satellite goes round with the Earth, eastwards if it goes round against it, and not at all if it flies
over the poles. -/
theorem C191_west {x v : ℝ → V3} {lo hi t : ℝ} (hO : Spec.Orbit true x v lo hi) (ht : t ∈ Set.Ioo lo hi) {Ω : ℝ → ℝ}
    (hΩ : ∀ s ∈ Set.Ioo lo hi, Spec.NodeAt (x s) (v s) (Ω s)) {ω : ℝ} (hω : HasDerivAt Ω ω t)
    (hr : 6.378137e6 ≤ npNorm (x t)) (hz : 0.002 * npNorm (x t) ≤ |x t 2|) :
    (ω < 0 ↔ 0 < Spec.orbitMomentum (x t) (v t) 2) ∧ (0 < ω ↔ Spec.orbitMomentum (x t) (v t) 2 < 0) ∧
    (ω = 0 ↔ Spec.orbitMomentum (x t) (v t) 2 = 0) := by
  have h := node_rate hO ht hΩ hω
  have hr0 : 0 < npNorm (x t) := lt_of_lt_of_le (by norm_num) hr
  have hz1 : |x t 2| ≤ npNorm (x t) := by
    refine abs_le_of_sq_le_sq ?_ hr0.le
    rw [npNorm3_sq]; nlinarith [sq_nonneg (x t 0), sq_nonneg (x t 1)]
  have hT := tilt_pos hr hz hz1
  have hN : 0 < Spec.orbitMomentum (x t) (v t) 0 ^ 2 + Spec.orbitMomentum (x t) (v t) 1 ^ 2 := by
    obtain ⟨ρ, hρ, e0, e1⟩ := hΩ t ht
    rw [e0, e1]
    have := Real.sin_sq_add_cos_sq (Ω t)
    nlinarith [pow_pos hρ 2]
  have hc : 0 < Plain.MU / npNorm (x t) ^ 2 * (zonalTilt (npNorm (x t)) (x t 2) * x t 2) :=
    mul_pos (div_pos MU_pos (pow_pos hr0 2)) hT
  have h' : ω * (Spec.orbitMomentum (x t) (v t) 0 ^ 2 + Spec.orbitMomentum (x t) (v t) 1 ^ 2) =
      -(Plain.MU / npNorm (x t) ^ 2 * (zonalTilt (npNorm (x t)) (x t 2) * x t 2)) *
        Spec.orbitMomentum (x t) (v t) 2 := by rw [h]; ring
  generalize Spec.orbitMomentum (x t) (v t) 0 ^ 2 + Spec.orbitMomentum (x t) (v t) 1 ^ 2 = N at *
  generalize Plain.MU / npNorm (x t) ^ 2 * (zonalTilt (npNorm (x t)) (x t 2) * x t 2) = C at *
  generalize Spec.orbitMomentum (x t) (v t) 2 = L at *
  have i1 : ω < 0 → 0 < L := fun h1 => by
    by_contra hn
    push Not at hn
    nlinarith [mul_neg_of_neg_of_pos h1 hN, mul_nonneg hc.le (neg_nonneg.2 hn)]
  have i2 : 0 < ω → L < 0 := fun h1 => by
    by_contra hn
    push Not at hn
    nlinarith [mul_pos h1 hN, mul_nonneg hc.le hn]
  have i3 : ω = 0 → L = 0 := fun h1 => by
    rw [h1, zero_mul, eq_comm, mul_eq_zero] at h'
    rcases h' with h' | h'
    · linarith
    · exact h'
  rcases lt_trichotomy ω 0 with h1 | h1 | h1
  · have := i1 h1
    exact ⟨by simp [h1, this], by constructor <;> intro <;> linarith, by constructor <;> intro <;> linarith⟩
  · have := i3 h1
    simp [h1, this]
  · have := i2 h1
    exact ⟨by constructor <;> intro <;> linarith, by simp [h1, this], by constructor <;> intro <;> linarith⟩

/-- Specification: how fast the node of the orbit through `x` with the velocity `v` moves if the acceleration is `a`:
the line of nodes is `(-h₁, h₀)` for the angular momentum `h`, which changes by `x × a`. -/
noncomputable def Spec.nodeRate (x v a : V3) : ℝ :=
  (Spec.orbitMomentum x v 0 * Spec.orbitMomentum x a 1 - Spec.orbitMomentum x v 1 * Spec.orbitMomentum x a 0) /
    (Spec.orbitMomentum x v 0 ^ 2 + Spec.orbitMomentum x v 1 ^ 2)

/-- C191: this is how fast the node of a motion moves. -/
theorem C191_rate {x v : ℝ → V3} {lo hi t : ℝ} (hO : Spec.Orbit true x v lo hi) (ht : t ∈ Set.Ioo lo hi) {Ω : ℝ → ℝ}
    (hΩ : ∀ s ∈ Set.Ioo lo hi, Spec.NodeAt (x s) (v s) (Ω s)) {ω : ℝ} (hω : HasDerivAt Ω ω t) : ∃ a,
    Plain.gravityAccel true (x t) (npNorm (x t)) = .ok a ∧ ω = Spec.nodeRate (x t) (v t) a := by
  have h := node_rate hO ht hΩ hω
  obtain ⟨-, a, ha, -⟩ := hO t ht
  have hne := gravity_ok ha
  refine ⟨a, ha, ?_⟩
  have hN : 0 < Spec.orbitMomentum (x t) (v t) 0 ^ 2 + Spec.orbitMomentum (x t) (v t) 1 ^ 2 := by
    obtain ⟨ρ, hρ, e0, e1⟩ := hΩ t ht
    rw [e0, e1]
    have := Real.sin_sq_add_cos_sq (Ω t)
    nlinarith [pow_pos hρ 2]
  rw [Spec.nodeRate, eq_div_iff hN.ne', h]
  have ho := (momentum_orthogonal (x t) (v t)).1
  rw [Matrix.vec3_dotProduct] at ho
  rw [zonal_form hne, Except.ok.injEq] at ha
  have e := zonal_tilt (npNorm_pos hne) (x t 2)
  have e1 : Spec.orbitMomentum (x t) a 1 = Plain.MU / npNorm (x t) ^ 2 * zonalTilt (npNorm (x t)) (x t 2) * x t 0 := by
    rw [← ha]
    simp only [Spec.orbitMomentum, Matrix.cons_val_zero, Matrix.cons_val_one, cons3_2]
    linear_combination (-x t 0) * e
  have e0 : Spec.orbitMomentum (x t) a 0 = -(Plain.MU / npNorm (x t) ^ 2 * zonalTilt (npNorm (x t)) (x t 2) * x t 1) := by
    rw [← ha]
    simp only [Spec.orbitMomentum, Matrix.cons_val_zero, Matrix.cons_val_one, cons3_2]
    linear_combination (x t 1) * e
  rw [e0, e1]
  linear_combination (-(Plain.MU / npNorm (x t) ^ 2 * zonalTilt (npNorm (x t)) (x t 2))) * ho

/-- A satellite that goes round with the Earth, 690 km above the middle latitudes, with its node. -/
example : ∃ (x v : ℝ → V3) (ε : ℝ) (Ω : ℝ → ℝ), 0 < ε ∧ Spec.Orbit true x v (-ε) ε ∧
    (∀ s ∈ Set.Ioo (-ε) ε, Spec.NodeAt (x s) (v s) (Ω s)) ∧ (∃ ω, HasDerivAt Ω ω 0) ∧
    6.378137e6 ≤ npNorm (x 0) ∧ 0.002 * npNorm (x 0) ≤ |x 0 2| ∧ 0 < Spec.orbitMomentum (x 0) (v 0) 2 := by
  obtain ⟨x, v, ε, hε, hx, hv, hO⟩ := C141_exists true (x0 := ![5000000, 0, 5000000])
    (fun h => by simpa using congrFun h 0) ![-3000, 5000, 3000]
  have h00 : (0 : ℝ) ∈ Set.Ioo (-ε) ε := ⟨by linarith, hε⟩
  have h1 : Spec.orbitMomentum (x 0) (v 0) 1 < 0 := by
    rw [hx, hv]
    simp only [Spec.orbitMomentum, Matrix.cons_val_zero, Matrix.cons_val_one, cons3_2]
    norm_num
  obtain ⟨d0, d1⟩ := momentum_rate hO h00
  obtain ⟨δ, hδ, hball⟩ := Metric.eventually_nhds_iff.1 (d1.continuousAt.eventually_lt_const h1)
  have hn : npNorm (x 0) ^ 2 = 50000000000000 := by
    rw [hx, npNorm3_sq]
    simp only [Matrix.cons_val_zero, Matrix.cons_val_one, cons3_2]
    norm_num
  have hn0 := npNorm_nonneg (x 0)
  refine ⟨x, v, min ε δ, fun s => Real.arctan (Spec.orbitMomentum (x s) (v s) 0 / -Spec.orbitMomentum (x s) (v s) 1),
    lt_min hε hδ, fun t ht => hO t ⟨by linarith [ht.1, min_le_left ε δ], by linarith [ht.2, min_le_left ε δ]⟩,
    fun s hs => ?_, ⟨_, (d0.fun_div d1.fun_neg (by simpa using h1.ne)).arctan⟩, ?_, ?_, ?_⟩
  · have hb := hball (y := s) (by
      rw [Real.dist_eq, sub_zero, abs_lt]
      exact ⟨by linarith [hs.1, min_le_right ε δ], by linarith [hs.2, min_le_right ε δ]⟩)
    unfold Spec.NodeAt
    simp only []
    generalize Spec.orbitMomentum (x s) (v s) = h at *
    have hb' : 0 < -h 1 := by linarith
    have hq : 0 < Real.sqrt (1 + (h 0 / -h 1) ^ 2) := Real.sqrt_pos.2 (by positivity)
    refine ⟨-h 1 * Real.sqrt (1 + (h 0 / -h 1) ^ 2), mul_pos hb' hq, ?_, ?_⟩
    · rw [Real.sin_arctan]
      generalize Real.sqrt (1 + (h 0 / -h 1) ^ 2) = q at *
      have := hb.ne
      field_simp
    · rw [Real.cos_arctan]
      generalize Real.sqrt (1 + (h 0 / -h 1) ^ 2) = q at *
      field_simp
  · exact le_of_sq_le_sq (by rw [hn]; norm_num) hn0
  · have : npNorm (x 0) ≤ 8000000 := le_of_sq_le_sq (by rw [hn]; norm_num) (by norm_num)
    rw [hx] at this ⊢
    simp only [cons3_2]
    rw [abs_of_pos (by norm_num)]
    linarith
  · rw [hx, hv]
    simp only [Spec.orbitMomentum, Matrix.cons_val_zero, Matrix.cons_val_one, cons3_2]
    norm_num

/-- Specification: a circular orbit of radius `r` and inclination `i`, at the angle `θ` from the node. -/
noncomputable def Spec.tilted (r i θ : ℝ) : V3 :=
  ![r * Real.cos θ, r * (Real.sin θ * Real.cos i), r * (Real.sin θ * Real.sin i)]
noncomputable def Spec.tiltedVel (r i θ : ℝ) : V3 :=
  let n := Real.sqrt (Spec.mu / r ^ 3)
  ![-(n * r * Real.sin θ), n * r * (Real.cos θ * Real.cos i), n * r * (Real.cos θ * Real.sin i)]

theorem tilted_norm {r : ℝ} (hr : 0 < r) (i θ : ℝ) : npNorm (Spec.tilted r i θ) = r := by
  refine (sq_eq_sq₀ (npNorm_nonneg _) hr.le).1 ?_
  rw [npNorm3_sq]
  simp only [Spec.tilted, Matrix.cons_val_zero, Matrix.cons_val_one, cons3_2]
  linear_combination r ^ 2 * Real.sin_sq_add_cos_sq θ + r ^ 2 * Real.sin θ ^ 2 * Real.sin_sq_add_cos_sq i

theorem tilted_rate {r i : ℝ} (hr : 0 < r) (hi : Real.sin i ≠ 0) (θ : ℝ) : ∃ a,
    Plain.gravityAccel true (Spec.tilted r i θ) (npNorm (Spec.tilted r i θ)) = .ok a ∧
    Spec.nodeRate (Spec.tilted r i θ) (Spec.tiltedVel r i θ) a =
      -(Real.sqrt (Spec.mu / r ^ 3) * Real.cos i) * (zonalTilt r (r * (Real.sin θ * Real.sin i)) * Real.sin θ /
        Real.sin i) := by
  have hn := tilted_norm hr i θ
  have hne : Spec.tilted r i θ ≠ 0 := by
    intro e
    rw [e, npNorm_eq_zero.2 rfl] at hn
    linarith
  refine ⟨_, zonal_form hne, ?_⟩
  have hμ : 0 < Spec.mu := mu_eq ▸ MU_pos
  have hn2 : Real.sqrt (Spec.mu / r ^ 3) ^ 2 * r ^ 3 = Spec.mu := by
    rw [Real.sq_sqrt (by positivity)]; field_simp
  have hn0 : 0 < Real.sqrt (Spec.mu / r ^ 3) := Real.sqrt_pos.2 (by positivity)
  have ht := zonal_tilt hr (r * (Real.sin θ * Real.sin i))
  rw [mu_eq, ← hn2] at ht
  have e2 : Spec.tilted r i θ 2 = r * (Real.sin θ * Real.sin i) := by simp [Spec.tilted]
  rw [hn, e2]
  generalize zonalAcross r (r * (Real.sin θ * Real.sin i)) = K at *
  generalize zonalAlong r (r * (Real.sin θ * Real.sin i)) = Z at *
  generalize zonalTilt r (r * (Real.sin θ * Real.sin i)) = T at *
  have eZ : Z = K * (r * (Real.sin θ * Real.sin i)) - Real.sqrt (Spec.mu / r ^ 3) ^ 2 * r * T := by
    have : Real.sqrt (Spec.mu / r ^ 3) ^ 2 * r ^ 3 / r ^ 2 = Real.sqrt (Spec.mu / r ^ 3) ^ 2 * r := by field_simp
    rw [this] at ht
    linarith
  subst eZ
  have h0 : Spec.orbitMomentum (Spec.tilted r i θ) (Spec.tiltedVel r i θ) 0 = 0 := by
    simp only [Spec.orbitMomentum, Spec.tilted, Spec.tiltedVel, Matrix.cons_val_zero, Matrix.cons_val_one, cons3_2]
    ring
  have h1 : Spec.orbitMomentum (Spec.tilted r i θ) (Spec.tiltedVel r i θ) 1 =
      -(Real.sqrt (Spec.mu / r ^ 3) * r ^ 2 * Real.sin i) := by
    simp only [Spec.orbitMomentum, Spec.tilted, Spec.tiltedVel, Matrix.cons_val_zero, Matrix.cons_val_one, cons3_2]
    linear_combination (-Real.sqrt (Spec.mu / r ^ 3) * r ^ 2 * Real.sin i) * Real.sin_sq_add_cos_sq θ
  rw [Spec.nodeRate, h0, h1]
  simp only [Spec.orbitMomentum, Spec.tilted, Matrix.cons_val_zero, Matrix.cons_val_one, cons3_2]
  field_simp
  ring

theorem integral_sin_turn (k : ℕ) : (∫ θ in (0 : ℝ)..2 * Real.pi, Real.sin θ ^ (k + 2)) =
    (k + 1) / (k + 2) * ∫ θ in (0 : ℝ)..2 * Real.pi, Real.sin θ ^ k := by
  rw [integral_sin_pow]
  simp

theorem integral_sin_poly (c : ℕ → ℝ) (m : ℕ) :
    (∫ θ in (0 : ℝ)..2 * Real.pi, ∑ j ∈ Finset.range m, c j * Real.sin θ ^ j) =
      ∑ j ∈ Finset.range m, c j * ∫ θ in (0 : ℝ)..2 * Real.pi, Real.sin θ ^ j := by
  rw [intervalIntegral.integral_finsetSum]
  · exact Finset.sum_congr rfl fun j _ => intervalIntegral.integral_const_mul _ _
  · intro j _
    exact Continuous.intervalIntegrable (by fun_prop) _ _

/-- C191: averaged over a circular orbit outside of the Earth, the field of the code moves the node by
`-3/2 J₂ (R/r)² n cos i`, where `n` is the angular rate of the satellite, up to 0.6 percent of this. -/
theorem C191_mean {r i : ℝ} (hr : 6.378137e6 ≤ r) (hi : Real.sin i ≠ 0) : ∃ a : ℝ → V3,
    (∀ θ, Plain.gravityAccel true (Spec.tilted r i θ) (npNorm (Spec.tilted r i θ)) = .ok (a θ)) ∧
    let expected := -(3 / 2 * 1.08262668355e-3 * (6.378137e6 / r) ^ 2 * Real.sqrt (Spec.mu / r ^ 3) * Real.cos i)
    |(∫ θ in (0 : ℝ)..2 * Real.pi, Spec.nodeRate (Spec.tilted r i θ) (Spec.tiltedVel r i θ) (a θ)) / (2 * Real.pi)
      - expected| ≤ 0.006 * |expected| := by
  have hr0 : 0 < r := lt_of_lt_of_le (by norm_num) hr
  choose a ha hrate using tilted_rate hr0 hi
  refine ⟨a, ha, ?_⟩
  intro expected
  set n := Real.sqrt (Spec.mu / r ^ 3) with hn
  set k := Plain.earthRad / r with hk
  have hk1 : k ≤ 1 := by rw [hk, div_le_one hr0]; exact hr
  have hk0 : 0 < k := div_pos (by norm_num [Plain.earthRad]) hr0
  set s := Real.sin i with hs
  let c : ℕ → ℝ := fun j => match j with
    | 1 => (1 / 2 * Plain.J3 * k ^ 3) * (-3 / s)
    | 2 => 3 * Plain.J2 * k ^ 2 - 45 / 4 * Plain.J4 * k ^ 4
    | 3 => (1 / 2 * Plain.J3 * k ^ 3) * (45 * s)
    | 4 => 70 * Plain.J4 * k ^ 4 * s ^ 2
    | 5 => (1 / 2 * Plain.J3 * k ^ 3) * (-70 * s ^ 3)
    | 6 => -315 / 4 * Plain.J4 * k ^ 4 * s ^ 4
    | _ => 0
  have e : ∀ θ, Spec.nodeRate (Spec.tilted r i θ) (Spec.tiltedVel r i θ) (a θ) =
      (-(n * Real.cos i)) * ∑ j ∈ Finset.range 7, c j * Real.sin θ ^ j := by
    intro θ
    have eu : r * (Real.sin θ * s) / r = Real.sin θ * s := by field_simp
    rw [hrate θ, zonalTilt]
    simp only [eu, ← hk, Finset.sum_range_succ, Finset.sum_range_zero, c]
    field_simp
    ring
  have I1 : (∫ θ in (0 : ℝ)..2 * Real.pi, Real.sin θ ^ 1) = 0 := by simp
  have I0 : (∫ θ in (0 : ℝ)..2 * Real.pi, Real.sin θ ^ 0) = 2 * Real.pi := by simp
  have I2 := integral_sin_turn 0
  have I3 := integral_sin_turn 1
  have I4 := integral_sin_turn 2
  have I5 := integral_sin_turn 3
  have I6 := integral_sin_turn 4
  norm_num only [Nat.reduceAdd] at I2 I3 I4 I5 I6
  rw [I0] at I2
  rw [I1] at I3
  rw [I2] at I4
  rw [I3] at I5
  rw [I4] at I6
  have total : (∫ θ in (0 : ℝ)..2 * Real.pi, Spec.nodeRate (Spec.tilted r i θ) (Spec.tiltedVel r i θ) (a θ)) /
      (2 * Real.pi) = -(n * Real.cos i) * (3 / 2 * Plain.J2 * k ^ 2
        + 5 / 8 * Plain.J4 * k ^ 4 * (-9 + 42 * s ^ 2 - 315 / 8 * s ^ 4)) := by
    simp only [e]
    rw [intervalIntegral.integral_const_mul, integral_sin_poly]
    simp only [Finset.sum_range_succ, Finset.sum_range_zero, c, I0, I1, I2, I3, I4, I5, I6]
    have := Real.pi_pos.ne'
    field_simp
    ring
  have hexp : expected = -(n * Real.cos i) * (3 / 2 * Plain.J2 * k ^ 2) := by
    simp only [expected, hk, Plain.J2, Plain.earthRad]
    ring
  rw [total, hexp]
  have hd : -(n * Real.cos i) * (3 / 2 * Plain.J2 * k ^ 2 + 5 / 8 * Plain.J4 * k ^ 4 * (-9 + 42 * s ^ 2 - 315 / 8 * s ^ 4))
      - -(n * Real.cos i) * (3 / 2 * Plain.J2 * k ^ 2) =
      -(n * Real.cos i) * ((5 / 8 * Plain.J4) * k ^ 4 * (-9 + 42 * s ^ 2 - 315 / 8 * s ^ 4)) := by ring
  rw [hd, abs_mul, abs_mul (-(n * Real.cos i)), mul_left_comm]
  refine mul_le_mul_of_nonneg_left ?_ (abs_nonneg _)
  have hs2 : s ^ 2 ≤ 1 := by rw [hs]; exact Real.sin_sq_le_one i
  have hs0 : 0 ≤ s ^ 2 := sq_nonneg s
  have hw : |-9 + 42 * s ^ 2 - 315 / 8 * s ^ 4| ≤ 9 := by
    have : s ^ 4 = s ^ 2 * s ^ 2 := by ring
    rw [this, abs_le]; constructor <;> nlinarith
  have hk4 : k ^ 4 ≤ k ^ 2 := pow_le_pow_of_le_one hk0.le hk1 (by norm_num)
  have hJ4 : |5 / 8 * Plain.J4| ≤ 1.02e-6 := by rw [Plain.J4, abs_le]; constructor <;> norm_num
  rw [abs_mul, abs_mul, abs_of_pos (pow_pos hk0 4), abs_of_pos (by rw [Plain.J2]; positivity : 0 < 3 / 2 * Plain.J2 * k ^ 2)]
  calc |5 / 8 * Plain.J4| * k ^ 4 * |-9 + 42 * s ^ 2 - 315 / 8 * s ^ 4| ≤ 1.02e-6 * k ^ 2 * 9 := by gcongr
    _ ≤ 0.006 * (3 / 2 * Plain.J2 * k ^ 2) := by
      rw [Plain.J2]
      have := sq_nonneg k
      norm_num
      nlinarith

/-- The orbit of a satellite at 400 km with the inclination of 51.6 degrees. -/
example : (6.378137e6 : ℝ) ≤ 6778137 ∧ Real.sin (51.6 / 180 * Real.pi) ≠ 0 := by
  refine ⟨by norm_num, (Real.sin_pos_of_pos_of_lt_pi (by positivity) ?_).ne'⟩
  nlinarith [Real.pi_pos]

end Adcs
