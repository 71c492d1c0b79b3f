import Verif.Props.Bbq
import Verif.Props.Tracking
import Mathlib.MeasureTheory.Integral.IntervalIntegral.Periodic
import Mathlib.Analysis.SpecialFunctions.Integrals.Basic

set_option autoImplicit false

/-! # C176, C177: where the sun stands in the barbecue roll, and when an orbit is eclipsed -/

namespace Adcs

open Str Ctl Sens JDay Quat Env Spec
open scoped Matrix

/-! ## C176: the sides get the sun, in equal shares -/

theorem dot3_abs_le (x y : V3) : |x ⬝ᵥ y| ≤ npNorm x * npNorm y := by
  apply abs_le_of_sq_le_sq _ (mul_nonneg (npNorm_nonneg _) (npNorm_nonneg _))
  rw [mul_pow, npNorm3_sq, npNorm3_sq, Matrix.vec3_dotProduct]
  nlinarith [sq_nonneg (x 0 * y 1 - x 1 * y 0), sq_nonneg (x 0 * y 2 - x 2 * y 0),
    sq_nonneg (x 1 * y 2 - x 2 * y 1)]

theorem pole_unit : npNorm (sandwichOpp ecl ![0, 0, 1]) = 1 := by
  rw [ecl_pole]
  apply npNorm_vec3
  have := Real.sin_sq_add_cos_sq (npRadians 23.439291)
  linear_combination this

theorem pole_sun (jd : ℝ) : |sandwichOpp ecl ![0, 0, 1] ⬝ᵥ Plain.earthToSun jd| ≤
    |(0.0130042 * Real.pi / 180) * ((jd - 2451545) / 36525)| := by
  rw [ecl_pole]
  unfold Plain.earthToSun
  dsimp only
  generalize npRadians (pyMod _ 360 + _ + _) = l
  set t := (jd - 2451545) / 36525
  have e : ![0, -Real.sin (npRadians 23.439291), Real.cos (npRadians 23.439291)] ⬝ᵥ
      ![Real.cos l, Real.cos (npRadians (23.439291 - 0.0130042 * t)) * Real.sin l,
        Real.sin (npRadians (23.439291 - 0.0130042 * t)) * Real.sin l] =
      Real.sin (-((0.0130042 * Real.pi / 180) * t)) * Real.sin l := by
    have : -((0.0130042 * Real.pi / 180) * t) =
        npRadians (23.439291 - 0.0130042 * t) - npRadians 23.439291 := by unfold npRadians; ring
    rw [this, Real.sin_sub]
    simp only [Matrix.vec3_dotProduct, Matrix.cons_val_zero, Matrix.cons_val_one, cons3_2]
    ring
  rw [e, abs_mul]
  calc |Real.sin (-((0.0130042 * Real.pi / 180) * t))| * |Real.sin l|
      ≤ |(-((0.0130042 * Real.pi / 180) * t))| * 1 :=
        mul_le_mul Real.abs_sin_le_abs (Real.abs_sin_le_one l) (abs_nonneg _) (abs_nonneg _)
    _ = _ := by rw [mul_one, abs_neg]

theorem ecliptic_product (c : RwController) (roll : Bool) : ∃ a : ℝ, c.eclipticAttitude roll =
    product ecl ![Real.cos (0.5 * a), 0, 0, Real.sin (0.5 * a)] ∧ (roll = true → a = bbq 2 * c.clock.absolute) := by
  cases roll
  · refine ⟨0, ?_, by simp⟩
    apply vec4_ext <;> simp [RwController.eclipticAttitude, product_0, product_1, product_2, product_3]
  · exact ⟨bbq 2 * c.clock.absolute, rfl, fun _ => rfl⟩

theorem sandwich_z (a : ℝ) (u : V3) : sandwich ![Real.cos (0.5 * a), 0, 0, Real.sin (0.5 * a)] u =
    ![Real.cos a * u 0 + Real.sin a * u 1, -Real.sin a * u 0 + Real.cos a * u 1, u 2] := by
  have h1 : Real.sin a = 2 * Real.sin (0.5 * a) * Real.cos (0.5 * a) := by
    rw [← Real.sin_two_mul]; congr 1; ring
  have h2 : Real.cos a = Real.cos (0.5 * a) ^ 2 - Real.sin (0.5 * a) ^ 2 := by
    rw [← Real.cos_two_mul']; congr 1; ring
  have h3 := Real.sin_sq_add_cos_sq (0.5 * a)
  rw [h1, h2]
  apply vec3_ext
  · simp only [sandwich_0, Matrix.cons_val_zero, Matrix.cons_val_one, cons4_2, cons4_3]; ring
  · simp only [sandwich_1, Matrix.cons_val_zero, Matrix.cons_val_one, cons4_2, cons4_3]; ring
  · simp only [sandwich_2, Matrix.cons_val_zero, Matrix.cons_val_one, cons3_2, cons4_2, cons4_3]
    linear_combination u 2 * h3

theorem ecl_z (S : V3) : sandwich ecl S 2 = sandwichOpp ecl ![0, 0, 1] ⬝ᵥ S := by
  have := sandwich_dot ((isUnit4_iff _).2 ecl_unit) (sandwichOpp ecl ![0, 0, 1]) S
  rw [(C07_sandwich_opp ecl ecl_unit _).2] at this
  rw [← this, Matrix.vec3_dotProduct]
  simp

/-- The sun, in the body frame of a satellite with the attitude of `ecliptic_attitude`, is in the plane of
the body's x and y axes, up to 0.0003 (about one minute of arc), at all dates within a century of the year
2000 and all positions within 10000 km of the centre of the earth. -/
theorem C176_side (c : RwController) (roll : Bool) (clk : JClock)
    (hT : |clk.julianDate - 2451545| ≤ 36525) (x : V3) (hx : npNorm x ≤ 1e7) :
    ∃ i, Plain.srpInfo clk x = .ok i ∧ |sandwich (c.eclipticAttitude roll) i.S 2| ≤ 3e-4 := by
  set s := Plain.earthToSun clk.julianDate with hs
  have hu : npNorm s = 1 := earthToSun_unit _
  have hAU : Plain.AU = 1.496e11 := rfl
  have hne : x ≠ Plain.AU • s := by
    intro h
    rw [h, npNorm_smul, hu, hAU] at hx
    norm_num at hx
  obtain ⟨i, hi, -, hS, ⟨k, hk, hsun, -⟩, -⟩ := C51_sun clk x hne
  refine ⟨i, hi, ?_⟩
  obtain ⟨a, ha, -⟩ := ecliptic_product c roll
  rw [ha, (C08_sandwich_product _ _ _).1, sandwich_z]
  simp only [cons3_2]
  rw [ecl_z]
  set p := sandwichOpp ecl ![0, 0, 1] with hp
  -- the distance to the sun
  have hk2 : Plain.AU - 1e7 ≤ k := by
    have h1 : npNorm (x + k • i.S) ≤ npNorm x + npNorm (k • i.S) := npNorm_add3 _ _
    rw [npNorm_smul, hS, abs_of_pos hk, mul_one, ← hsun, npNorm_smul, hu, hAU] at h1
    rw [hAU]
    norm_num at h1 ⊢
    norm_num at hx
    linarith
  have h1 : |p ⬝ᵥ s| ≤ 2.27e-4 := by
    refine (pole_sun clk.julianDate).trans ?_
    rw [abs_mul, abs_of_pos (by positivity : (0:ℝ) < 0.0130042 * Real.pi / 180), abs_div,
      abs_of_pos (by norm_num : (0:ℝ) < 36525)]
    have h2 : |clk.julianDate - 2451545| / 36525 ≤ 1 := by rw [div_le_one (by norm_num)]; exact hT
    have h3 : 0.0130042 * Real.pi / 180 ≤ 2.27e-4 := by
      have := Real.pi_lt_d4
      norm_num at this ⊢
      linarith
    calc _ ≤ (2.27e-4 : ℝ) * 1 := mul_le_mul h3 h2 (by positivity) (by norm_num)
      _ = _ := mul_one _
  have h2 : |p ⬝ᵥ x| ≤ 1e7 := (dot3_abs_le p x).trans (by rw [hp, pole_unit, one_mul]; exact hx)
  have h3 : k * (p ⬝ᵥ i.S) = Plain.AU * (p ⬝ᵥ s) - p ⬝ᵥ x := by
    have := congrArg (fun v => p ⬝ᵥ v) hsun
    simp only [dotProduct_smul, dotProduct_add, smul_eq_mul] at this
    linarith
  have h4 : k * |p ⬝ᵥ i.S| ≤ Plain.AU * 2.27e-4 + 1e7 := by
    calc k * |p ⬝ᵥ i.S| = |k * (p ⬝ᵥ i.S)| := by rw [abs_mul, abs_of_pos hk]
      _ = |Plain.AU * (p ⬝ᵥ s) - p ⬝ᵥ x| := by rw [h3]
      _ ≤ |Plain.AU * (p ⬝ᵥ s)| + |p ⬝ᵥ x| := abs_sub _ _
      _ ≤ _ := by
        rw [abs_mul, hAU, abs_of_pos (by norm_num : (0:ℝ) < 1.496e11)]
        exact add_le_add (mul_le_mul_of_nonneg_left h1 (by norm_num)) h2
  by_contra hc
  push Not at hc
  have h5 : (Plain.AU - 1e7) * 3e-4 < k * |p ⬝ᵥ i.S| :=
    calc (Plain.AU - 1e7) * 3e-4 ≤ k * 3e-4 := mul_le_mul_of_nonneg_right hk2 (by norm_num)
      _ < _ := mul_lt_mul_of_pos_left hc hk
  rw [hAU] at h5 h4
  norm_num at h5 h4
  linarith

/-- Light on a panel of unit area and normal `n`, from the direction `S`. -/
noncomputable def Spec.lit (n S : V3) : ℝ := max 0 (n ⬝ᵥ S)

theorem integral_lit (ρ : ℝ) (hρ : 0 ≤ ρ) (c : ℝ) :
    ∫ x in c..c + 2 * Real.pi, max 0 (ρ * Real.cos x) = 2 * ρ := by
  have hper : Function.Periodic (fun x => max 0 (ρ * Real.cos x)) (2 * Real.pi) := by
    intro x; simp only [Real.cos_add_two_pi]
  have hcont : Continuous (fun x => max 0 (ρ * Real.cos x)) := by fun_prop
  rw [hper.intervalIntegral_add_eq c (-(Real.pi / 2)),
    ← intervalIntegral.integral_add_adjacent_intervals (b := Real.pi / 2)
      (hcont.intervalIntegrable _ _) (hcont.intervalIntegrable _ _)]
  have h1 : ∫ x in -(Real.pi / 2)..Real.pi / 2, max 0 (ρ * Real.cos x) = 2 * ρ := by
    rw [intervalIntegral.integral_congr (g := fun x => ρ * Real.cos x)]
    · rw [intervalIntegral.integral_const_mul, integral_cos]
      simp; ring
    · intro x hx
      rw [Set.uIcc_of_le (by linarith [Real.pi_pos])] at hx
      exact max_eq_right (mul_nonneg hρ (Real.cos_nonneg_of_mem_Icc hx))
  have h2 : ∫ x in Real.pi / 2..-(Real.pi / 2) + 2 * Real.pi, max 0 (ρ * Real.cos x) = 0 := by
    rw [intervalIntegral.integral_congr (g := fun _ => 0)]
    · simp
    · intro x hx
      rw [Set.uIcc_of_le (by linarith [Real.pi_pos])] at hx
      refine max_eq_left (mul_nonpos_of_nonneg_of_nonpos hρ ?_)
      exact Real.cos_nonpos_of_pi_div_two_le_of_le hx.1 (by linarith [hx.2])
  rw [h1, h2, add_zero]

theorem polar_form (a b : ℝ) : ∃ ψ : ℝ, a = Real.sqrt (a ^ 2 + b ^ 2) * Real.cos ψ ∧
    b = Real.sqrt (a ^ 2 + b ^ 2) * Real.sin ψ := by
  refine ⟨(⟨a, b⟩ : ℂ).arg, ?_, ?_⟩
  · have := Complex.norm_mul_cos_arg (⟨a, b⟩ : ℂ)
    rw [Complex.norm_eq_sqrt_sq_add_sq] at this
    exact this.symm
  · have := Complex.norm_mul_sin_arg (⟨a, b⟩ : ℂ)
    rw [Complex.norm_eq_sqrt_sq_add_sq] at this
    exact this.symm

/-- Over one turn of the reference (as a function of `absolute`) every panel that stands upright on the
plane of the x and y axes gets the same amount of light, whatever direction it faces; its mean is
`1 / pi` of the light of a panel facing the sun, if the sun is in this plane. -/
theorem C176_share (c : RwController) (S : V3) (hS : npNorm S = 1) (φ : ℝ) :
    let ref := fun t => ({ c with clock := { c.clock with absolute := t } } : RwController).eclipticAttitude true
    let z := sandwich ecl S 2
    (∀ t, sandwich (ref t) S 2 = z) ∧
    (∫ t in (0 : ℝ)..2 * Real.pi / 0.02932, Spec.lit ![Real.cos φ, Real.sin φ, 0] (sandwich (ref t) S)) /
      (2 * Real.pi / 0.02932) = Real.sqrt (1 - z ^ 2) / Real.pi := by
  intro ref z
  have hb : bbq 2 = 0.02932 := by norm_num [bbq]
  have href : ∀ t, sandwich (ref t) S =
      ![Real.cos (0.02932 * t) * sandwich ecl S 0 + Real.sin (0.02932 * t) * sandwich ecl S 1,
        -Real.sin (0.02932 * t) * sandwich ecl S 0 + Real.cos (0.02932 * t) * sandwich ecl S 1, z] := by
    intro t
    have : ref t = product ecl ![Real.cos (0.5 * (bbq 2 * t)), 0, 0, Real.sin (0.5 * (bbq 2 * t))] := rfl
    rw [this, (C08_sandwich_product _ _ _).1, sandwich_z, hb]
  refine ⟨fun t => by rw [href]; simp only [cons3_2], ?_⟩
  have hn : sandwich ecl S 0 ^ 2 + sandwich ecl S 1 ^ 2 = 1 - z ^ 2 := by
    have h := sandwich_dot ((isUnit4_iff _).2 ecl_unit) S S
    have h2 := npNorm_sq_dot S
    rw [npDot_eq_dotProduct, hS] at h2
    rw [← h2, Matrix.vec3_dotProduct] at h
    change _ = 1 - (sandwich ecl S 2) ^ 2
    linarith
  obtain ⟨ψ, h0, h1⟩ := polar_form (sandwich ecl S 0) (sandwich ecl S 1)
  rw [hn] at h0 h1
  have hl : ∀ t, Spec.lit ![Real.cos φ, Real.sin φ, 0] (sandwich (ref t) S) =
      max 0 (Real.sqrt (1 - z ^ 2) * Real.cos (0.02932 * t + (φ - ψ))) := by
    intro t
    rw [Spec.lit, href t]
    congr 1
    simp only [Matrix.vec3_dotProduct, Matrix.cons_val_zero, Matrix.cons_val_one, cons3_2]
    rw [h0, h1, show 0.02932 * t + (φ - ψ) = (0.02932 * t + φ) - ψ by ring, Real.cos_sub, Real.cos_add, Real.sin_add]
    ring
  simp only [hl]
  rw [intervalIntegral.integral_comp_mul_add (fun x => max 0 (Real.sqrt (1 - z ^ 2) * Real.cos x))
    (by norm_num : (0.02932 : ℝ) ≠ 0)]
  have e1 : (0.02932 : ℝ) * 0 + (φ - ψ) = φ - ψ := by ring
  have e2 : (0.02932 : ℝ) * (2 * Real.pi / 0.02932) + (φ - ψ) = (φ - ψ) + 2 * Real.pi := by
    rw [mul_div_cancel₀ _ (by norm_num)]; ring
  rw [e1, e2, integral_lit _ (Real.sqrt_nonneg _), smul_eq_mul]
  have := Real.pi_pos.ne'
  field_simp

/-- The fifteenth of November 2026 is within the century, and a satellite 7000 km from the centre of the
earth within the bound of `C176_side`. -/
example : (∃ j, JClock.init 2026 11 15 12 0 0 = .ok j ∧ |j.julianDate - 2451545| ≤ 36525) ∧
    npNorm (![7000000, 0, 0] : V3) ≤ 1e7 ∧ npNorm (![1, 0, 0] : V3) = 1 := by
  refine ⟨?_, ?_, npNorm_vec3 (by norm_num)⟩
  · obtain ⟨j, hj⟩ : ∃ j, JClock.init 2026 11 15 12 0 0 = .ok j := ⟨_, rfl⟩
    refine ⟨j, hj, ?_⟩
    rw [C27_jclock_julian_date hj, show ordinal 2026 11 15 = 739935 by decide]
    rw [abs_le]
    constructor <;> norm_num
  · rw [show (![7000000, 0, 0] : V3) = (7000000 : ℝ) • ![1, 0, 0] by apply vec3_ext <;> norm_num, npNorm_smul,
      npNorm_vec3 (by norm_num)]
    norm_num

/-! ## C177: eclipses of an orbit -/

/-- The place at the angle `θ` on the circle of radius `r` in the plane of `a` and `b`. -/
noncomputable def Spec.circle (r : ℝ) (a b : V3) (θ : ℝ) : V3 := r • (Real.cos θ • a + Real.sin θ • b)

/-- `a` and `b` are orthogonal unit vectors. -/
def Spec.Plane (a b : V3) : Prop := npNorm a = 1 ∧ npNorm b = 1 ∧ a ⬝ᵥ b = 0

/-- `SRP_info` reports a shadow at `x`. -/
def Spec.Shadow (c : JClock) (x : V3) : Prop := ∃ i, Plain.srpInfo c x = .ok i ∧ i.inShadow = true

theorem shadow_iff (c : JClock) (x : V3) (h1 : Plain.earthRad ≤ npNorm x) (h2 : npNorm x < Plain.AU) :
    Spec.Shadow c x ↔ x ⬝ᵥ Plain.earthToSun c.julianDate < -Real.sqrt (npNorm x ^ 2 - Plain.earthRad ^ 2) := by
  set s := Plain.earthToSun c.julianDate with hs
  have hu : npNorm s = 1 := earthToSun_unit _
  have hR : 0 < Plain.earthRad := by unfold Plain.earthRad; norm_num
  have hne : x ≠ Plain.AU • s := by
    intro h
    rw [h, npNorm_smul, hu, mul_one, abs_of_pos (by unfold Plain.AU; norm_num)] at h2
    exact lt_irrefl _ h2
  obtain ⟨i, hi, -, -, -, h3, -⟩ := C51_sun c x hne
  have h4 := h3 h1
  have hx : Plain.earthRad ^ 2 ≤ npDot x x := by
    rw [← npNorm_sq_dot]; exact pow_le_pow_left₀ hR.le h1 2
  have h5 := le_or_lt_shadow hu hx
  rw [npNorm_sq_dot, ← npDot_eq_dotProduct, h5]
  have hp := npNorm_nonneg (x - (x ⬝ᵥ s) • s)
  constructor
  · rintro ⟨j, hj, hsh⟩
    rw [hi] at hj
    cases hj
    exact ⟨(h4.1 hsh).1, pow_lt_pow_left₀ (h4.1 hsh).2 hp (by norm_num)⟩
  · rintro ⟨g1, g2⟩
    exact ⟨i, hi, h4.2 ⟨g1, lt_of_pow_lt_pow_left₀ 2 hR.le g2⟩⟩

theorem plane_sq {a b : V3} (h : Spec.Plane a b) (s : V3) (hs : npNorm s = 1) :
    (s ⬝ᵥ a) ^ 2 + (s ⬝ᵥ b) ^ 2 + (s ⬝ᵥ (a ⨯₃ b)) ^ 2 = 1 := by
  obtain ⟨h1, h2, h3⟩ := h
  have g1 := npNorm_sq_dot a; have g2 := npNorm_sq_dot b; have g3 := npNorm_sq_dot s
  rw [npDot_eq_dotProduct, h1] at g1
  rw [npDot_eq_dotProduct, h2] at g2
  rw [npDot_eq_dotProduct, hs] at g3
  have gram : (s ⬝ᵥ (a ⨯₃ b)) ^ 2 = (s ⬝ᵥ s) * ((a ⬝ᵥ a) * (b ⬝ᵥ b) - (a ⬝ᵥ b) ^ 2) -
      (s ⬝ᵥ a) * ((s ⬝ᵥ a) * (b ⬝ᵥ b) - (a ⬝ᵥ b) * (s ⬝ᵥ b)) +
      (s ⬝ᵥ b) * ((s ⬝ᵥ a) * (a ⬝ᵥ b) - (a ⬝ᵥ a) * (s ⬝ᵥ b)) := by
    simp only [Matrix.vec3_dotProduct, cross_apply, Matrix.cons_val_zero, Matrix.cons_val_one, cons3_2]
    ring
  rw [gram, h3, ← g1, ← g2, ← g3]
  ring

theorem circle_norm {a b : V3} (h : Spec.Plane a b) {r : ℝ} (hr : 0 ≤ r) (θ : ℝ) :
    npNorm (Spec.circle r a b θ) = r := by
  obtain ⟨h1, h2, h3⟩ := h
  have g1 := npNorm_sq_dot a; have g2 := npNorm_sq_dot b
  rw [npDot_eq_dotProduct, h1] at g1
  rw [npDot_eq_dotProduct, h2] at g2
  have : npNorm (Spec.circle r a b θ) ^ 2 = r ^ 2 := by
    rw [npNorm_sq_dot, npDot_eq_dotProduct]
    have h4 := Real.sin_sq_add_cos_sq θ
    simp only [Spec.circle, smul_dotProduct, dotProduct_smul, add_dotProduct, dotProduct_add, smul_eq_mul,
      dotProduct_comm b a, h3, ← g1, ← g2]
    linear_combination r ^ 2 * h4
  exact (pow_left_inj₀ (npNorm_nonneg _) hr (by norm_num)).1 this

/-- At a given time, a circular orbit that stays outside of the earth (and nearer than the sun) has a
place where `in_shadow` is reported if and only if the distance of its plane's pole, in the sense of
`r |s . n|`, is less than the radius of the earth: the angle between the sun and the plane decides. -/
theorem C177_eclipse (c : JClock) (a b : V3) (h : Spec.Plane a b) (r : ℝ) (h1 : Plain.earthRad ≤ r)
    (h2 : r < Plain.AU) :
    (∃ θ, Spec.Shadow c (Spec.circle r a b θ)) ↔
      r * |Plain.earthToSun c.julianDate ⬝ᵥ (a ⨯₃ b)| < Plain.earthRad := by
  set s := Plain.earthToSun c.julianDate with hs
  have hu : npNorm s = 1 := earthToSun_unit _
  have hR : 0 < Plain.earthRad := by unfold Plain.earthRad; norm_num
  have hr : 0 < r := hR.trans_le h1
  have hsum := plane_sq h s hu
  have hq0 : 0 ≤ r ^ 2 - Plain.earthRad ^ 2 := sub_nonneg.2 (pow_le_pow_left₀ hR.le h1 2)
  have hsh : ∀ θ, Spec.Shadow c (Spec.circle r a b θ) ↔
      r * (Real.cos θ * (s ⬝ᵥ a) + Real.sin θ * (s ⬝ᵥ b)) < -Real.sqrt (r ^ 2 - Plain.earthRad ^ 2) := by
    intro θ
    rw [shadow_iff c _ (by rw [circle_norm h hr.le]; exact h1) (by rw [circle_norm h hr.le]; exact h2),
      circle_norm h hr.le, ← hs]
    simp only [Spec.circle, smul_dotProduct, add_dotProduct, smul_eq_mul, dotProduct_comm a s, dotProduct_comm b s]
  simp only [hsh]
  have hq := Real.sqrt_nonneg (r ^ 2 - Plain.earthRad ^ 2)
  have hq2 := Real.sq_sqrt hq0
  set q := Real.sqrt (r ^ 2 - Plain.earthRad ^ 2)
  set α := s ⬝ᵥ a
  set β := s ⬝ᵥ b
  set ν := s ⬝ᵥ (a ⨯₃ b)
  have hν : r * |ν| < Plain.earthRad ↔ r ^ 2 * ν ^ 2 < Plain.earthRad ^ 2 := by
    rw [← abs_of_pos hR, ← abs_of_pos hr, ← abs_mul, ← sq_lt_sq, mul_pow, abs_of_pos hR, abs_of_pos hr]
  rw [hν]
  constructor
  · rintro ⟨θ, hθ⟩
    have h3 : q ^ 2 < (r * (Real.cos θ * α + Real.sin θ * β)) ^ 2 := by
      rw [← neg_sq (r * _)]
      exact pow_lt_pow_left₀ (by linarith) hq (by norm_num)
    have h4 : (Real.cos θ * α + Real.sin θ * β) ^ 2 ≤ α ^ 2 + β ^ 2 := by
      nlinarith [sq_nonneg (Real.cos θ * β - Real.sin θ * α), Real.sin_sq_add_cos_sq θ]
    have h5 : r ^ 2 * (Real.cos θ * α + Real.sin θ * β) ^ 2 ≤ r ^ 2 * (α ^ 2 + β ^ 2) :=
      mul_le_mul_of_nonneg_left h4 (sq_nonneg r)
    have h6 : r ^ 2 * (α ^ 2 + β ^ 2) = r ^ 2 - r ^ 2 * ν ^ 2 := by linear_combination r ^ 2 * hsum
    rw [mul_pow] at h3
    linarith
  · intro h3
    obtain ⟨ψ, e1, e2⟩ := polar_form α β
    have hm := Real.sqrt_nonneg (α ^ 2 + β ^ 2)
    have hm2 := Real.sq_sqrt (by positivity : 0 ≤ α ^ 2 + β ^ 2)
    set m := Real.sqrt (α ^ 2 + β ^ 2)
    refine ⟨ψ + Real.pi, ?_⟩
    rw [Real.cos_add_pi, Real.sin_add_pi]
    have h4 : -Real.cos ψ * α + -Real.sin ψ * β = -m := by
      rw [e1, e2]
      linear_combination -m * Real.sin_sq_add_cos_sq ψ
    rw [h4]
    have h5 : q < r * m := by
      apply lt_of_pow_lt_pow_left₀ 2 (mul_nonneg hr.le hm)
      rw [hq2, mul_pow, hm2]
      have h6 : r ^ 2 * (α ^ 2 + β ^ 2) = r ^ 2 - r ^ 2 * ν ^ 2 := by linear_combination r ^ 2 * hsum
      rw [h6]; linarith
    linarith

theorem shadow_dot {s x y : V3} {r R : ℝ} (hs : npNorm s = 1) (hR : 0 ≤ R) (h1 : R ≤ r) (hx : npNorm x = r)
    (hy : npNorm y = r) (sx : x ⬝ᵥ s < -Real.sqrt (r ^ 2 - R ^ 2)) (sy : y ⬝ᵥ s < -Real.sqrt (r ^ 2 - R ^ 2)) :
    r ^ 2 - 2 * R ^ 2 < x ⬝ᵥ y := by
  have hq := Real.sqrt_nonneg (r ^ 2 - R ^ 2)
  have hq2 := Real.sq_sqrt (sub_nonneg.2 (pow_le_pow_left₀ hR h1 2))
  set q := Real.sqrt (r ^ 2 - R ^ 2)
  have g := npNorm_sq_dot s
  rw [npDot_eq_dotProduct, hs] at g
  have gx := npNorm_sq_dot x; have gy := npNorm_sq_dot y
  rw [npDot_eq_dotProduct, hx] at gx
  rw [npDot_eq_dotProduct, hy] at gy
  set α := x ⬝ᵥ s with hα
  set β := y ⬝ᵥ s with hβ
  have hu : ∀ (w : V3) (γ : ℝ), γ = w ⬝ᵥ s → r ^ 2 = w ⬝ᵥ w → γ < -q → npNorm (w - γ • s) < R := by
    intro w γ e1 e2 e3
    apply lt_of_pow_lt_pow_left₀ 2 hR
    rw [npNorm_sq_dot, npDot_eq_dotProduct]
    simp only [sub_dotProduct, dotProduct_sub, smul_dotProduct, dotProduct_smul, smul_eq_mul, dotProduct_comm s w,
      ← e1, ← e2, ← g]
    nlinarith
  have b1 := hu x α hα gx sx
  have b2 := hu y β hβ gy sy
  have b3 := (neg_abs_le _).trans' (neg_le_neg (dot3_abs_le (x - α • s) (y - β • s)))
  have b4 : npNorm (x - α • s) * npNorm (y - β • s) < R * R :=
    mul_lt_mul'' b1 b2 (npNorm_nonneg _) (npNorm_nonneg _)
  have e : (x - α • s) ⬝ᵥ (y - β • s) = x ⬝ᵥ y - α * β := by
    simp only [sub_dotProduct, dotProduct_sub, smul_dotProduct, dotProduct_smul, smul_eq_mul, dotProduct_comm s y,
      ← hα, ← hβ, ← g]
    ring
  rw [e] at b3
  nlinarith

/-- The part of the orbit in shadow is short: two places at the same distance `r`, both in shadow at the
same time, are less than `2 asin (R / r)` apart as seen from the centre of the earth. -/
theorem C177_arc (c : JClock) (x y : V3) (r : ℝ) (h1 : Plain.earthRad ≤ r) (h2 : r < Plain.AU)
    (hx : npNorm x = r) (hy : npNorm y = r) (sx : Spec.Shadow c x) (sy : Spec.Shadow c y) :
    Real.arccos (x ⬝ᵥ y / r ^ 2) < 2 * Real.arcsin (Plain.earthRad / r) := by
  have hR : 0 < Plain.earthRad := by unfold Plain.earthRad; norm_num
  have hr : 0 < r := hR.trans_le h1
  rw [shadow_iff c x (by rw [hx]; exact h1) (by rw [hx]; exact h2), hx] at sx
  rw [shadow_iff c y (by rw [hy]; exact h1) (by rw [hy]; exact h2), hy] at sy
  have key := shadow_dot (earthToSun_unit c.julianDate) hR.le h1 hx hy sx sy
  have hR1 : Plain.earthRad / r ≤ 1 := (div_le_one hr).2 h1
  have hR0 : 0 ≤ Plain.earthRad / r := (div_pos hR hr).le
  have hs : Real.sin (Real.arcsin (Plain.earthRad / r)) = Plain.earthRad / r :=
    Real.sin_arcsin (by linarith) hR1
  have hc : Real.cos (2 * Real.arcsin (Plain.earthRad / r)) = 1 - 2 * (Plain.earthRad / r) ^ 2 := by
    have := Real.sin_sq_add_cos_sq (Real.arcsin (Plain.earthRad / r))
    rw [hs] at this
    rw [Real.cos_two_mul]; linarith
  rw [← Real.arccos_cos (x := 2 * Real.arcsin (Plain.earthRad / r))
    (by linarith [Real.arcsin_nonneg.2 hR0]) (by linarith [Real.arcsin_le_pi_div_two (Plain.earthRad / r)]), hc]
  have hr2 : 0 < r ^ 2 := pow_pos hr 2
  apply Real.arccos_lt_arccos
  · have : (Plain.earthRad / r) ^ 2 ≤ 1 := pow_le_one₀ hR0 hR1
    linarith
  · rw [lt_div_iff₀ hr2]
    have : (1 - 2 * (Plain.earthRad / r) ^ 2) * r ^ 2 = r ^ 2 - 2 * Plain.earthRad ^ 2 := by
      field_simp
    linarith
  · rw [div_le_one hr2]
    have := (le_abs_self _).trans (dot3_abs_le x y)
    rw [hx, hy] at this
    nlinarith

/-- An orbit above the equator, 7000 km from the centre of the earth, is eclipsed on every day of the century
around the year 2000; an orbit whose plane is perpendicular to the sun never is. -/
example (c : JClock) (hT : |c.julianDate - 2451545| ≤ 36525) :
    (Spec.Plane ![1, 0, 0] ![0, 1, 0] ∧ ∃ θ, Spec.Shadow c (Spec.circle 7000000 ![1, 0, 0] ![0, 1, 0] θ)) ∧
    ∀ a b, Spec.Plane a b → Plain.earthToSun c.julianDate = a ⨯₃ b →
      ∀ θ, ¬ Spec.Shadow c (Spec.circle 7000000 a b θ) := by
  have hp : Spec.Plane ![1, 0, 0] ![0, 1, 0] :=
    ⟨npNorm_vec3 (by norm_num), npNorm_vec3 (by norm_num), by simp⟩
  have hR : Plain.earthRad ≤ 7000000 := by unfold Plain.earthRad; norm_num
  have hA : (7000000 : ℝ) < Plain.AU := by unfold Plain.AU; norm_num
  refine ⟨⟨hp, (C177_eclipse c _ _ hp _ hR hA).2 ?_⟩, ?_⟩
  · have hc : ((![1, 0, 0] : V3) ⨯₃ ![0, 1, 0]) = ![0, 0, 1] := by
      rw [cross_apply]; apply vec3_ext <;> simp
    rw [hc]
    unfold Plain.earthToSun Plain.earthRad
    dsimp only
    generalize npRadians (pyMod _ 360 + _ + _) = l
    have ht : |(c.julianDate - 2451545) / 36525| ≤ 1 := by
      rw [abs_div, abs_of_pos (by norm_num : (0 : ℝ) < 36525)]
      exact (div_le_one (by norm_num)).2 hT
    generalize (c.julianDate - 2451545) / 36525 = t at ht ⊢
    have h1 : |npRadians (23.439291 - 0.0130042 * t)| ≤ 0.42 := by
      unfold npRadians
      have := Real.pi_lt_d2
      have hpp := Real.pi_pos
      obtain ⟨t0, t1⟩ := abs_le.1 ht
      have h2 : (0:ℝ) ≤ 23.439291 - 0.0130042 * t := by norm_num at *; linarith
      have h3 : 23.439291 - 0.0130042 * t ≤ 24 := by norm_num at *; linarith
      rw [abs_of_nonneg (by positivity)]
      have : (23.439291 - 0.0130042 * t) * Real.pi ≤ 24 * 3.15 :=
        mul_le_mul h3 this.le hpp.le (by norm_num)
      norm_num at *; linarith
    have h2 : |(![Real.cos l, Real.cos (npRadians (23.439291 - 0.0130042 * t)) * Real.sin l,
        Real.sin (npRadians (23.439291 - 0.0130042 * t)) * Real.sin l] : V3) ⬝ᵥ ![0, 0, 1]| ≤ 0.42 * 1 := by
      simp only [Matrix.vec3_dotProduct, Matrix.cons_val_zero, Matrix.cons_val_one, cons3_2, mul_zero, zero_add,
        mul_one, abs_mul]
      have := mul_le_mul (Real.abs_sin_le_abs.trans h1) (Real.abs_sin_le_one l) (abs_nonneg _) (by norm_num)
      simpa using this
    norm_num at h2 ⊢
    linarith
  · intro a b h e θ hsh
    have h1 := (C177_eclipse c a b h 7000000 hR hA).1 ⟨θ, hsh⟩
    have h2 := npNorm_sq_dot (Plain.earthToSun c.julianDate)
    rw [npDot_eq_dotProduct, earthToSun_unit] at h2
    rw [← e, ← h2] at h1
    norm_num at h1
    linarith

end Adcs
