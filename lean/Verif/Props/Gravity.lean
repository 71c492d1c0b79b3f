import Verif.Props.Environment
import Mathlib.Analysis.Calculus.Deriv.Pow
import Mathlib.Analysis.Calculus.Deriv.Inv
import Mathlib.Analysis.SpecialFunctions.Sqrt
import Mathlib.Analysis.Calculus.MeanValue

set_option autoImplicit false

/-! # C49: high-fidelity gravity and the zonal potential -/

namespace Adcs

open Env Dyn JDay

/-- Legendre polynomials. -/
noncomputable def legendre2 (u : ℝ) : ℝ := (3 * u ^ 2 - 1) / 2
noncomputable def legendre3 (u : ℝ) : ℝ := (5 * u ^ 3 - 3 * u) / 2
noncomputable def legendre4 (u : ℝ) : ℝ := (35 * u ^ 4 - 30 * u ^ 2 + 3) / 8

/-- Specification: the geopotential with zonal terms up to degree 4 (Markley & Crassidis, eq. 10.32),
positive convention. -/
noncomputable def geopotential (μ R J2 J3 J4 : ℝ) (x : V3) : ℝ :=
  let r := npNorm x
  μ / r * (1 - J2 * (R / r) ^ 2 * legendre2 (x 2 / r) - J3 * (R / r) ^ 3 * legendre3 (x 2 / r)
    - J4 * (R / r) ^ 4 * legendre4 (x 2 / r))

/-- A vector field has `U` as potential: its component along each direction is the directional derivative. -/
def IsGradient (U : V3 → ℝ) (p a : V3) : Prop :=
  ∀ v : V3, HasDerivAt (fun t : ℝ => U (p + t • v)) (a ⬝ᵥ v) 0

theorem hasDerivAt_norm {p : V3} (hp : p ≠ 0) (v : V3) :
    HasDerivAt (fun t : ℝ => npNorm (p + t • v)) ((p ⬝ᵥ v) / npNorm p) 0 := by
  have h1 : ∀ i, HasDerivAt (fun t : ℝ => (p i + t * v i) ^ 2) (2 * p i * v i) 0 := by
    intro i
    have := (((hasDerivAt_id (0 : ℝ)).mul_const (v i)).const_add (p i)).fun_pow 2
    refine this.congr_deriv ?_
    simp
  have h2 : HasDerivAt (fun t : ℝ => (p 0 + t * v 0) ^ 2 + (p 1 + t * v 1) ^ 2 + (p 2 + t * v 2) ^ 2)
      (2 * (p ⬝ᵥ v)) 0 := by
    have := ((h1 0).add (h1 1)).add (h1 2)
    refine this.congr_deriv ?_
    rw [Matrix.vec3_dotProduct]; ring
  have hpos : p 0 ^ 2 + p 1 ^ 2 + p 2 ^ 2 ≠ 0 := by
    rw [← npNorm3_sq]; exact (pow_pos (npNorm_pos hp) 2).ne'
  have h3 := h2.sqrt (by simpa using hpos)
  have e : (fun t : ℝ => npNorm (p + t • v)) =
      fun t => Real.sqrt ((p 0 + t * v 0) ^ 2 + (p 1 + t * v 1) ^ 2 + (p 2 + t * v 2) ^ 2) := by
    funext t; simp [npNorm, Fin.sum_univ_three]
  rw [e]
  refine h3.congr_deriv ?_
  have e2 : Real.sqrt ((p 0 + 0 * v 0) ^ 2 + (p 1 + 0 * v 1) ^ 2 + (p 2 + 0 * v 2) ^ 2) = npNorm p := by
    simp [npNorm, Fin.sum_univ_three]
  rw [e2]
  have := (npNorm_pos hp).ne'
  field_simp

/-- The gradient of the geopotential. -/
noncomputable def geoGradient (μ R J2 J3 J4 : ℝ) (x : V3) : V3 :=
  let r := npNorm x
  let u := x 2 / r
  let k := R / r
  let s := 1 + 3 / 2 * J2 * k ^ 2 * (1 - 5 * u ^ 2) + 5 / 2 * J3 * k ^ 3 * (3 * u - 7 * u ^ 3)
    - 5 / 8 * J4 * k ^ 4 * (3 - 42 * u ^ 2 + 63 * u ^ 4)
  let c := μ / r ^ 2
  ![-c * (s * (x 0 / r)), -c * (s * (x 1 / r)),
    -c * (u + 3 / 2 * J2 * k ^ 2 * (3 - 5 * u ^ 2) * u
      + 1 / 2 * J3 * k ^ 3 * (3 * (10 * u ^ 2 - 35 / 3 * u ^ 4 - 1))
      - 5 / 8 * J4 * k ^ 4 * (15 - 70 * u ^ 2 + 63 * u ^ 4) * u)]

theorem geoGradient_isGradient (μ R J2 J3 J4 : ℝ) {p : V3} (hp : p ≠ 0) :
    IsGradient (geopotential μ R J2 J3 J4) p (geoGradient μ R J2 J3 J4 p) := by
  intro v
  have hr := hasDerivAt_norm hp v
  have hz : HasDerivAt (fun t : ℝ => (p + t • v) 2) (v 2) 0 := by
    have := ((hasDerivAt_id (0 : ℝ)).mul_const (v 2)).const_add (p 2)
    simpa using this
  have hr0 : npNorm (p + (0 : ℝ) • v) ≠ 0 := by simpa using (npNorm_pos hp).ne'
  have hu := hz.fun_div hr hr0
  have hk := (hasDerivAt_const (0 : ℝ) R).fun_div hr hr0
  have hm := (hasDerivAt_const (0 : ℝ) μ).fun_div hr hr0
  have l2 := (((hu.fun_pow 2).const_mul 3).sub_const 1).div_const 2
  have l3 := (((hu.fun_pow 3).const_mul 5).fun_sub (hu.const_mul 3)).div_const 2
  have l4 := ((((hu.fun_pow 4).const_mul 35).fun_sub ((hu.fun_pow 2).const_mul 30)).add_const 3).div_const 8
  have t2 := ((hk.fun_pow 2).const_mul J2).fun_mul l2
  have t3 := ((hk.fun_pow 3).const_mul J3).fun_mul l3
  have t4 := ((hk.fun_pow 4).const_mul J4).fun_mul l4
  have h := hm.fun_mul ((((hasDerivAt_const (0 : ℝ) (1 : ℝ)).fun_sub t2).fun_sub t3).fun_sub t4)
  have h' : HasDerivAt (fun t : ℝ => geopotential μ R J2 J3 J4 (p + t • v)) _ 0 := h
  refine h'.congr_deriv ?_
  have hpos := npNorm_pos hp
  have hn := npNorm3_sq p
  simp only [Matrix.vec3_dotProduct, geoGradient, Matrix.cons_val_zero, Matrix.cons_val_one, cons3_2,
    zero_smul, add_zero, Pi.div_apply, Pi.mul_apply, Pi.pow_apply, Pi.sub_apply, Nat.cast_ofNat, Nat.reduceSub, pow_one]
  clear h h' t2 t3 t4 l2 l3 l4 hm hk hu hr0 hz hr hn
  generalize npNorm p = r at *
  field_simp
  ring

/-- The field computed by `hi_fi_gravity` when called by `gravity_accel`. -/
noncomputable def codeField (p : V3) : V3 :=
  match Plain.gravityAccel true p (npNorm p) with
  | .ok a => a
  | .error _ => 0

/-- What the two wrong signs add to the first two components. -/
noncomputable def signError (x : V3) : ℝ :=
  let r := npNorm x
  let u := x 2 / r
  let k := Plain.earthRad / r
  5 * Plain.J3 * k ^ 3 * (7 * u ^ 3 - 3 * u) + 5 / 4 * Plain.J4 * k ^ 4 * (3 - 42 * u ^ 2 + 63 * u ^ 4)

/-- The gradient with the code's constants. -/
noncomputable def trueField (x : V3) : V3 := geoGradient Plain.MU Plain.earthRad Plain.J2 Plain.J3 Plain.J4 x

theorem code_eq {p : V3} (hp : p ≠ 0) : ∃ a, Plain.gravityAccel true p (npNorm p) = .ok a ∧
    a = trueField p - (Plain.MU / npNorm p ^ 2 * signError p) • ![p 0 / npNorm p, p 1 / npNorm p, 0] := by
  have hr := npNorm_pos hp
  simp only [Plain.gravityAccel, npDiv, if_neg (pow_pos hr 2).ne', if_true, Plain.hiFiGravity, if_neg hr.ne']
  refine ⟨_, rfl, ?_⟩
  apply vec3_ext <;>
  · simp only [trueField, geoGradient, signError, Pi.sub_apply, Pi.smul_apply, Pi.add_apply, smul_eq_mul,
      Matrix.cons_val_zero, Matrix.cons_val_one, cons3_2]
    ring

theorem codeField_eq {p : V3} (hp : p ≠ 0) : codeField p =
    trueField p - (Plain.MU / npNorm p ^ 2 * signError p) • ![p 0 / npNorm p, p 1 / npNorm p, 0] := by
  obtain ⟨a, h, e⟩ := code_eq hp
  unfold codeField
  rw [h]; exact e

/-- The full claim: at every non-zero position the code's acceleration is the gradient of the zonal
potential with the code's constants. -/
def HiFiIsGradient : Prop := ∀ p : V3, p ≠ 0 →
  IsGradient (geopotential Plain.MU Plain.earthRad Plain.J2 Plain.J3 Plain.J4) p (codeField p)

/-- The field has no potential whatsoever: the work done along a closed path is not zero. -/
theorem C49_not_conservative : ¬ ∃ W : V3 → ℝ, ∀ p : V3, p ≠ 0 → IsGradient W p (codeField p) := by
  rintro ⟨W, hW⟩
  set U := geopotential Plain.MU Plain.earthRad Plain.J2 Plain.J3 Plain.J4 with hU
  -- the difference of the potentials
  have hD : ∀ p : V3, p ≠ 0 → ∀ v : V3, HasDerivAt (fun t : ℝ => W (p + t • v) - U (p + t • v))
      (-(Plain.MU / npNorm p ^ 2 * signError p) * ((p 0 / npNorm p) * v 0 + (p 1 / npNorm p) * v 1)) 0 := by
    intro p hp v
    refine ((hW p hp v).sub (geoGradient_isGradient Plain.MU Plain.earthRad Plain.J2 Plain.J3 Plain.J4 hp v)).congr_deriv ?_
    rw [codeField_eq hp]
    simp only [Matrix.vec3_dotProduct, Pi.sub_apply, Pi.smul_apply, smul_eq_mul, trueField,
      Matrix.cons_val_zero, Matrix.cons_val_one, cons3_2]
    ring
  set D : ℝ → ℝ → ℝ := fun x z => W ![x, 0, z] - U ![x, 0, z] with hDdef
  have hne : ∀ x z : ℝ, x ≠ 0 → (![x, 0, z] : V3) ≠ 0 := by
    intro x z hx h; exact hx (by simpa using congrFun h 0)
  -- it does not depend on z
  have hz : ∀ x : ℝ, x ≠ 0 → ∀ z z', D x z = D x z' := by
    intro x hx
    have hd : ∀ z, HasDerivAt (D x) 0 z := by
      intro z
      have := hD _ (hne x z hx) ![0, 0, 1]
      have e : ∀ t : ℝ, (![x, 0, z] : V3) + t • ![0, 0, 1] = ![x, 0, z + t] := by
        intro t; apply vec3_ext <;> simp
      simp only [e] at this
      have h1 := HasDerivAt.comp_sub_const z z (by rw [sub_self]; exact this)
      simp only [add_sub_cancel] at h1
      refine h1.congr_deriv ?_
      simp
    exact is_const_of_deriv_eq_zero (fun z => (hd z).differentiableAt) fun z => (hd z).deriv
  -- so its derivative along x does not either
  have hx : ∀ x z : ℝ, x ≠ 0 → HasDerivAt (fun s => D s z)
      (-(Plain.MU / npNorm ![x, 0, z] ^ 2 * signError ![x, 0, z]) * (x / npNorm ![x, 0, z])) x := by
    intro x z hx0
    have := hD _ (hne x z hx0) ![1, 0, 0]
    have e : ∀ t : ℝ, (![x, 0, z] : V3) + t • ![1, 0, 0] = ![x + t, 0, z] := by
      intro t; apply vec3_ext <;> simp
    simp only [e] at this
    have h1 := HasDerivAt.comp_sub_const x x (by rw [sub_self]; exact this)
    simp only [add_sub_cancel] at h1
    refine h1.congr_deriv ?_
    simp
  set R := Plain.earthRad with hR
  have hRpos : 0 < R := by rw [hR]; unfold Plain.earthRad; norm_num
  have hR0 := hRpos.ne'
  have key := (hx R 0 hR0).unique
    ((hx R (4 / 3 * R) hR0).congr_of_eventuallyEq
      (Filter.Eventually.mono (isOpen_ne.mem_nhds hR0 : ∀ᶠ s in nhds R, s ≠ 0) fun s hs => hz s hs 0 (4 / 3 * R)))
  have n1 : npNorm ![R, 0, 0] = R := by
    simp [npNorm, Fin.sum_univ_three, Real.sqrt_sq hRpos.le]
  have n2 : npNorm ![R, 0, 4 / 3 * R] = 5 / 3 * R := by
    unfold npNorm
    rw [Real.sqrt_eq_iff_mul_self_eq_of_pos (by positivity)]
    simp [Fin.sum_univ_three]; ring
  have hMU := MU_pos
  simp only [n1, n2, signError, cons3_2, ← hR] at key
  rw [show R / R = 1 from div_self hR0, show 4 / 3 * R / (5 / 3 * R) = 4 / 5 by field_simp,
    show R / (5 / 3 * R) = 3 / 5 by field_simp] at key
  have k2 : Plain.MU / R ^ 2 * (15 / 4 * Plain.J4 - 27 / 125 * (5 * Plain.J3 * (27 / 125) *
      (7 * (4 / 5) ^ 3 - 3 * (4 / 5)) + 5 / 4 * Plain.J4 * (81 / 625) *
      (3 - 42 * (4 / 5) ^ 2 + 63 * (4 / 5) ^ 4))) = 0 := by
    have e : Plain.MU / (5 / 3 * R) ^ 2 = 9 / 25 * (Plain.MU / R ^ 2) := by field_simp; norm_num
    rw [e] at key
    linear_combination -key
  have hc : Plain.MU / R ^ 2 ≠ 0 := by positivity
  have := (mul_eq_zero.1 k2).resolve_left hc
  unfold Plain.J3 Plain.J4 at this
  norm_num at this

/-- In particular it is not the gradient of the zonal potential. -/
theorem C49_gradient_fails : ¬ HiFiIsGradient := fun h => C49_not_conservative ⟨_, h⟩

/-- What holds: the code's field is the gradient of the zonal potential plus an error along the
projection of the position on the equatorial plane, of relative size `signError` (from the signs of the
J3 and J4 terms in the first two components). In particular the third component is right everywhere and
the J2 terms are right. Missing: the two signs. -/
theorem C49_gradient_partial {p : V3} (hp : p ≠ 0) : ∃ a g,
    Plain.gravityAccel true p (npNorm p) = .ok a ∧
    IsGradient (geopotential Plain.MU Plain.earthRad Plain.J2 Plain.J3 Plain.J4) p g ∧
    a 0 = g 0 - Plain.MU / npNorm p ^ 2 * signError p * (p 0 / npNorm p) ∧
    a 1 = g 1 - Plain.MU / npNorm p ^ 2 * signError p * (p 1 / npNorm p) ∧
    a 2 = g 2 := by
  obtain ⟨a, h, rfl⟩ := code_eq hp
  refine ⟨_, trueField p, h, geoGradient_isGradient _ _ _ _ _ hp, ?_, ?_, ?_⟩ <;> simp [mul_assoc]

/-- On the polar axis the whole acceleration is right. -/
theorem C49_polar_axis {z : ℝ} (hz : z ≠ 0) :
    IsGradient (geopotential Plain.MU Plain.earthRad Plain.J2 Plain.J3 Plain.J4) ![0, 0, z]
      (codeField ![0, 0, z]) := by
  have hne : (![0, 0, z] : V3) ≠ 0 := by
    intro h; exact hz (by simpa using congrFun h 2)
  rw [codeField_eq hne]
  have e : trueField ![0, 0, z] - (Plain.MU / npNorm ![0, 0, z] ^ 2 * signError ![0, 0, z]) •
      ![(![0, 0, z] : V3) 0 / npNorm ![0, 0, z], (![0, 0, z] : V3) 1 / npNorm ![0, 0, z], 0] =
      trueField ![0, 0, z] := by
    apply vec3_ext <;> simp
  rw [e]
  exact geoGradient_isGradient _ _ _ _ _ hne

example : (![0, 0, 6778137] : V3) ≠ 0 := fun h => by simpa using congrFun h 2

end Adcs
