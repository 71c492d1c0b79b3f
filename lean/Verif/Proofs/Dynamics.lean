import Verif.Model.Dynamics
import Verif.Props.Environment
import Verif.Props.Walls
import Verif.Props.Wheels
import Verif.Props.Torquers
import Verif.Props.Sensors
import Mathlib.Analysis.Calculus.Deriv.Pow
import Mathlib.Analysis.Calculus.Deriv.Pi

set_option autoImplicit false

/-! # Helper lemmas about the dynamics -/

namespace Adcs

open Str Dyn Env Quat JDay
open scoped Matrix

/-! ## Derivatives of rotated vectors -/

/-- `x v y*` of quaternions, vector part. -/
def tri (x : V4) (v : V3) (y : V4) : V3 :=
  vecPart (product x (product ![0, v 0, v 1, v 2] (conjugate y)))

theorem sandwichOpp_eq_tri (q : V4) (v : V3) : sandwichOpp q v = tri q v q := by
  unfold sandwichOpp sandwich tri
  rw [conjugate_conjugate]

theorem sandwich_eq_tri (q : V4) (v : V3) : sandwich q v = tri (conjugate q) v (conjugate q) := by
  unfold sandwich tri
  rw [conjugate_conjugate]

theorem tri_poly (q p : V4) (A B : V3) (t : ℝ) :
    tri (q + t • p) (A + t • B) (q + t • p) =
      tri q A q + t • (tri p A q + tri q B q + tri q A p) +
        t ^ 2 • (tri p B q + tri p A p + tri q B p) + t ^ 3 • tri p B p := by
  apply vec3_ext <;>
    simp only [tri, vecPart_0, vecPart_1, vecPart_2, product_0, product_1, product_2, product_3, conjugate_0,
      conjugate_1, conjugate_2, conjugate_3, Pi.add_apply, Pi.smul_apply, smul_eq_mul,
      Matrix.cons_val_zero, Matrix.cons_val_one, cons4_2, cons4_3] <;> ring

theorem hasDerivAt_cubic {f : ℝ → V3} (a b c d : V3)
    (h : ∀ t, f t = a + t • b + t ^ 2 • c + t ^ 3 • d) : HasDerivAt f b 0 := by
  rw [hasDerivAt_pi]
  intro i
  have e : (fun t => f t i) = fun t => a i + t * b i + t ^ 2 * c i + t ^ 3 * d i := by
    funext t; rw [h]; simp
  rw [e]
  have h1 : HasDerivAt (fun t : ℝ => t * b i) (b i) 0 := by
    simpa using (hasDerivAt_id (0 : ℝ)).mul_const (b i)
  have h2 : HasDerivAt (fun t : ℝ => t ^ 2 * c i) 0 0 := by
    simpa using (hasDerivAt_pow 2 (0 : ℝ)).mul_const (c i)
  have h3 : HasDerivAt (fun t : ℝ => t ^ 3 * d i) 0 0 := by
    simpa using (hasDerivAt_pow 3 (0 : ℝ)).mul_const (d i)
  have := ((h1.const_add (a i)).fun_add h2).fun_add h3
  simpa using this

/-- Rate of change of a vector carried to the inertial frame. -/
theorem hasDerivAt_sandwichOpp (q : V4) (w A B : V3) :
    HasDerivAt (fun t : ℝ => sandwichOpp (q + t • ((0.5 : ℝ) • product q ![0, w 0, w 1, w 2])) (A + t • B))
      (sandwichOpp q (B + npCross w A)) 0 := by
  have h := hasDerivAt_cubic _ _ _ _ (fun t => (sandwichOpp_eq_tri _ _).trans
    (tri_poly q ((0.5 : ℝ) • product q ![0, w 0, w 1, w 2]) A B t))
  refine h.congr_deriv ?_
  rw [sandwichOpp_eq_tri]
  apply vec3_ext <;>
    simp only [tri, vecPart_0, vecPart_1, vecPart_2, product_0, product_1, product_2, product_3, conjugate_0,
      conjugate_1, conjugate_2, conjugate_3, Pi.add_apply, Pi.smul_apply, smul_eq_mul, npCross_0, npCross_1,
      npCross_2, Matrix.cons_val_zero, Matrix.cons_val_one, cons4_2, cons4_3] <;> ring

/-- Rate of change of the body components of a fixed inertial vector. -/
theorem hasDerivAt_sandwich (q : V4) (w v : V3) :
    HasDerivAt (fun t : ℝ => sandwich (q + t • ((0.5 : ℝ) • product q ![0, w 0, w 1, w 2])) v)
      (-npCross w (sandwich q v)) 0 := by
  have hc : ∀ (p : V4) (t : ℝ), conjugate (q + t • p) = conjugate q + t • conjugate p := by
    intro p t
    apply vec4_ext <;> simp [conjugate_0, conjugate_1, conjugate_2, conjugate_3] <;> ring
  have e : (fun t : ℝ => sandwich (q + t • ((0.5 : ℝ) • product q ![0, w 0, w 1, w 2])) v) = fun t =>
      tri (conjugate q + t • conjugate ((0.5 : ℝ) • product q ![0, w 0, w 1, w 2])) (v + t • (0 : V3))
        (conjugate q + t • conjugate ((0.5 : ℝ) • product q ![0, w 0, w 1, w 2])) := by
    funext t
    rw [sandwich_eq_tri, hc, smul_zero, add_zero]
  rw [e]
  have h := hasDerivAt_cubic _ _ _ _ (fun t =>
    tri_poly (conjugate q) (conjugate ((0.5 : ℝ) • product q ![0, w 0, w 1, w 2])) v 0 t)
  refine h.congr_deriv ?_
  rw [sandwich_eq_tri]
  apply vec3_ext <;>
    simp only [tri, vecPart_0, vecPart_1, vecPart_2, product_0, product_1, product_2, product_3, conjugate_0,
      conjugate_1, conjugate_2, conjugate_3, Pi.add_apply, Pi.smul_apply, smul_eq_mul, npCross_0, npCross_1,
      npCross_2, Matrix.cons_val_zero, Matrix.cons_val_one, cons4_2, cons4_3, Pi.neg_apply, Pi.zero_apply] <;> ring

/-! ## Rotations carry any direction to any other -/

theorem exists_attitude {S u : V3} (hS : npNorm S = 1) (hu : npNorm u = 1) (h : S ⬝ᵥ u ≠ -1) :
    ∃ q : V4, npNorm q = 1 ∧ sandwich q S = u := by
  have h1 := npNorm_eq_one.1 hS
  have h2 := npNorm_eq_one.1 hu
  rw [Fin.sum_univ_three] at h1 h2
  rw [Matrix.vec3_dotProduct] at h
  set d := S 0 * u 0 + S 1 * u 1 + S 2 * u 2 with hd
  have hle : -1 < d := by
    refine lt_of_le_of_ne ?_ (Ne.symm h)
    nlinarith [sq_nonneg (S 0 + u 0), sq_nonneg (S 1 + u 1), sq_nonneg (S 2 + u 2)]
  set c := Real.sqrt ((1 + d) / 2) with hc
  have hc2 : c ^ 2 = (1 + d) / 2 := Real.sq_sqrt (by linarith)
  have hcpos : 0 < c := Real.sqrt_pos.2 (by linarith)
  have hc0 := hcpos.ne'
  have e : 2 * c ^ 2 - 1 - d = 0 := by linarith
  have hL : (u 1 * S 2 - u 2 * S 1) ^ 2 + (u 2 * S 0 - u 0 * S 2) ^ 2 + (u 0 * S 1 - u 1 * S 0) ^ 2 =
      1 - d ^ 2 := by
    rw [hd]
    linear_combination (u 0 ^ 2 + u 1 ^ 2 + u 2 ^ 2) * h1 + h2
  refine ⟨![c, (u 1 * S 2 - u 2 * S 1) / (2 * c), (u 2 * S 0 - u 0 * S 2) / (2 * c),
    (u 0 * S 1 - u 1 * S 0) / (2 * c)], ?_, ?_⟩
  · apply npNorm_vec4
    have : c ^ 2 + (1 - d ^ 2) / (2 * c) ^ 2 = 1 := by
      have hd1 : 1 + d = 2 * c ^ 2 := by linarith
      have : 1 - d ^ 2 = 2 * c ^ 2 * (2 - 2 * c ^ 2) := by
        have : d = 2 * c ^ 2 - 1 := by linarith
        rw [this]; ring
      rw [this]; field_simp; ring
    rw [← hL] at this
    rw [← this]; field_simp
    ring
  · have hd' : d = 2 * c ^ 2 - 1 := by linarith
    rw [hd] at hd'
    apply vec3_ext
    · rw [sandwich_0]; simp only [Matrix.cons_val_zero, Matrix.cons_val_one, cons4_2, cons4_3]
      field_simp
      grind
    · rw [sandwich_1]; simp only [Matrix.cons_val_zero, Matrix.cons_val_one, cons4_2, cons4_3]
      field_simp
      grind
    · rw [sandwich_2]; simp only [Matrix.cons_val_zero, Matrix.cons_val_one, cons4_2, cons4_3]
      field_simp
      grind

end Adcs
