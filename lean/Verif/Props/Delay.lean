import Verif.Props.Margins
import Verif.Model.Delay
import Mathlib.Analysis.SpecialFunctions.Exponential
import Mathlib.Analysis.Complex.Exponential

set_option autoImplicit false

/-! # C198: margins with a delay -/

namespace Adcs

open scoped Matrix
open Lqr Obs

/-! ## The gain of the rate against that of the error -/

/-- A state and an input of one axis. -/
def axisState (i : Fin 3) (y z : ℝ) : I6 → ℝ := Sum.elim (Pi.single i y) (Pi.single i z)

theorem axis_Ad (i : Fin 3) (T y z : ℝ) : Ad T *ᵥ axisState i y z = axisState i (y + T / 2 * z) z := by
  funext k
  rcases k with k | k <;> by_cases h : k = i <;>
    simp [Ad, A, axisState, Matrix.add_mulVec, Matrix.smul_mulVec, Matrix.fromBlocks_mulVec, h] <;> ring

theorem axis_Bd (d : V3) (i : Fin 3) (T v : ℝ) : Bd (Matrix.diagonal fun i => (d i)⁻¹) T *ᵥ Pi.single i v =
    axisState i (T ^ 2 / 4 * (d i)⁻¹ * v) (T * (d i)⁻¹ * v) := by
  funext k
  rcases k with k | k <;> by_cases h : k = i <;>
    simp [Bd, A, B, axisState, Matrix.fromBlocks_mul_fromRows, h, Matrix.diagonal_apply]
  · left; ring

theorem axis_K (kq kw : V3) (i : Fin 3) (y z : ℝ) :
    diagGain kq kw *ᵥ axisState i y z = Pi.single i (kq i * y + kw i * z) := by
  funext k
  by_cases h : k = i <;>
    simp [diagGain, axisState, Matrix.fromCols_mulVec, h]
  ring

theorem axis_form (P : M6) (hP : Pᵀ = P) (i : Fin 3) (y z : ℝ) : axisState i y z ⬝ᵥ P *ᵥ axisState i y z =
    P (.inl i) (.inl i) * y ^ 2 + 2 * P (.inl i) (.inr i) * y * z + P (.inr i) (.inr i) * z ^ 2 := by
  have h := congrFun (congrFun hP (.inl i)) (.inr i)
  rw [Matrix.transpose_apply] at h
  simp [axisState, Matrix.mulVec, dotProduct, Fintype.sum_sum_type, Pi.single_apply, h]
  ring

/-- The gain of the rate is more than half of the sampling time times the gain of the error. -/
theorem gain_ratio (d : V3) (hd : ∀ i, 0 < d i) (T e w : ℝ) (hT : 0 < T) (K : Matrix (Fin 3) I6 ℝ)
    (h : GetGain (Matrix.diagonal d) T e w K) (i : Fin 3) : T / 2 * K i (.inl i) < K i (.inr i) := by
  have hd' : ∀ i, d i ≠ 0 := fun i => (hd i).ne'
  obtain ⟨k1, k2, k3⟩ := C150_positive d hd T e w hT K h i
  have hKd := gainMatrix_diag hd' hT.ne' h
  obtain ⟨he, hw, Ji, P, hJi, hP, hK⟩ := h
  rw [npInv_diag d hd'] at hJi
  cases hJi
  have hR := lqrR_posDef
  have hPt : Pᵀ = P := by
    have := hP.psd.isHermitian
    rwa [Matrix.IsHermitian, Matrix.conjTranspose_eq_transpose_of_trivial] at this
  set S := R + (Bd (Matrix.diagonal fun i => (d i)⁻¹) T)ᵀ * P * Bd (Matrix.diagonal fun i => (d i)⁻¹) T with hS
  have hSpos : 0 < S i i := (dare_S hR hP).diag_pos
  have sq : ∀ y z v : ℝ, 1 / e ^ 2 * y ^ 2 + 1 / w ^ 2 * z ^ 2 + 625 * v ^ 2 +
      (P (.inl i) (.inl i) * (y + T / 2 * z + T ^ 2 / 4 * (d i)⁻¹ * v) ^ 2 +
        2 * P (.inl i) (.inr i) * (y + T / 2 * z + T ^ 2 / 4 * (d i)⁻¹ * v) * (z + T * (d i)⁻¹ * v) +
        P (.inr i) (.inr i) * (z + T * (d i)⁻¹ * v) ^ 2) =
      P (.inl i) (.inl i) * y ^ 2 + 2 * P (.inl i) (.inr i) * y * z + P (.inr i) (.inr i) * z ^ 2 +
        S i i * (v + (K i (.inl i) * y + K i (.inr i) * z)) ^ 2 := by
    intro y z v
    have := dare_square hR hP hK (axisState i y z) (Pi.single i v)
    have hKx : K *ᵥ axisState i y z = Pi.single i (K i (.inl i) * y + K i (.inr i) * z) := by
      conv_lhs => rw [hKd]
      rw [axis_K]
    have hadd : ∀ y z y' z' : ℝ, axisState i y z + axisState i y' z' = axisState i (y + y') (z + z') := by
      intro y z y' z'
      funext k
      rcases k with k | k <;> by_cases h : k = i <;> simp [axisState, h]
    have hq : axisState i y z ⬝ᵥ Q e w *ᵥ axisState i y z = 1 / e ^ 2 * y ^ 2 + 1 / w ^ 2 * z ^ 2 := by
      rw [axis_form _ (by rw [Q, Matrix.diagonal_transpose])]
      simp [Q]
    have hr : (Pi.single i v : V3) ⬝ᵥ R *ᵥ Pi.single i v = 625 * v ^ 2 := by
      simp [R, dotProduct_single]
      norm_num
      ring
    rw [hKx, axis_Ad, axis_Bd, hadd, axis_form P hPt, axis_form P hPt, hq, hr, ← Pi.single_add] at this
    rw [this]
    simp only [← hS, Matrix.mulVec_single, dotProduct_smul, single_dotProduct]
    simp
    ring
  have p3 : 0 ≤ P (.inr i) (.inr i) := hP.psd.diag_nonneg
  have hTd : 0 < T * (d i)⁻¹ := mul_pos hT (inv_pos.2 (hd i))
  generalize P (.inl i) (.inl i) = a at sq
  generalize P (.inl i) (.inr i) = b at sq
  generalize P (.inr i) (.inr i) = c at sq p3
  generalize S i i = s at sq hSpos
  have k4 : T * (d i)⁻¹ * K i (.inr i) < 2 := by
    rw [lt_div_iff₀ hT] at k3
    rw [mul_assoc, mul_comm (d i)⁻¹, ← mul_assoc, ← div_eq_mul_inv, div_lt_iff₀ (hd i)]
    linarith
  have kw0 : 0 < K i (.inr i) := lt_trans (by positivity) k2
  generalize K i (.inl i) = p at *
  generalize K i (.inr i) = q at *
  generalize (d i)⁻¹ = j at *
  -- the coefficients of `v y`, `v z` and `y z`
  have e1 : T ^ 2 / 4 * j * a + T * j * b = s * p := by
    have := sq 1 0 1; have := sq 1 0 (-1); linarith
  have e2 : T / 2 * (T ^ 2 / 4 * j * a + T * j * b) + (T ^ 2 / 4 * j * b + T * j * c) = s * q := by
    have := sq 0 1 1; have := sq 0 1 (-1); linarith
  have e3 : T / 2 * a = s * p * q := by
    have := sq 1 1 0; have := sq 1 (-1) 0; linarith
  have hb : 0 < b := by
    have h1 : T * j * b = s * p * (1 - T * j * q / 2) := by linear_combination e1 - (T / 2 * j) * e3
    have h2 : 0 < T * j * b := by rw [h1]; exact mul_pos (mul_pos hSpos k1) (by linarith)
    exact (mul_pos_iff_of_pos_left hTd).1 h2
  have h3 : s * (q - T / 2 * p) = T * j * (T / 4 * b + c) := by linear_combination -e2 + T / 2 * e1
  have h4 : 0 < s * (q - T / 2 * p) := by rw [h3]; positivity
  have := (mul_pos_iff_of_pos_left hSpos).1 h4
  linarith

/-! ## The delay -/

/-- Real and imaginary part of the denominator of the delay. -/
noncomputable def padeRe (x : ℝ) : ℝ := 1 - 3 / 28 * x ^ 2 + x ^ 4 / 1680

@[inherit_doc padeRe]
noncomputable def padeIm (x : ℝ) : ℝ := x / 2 - x ^ 3 / 84

theorem pade_eq (t o : ℝ) : padeAt t 4 (Complex.I * o) =
    (padeRe (o * t) - padeIm (o * t) * Complex.I) / (padeRe (o * t) + padeIm (o * t) * Complex.I) := by
  have h2 : Complex.I ^ 2 = -1 := Complex.I_sq
  have h3 : Complex.I ^ 3 = -Complex.I := Complex.I_pow_three
  have h4 : Complex.I ^ 4 = 1 := Complex.I_pow_four
  unfold padeAt
  congr 1
  · simp only [Finset.sum_range_succ, Finset.sum_range_zero, padeCoef, padeRe, padeIm]
    push_cast
    simp only [mul_pow, h2, h3, h4]
    ring
  · simp only [Finset.sum_range_succ, Finset.sum_range_zero, padeCoef, padeRe, padeIm]
    push_cast
    simp only [mul_pow, h2, h3, h4]
    ring

theorem pade_ne (x : ℝ) : padeRe x ^ 2 + padeIm x ^ 2 ≠ 0 := by
  intro h
  have h1 : padeRe x = 0 := by nlinarith [sq_nonneg (padeRe x), sq_nonneg (padeIm x)]
  have h2 : padeIm x = 0 := by nlinarith [sq_nonneg (padeRe x), sq_nonneg (padeIm x)]
  unfold padeRe at h1
  unfold padeIm at h2
  have h3 : x * (42 - x ^ 2) = 0 := by linarith
  rcases mul_eq_zero.1 h3 with h | h
  · rw [h] at h1; norm_num at h1
  · have : x ^ 2 = 42 := by linarith
    rw [show x ^ 4 = (x ^ 2) ^ 2 by ring, this] at h1
    norm_num at h1

theorem pade_ne' (x : ℝ) : (padeRe x + padeIm x * Complex.I : ℂ) ≠ 0 := by
  intro h
  apply pade_ne x
  have := congrArg Complex.normSq h
  rwa [Complex.normSq_add_mul_I, map_zero] at this

theorem pade_norm (t o : ℝ) : ‖padeAt t 4 (Complex.I * o)‖ = 1 := by
  rw [pade_eq, norm_div, div_eq_one_iff_eq (norm_ne_zero_iff.2 (pade_ne' _)),
    ← sq_eq_sq₀ (norm_nonneg _) (norm_nonneg _), Complex.sq_norm, Complex.sq_norm, Complex.normSq_add_mul_I,
    sub_eq_add_neg, ← neg_mul, ← Complex.ofReal_neg, Complex.normSq_add_mul_I]
  ring

/-- The value of the delay at a frequency is that of an exact one to within two millionths, if it turns the phase by at
most one radian. -/
theorem pade_delay {t o : ℝ} (h0 : 0 ≤ o * t) (h1 : o * t ≤ 1) :
    ‖padeAt t 4 (Complex.I * o) - Complex.exp (-(Complex.I * (o * t : ℝ)))‖ ≤ (o * t) ^ 9 / 500000 := by
  rw [pade_eq]
  generalize o * t = x at h0 h1
  set s : ℂ := Complex.I * x with hs
  have hsn : ‖s‖ = x := by rw [hs, norm_mul, Complex.norm_I, one_mul, Complex.norm_real, Real.norm_eq_abs, abs_of_nonneg h0]
  have h2 : s ^ 2 = -(x : ℂ) ^ 2 := by rw [hs, mul_pow, Complex.I_sq]; ring
  set z : ℂ := 1 + s / 2 + 3 / 28 * s ^ 2 + s ^ 3 / 84 + s ^ 4 / 1680 with hz
  set y : ℂ := 1 - s / 2 + 3 / 28 * s ^ 2 - s ^ 3 / 84 + s ^ 4 / 1680 with hy
  have e1 : (padeRe x + padeIm x * Complex.I : ℂ) = z := by
    rw [hz, show s ^ 3 = s ^ 2 * s by ring, show s ^ 4 = (s ^ 2) ^ 2 by ring, h2, hs, padeRe, padeIm]
    push_cast
    ring
  have e2 : (padeRe x - padeIm x * Complex.I : ℂ) = y := by
    rw [hy, show s ^ 3 = s ^ 2 * s by ring, show s ^ 4 = (s ^ 2) ^ 2 by ring, h2, hs, padeRe, padeIm]
    push_cast
    ring
  have hz0 : z ≠ 0 := e1 ▸ pade_ne' x
  rw [e1, e2]
  have hb := Complex.exp_bound (x := -s) (by rw [norm_neg, hsn]; exact h1) (n := 10) (by norm_num)
  rw [norm_neg, hsn] at hb
  set ρ := Complex.exp (-s) - ∑ m ∈ Finset.range 10, (-s) ^ m / (m.factorial : ℂ) with hρ
  have e3 : y - z * Complex.exp (-s) = s ^ 9 * (((1) / 25401600 : ℂ) + ((13) / 50803200 : ℂ) * s + ((1) / 8467200 : ℂ) * s ^ 2 + ((11) / 609638400 : ℂ) * s ^ 3 + ((1) / 609638400 : ℂ) * s ^ 4) - z * ρ := by
    have : Complex.exp (-s) = ρ + ∑ m ∈ Finset.range 10, (-s) ^ m / (m.factorial : ℂ) := by rw [hρ]; ring
    rw [this, hy, hz]
    simp only [Finset.sum_range_succ, Finset.sum_range_zero, Nat.factorial]
    push_cast
    ring
  have hzre : 25 / 28 ≤ ‖z‖ := by
    refine le_trans ?_ ((le_abs_self _).trans (Complex.abs_re_le_norm z))
    have hre : z.re = padeRe x := by rw [← e1]; simp
    rw [hre, padeRe]
    nlinarith [pow_nonneg h0 4]
  have hzn : ‖z‖ ≤ 2 := by
    have := norm_add_le_of_le (norm_add_le_of_le (norm_add_le_of_le (norm_add_le_of_le (le_refl ‖(1 : ℂ)‖)
      (le_refl ‖s / 2‖)) (le_refl ‖3 / 28 * s ^ 2‖)) (le_refl ‖s ^ 3 / 84‖)) (le_refl ‖s ^ 4 / 1680‖)
    rw [← hz] at this
    simp only [norm_div, norm_mul, norm_pow, hsn, norm_one] at this
    norm_num at this
    have p2 := pow_le_one₀ (n := 2) h0 h1
    have p3 := pow_le_one₀ (n := 3) h0 h1
    have p4 := pow_le_one₀ (n := 4) h0 h1
    linarith
  have hρn : ‖ρ‖ ≤ x ^ 9 * (11 / 36288000) := by
    refine hb.trans ?_
    have : x ^ 10 ≤ x ^ 9 := pow_le_pow_of_le_one h0 h1 (by norm_num)
    simp only [Nat.factorial]
    norm_num
    linarith
  have hc : ‖((1) / 25401600 : ℂ) + ((13) / 50803200 : ℂ) * s + ((1) / 8467200 : ℂ) * s ^ 2 + ((11) / 609638400 : ℂ) * s ^ 3 + ((1) / 609638400 : ℂ) * s ^ 4‖ ≤ 44 / 100000000 := by
    have := norm_add_le_of_le (norm_add_le_of_le (norm_add_le_of_le (norm_add_le_of_le (le_refl ‖((1) / 25401600 : ℂ)‖) (le_refl ‖((13) / 50803200 : ℂ) * s‖)) (le_refl ‖((1) / 8467200 : ℂ) * s ^ 2‖)) (le_refl ‖((11) / 609638400 : ℂ) * s ^ 3‖)) (le_refl ‖((1) / 609638400 : ℂ) * s ^ 4‖)
    simp only [norm_mul, norm_pow, hsn] at this
    norm_num at this
    have p2 := pow_le_one₀ (n := 2) h0 h1
    have p3 := pow_le_one₀ (n := 3) h0 h1
    have p4 := pow_le_one₀ (n := 4) h0 h1
    refine le_trans (by norm_num; exact this) ?_
    linarith
  have e4 : y / z - Complex.exp (-s) = (y - z * Complex.exp (-s)) / z := by field_simp
  rw [e4, norm_div, div_le_iff₀ (norm_pos_iff.2 hz0), e3]
  refine (norm_sub_le _ _).trans ?_
  rw [norm_mul, norm_mul, norm_pow, hsn]
  have hx9 : 0 ≤ x ^ 9 := pow_nonneg h0 9
  have f1 := mul_le_mul_of_nonneg_left hc hx9
  have f2 : ‖z‖ * ‖ρ‖ ≤ 2 * (x ^ 9 * (11 / 36288000)) := mul_le_mul hzn hρn (norm_nonneg _) (by norm_num)
  have f3 := mul_le_mul_of_nonneg_left hzre (by positivity : 0 ≤ x ^ 9 / 500000)
  linarith

/-! ## C198 -/

/-- The values of the loop: without a delay those of C151, with one multiplied by the delay. -/
theorem axisLoopAt_eq {J : M3} {K : Matrix (Fin 3) I6 ℝ} {i : Fin 3} {n : ℝ × ℝ} (h : axisLoop J K i = .ok n) {t : ℝ}
    (ht : 0 < t) (s : ℂ) : axisLoopAt J K (some t) i s = .ok (Spec.loopAt n s * padeAt t 4 s) := by
  simp only [axisLoopAt, h, if_pos ht, Spec.loopAt]

/-- A delay leaves the crossover where it is. If it turns the phase there by at most one radian, it takes that much
from the phase margin, to within two millionths. -/
theorem C198_phase (d : V3) (hd : ∀ i, 0 < d i) (T e w : ℝ) (hT : 0 < T) (K : Matrix (Fin 3) I6 ℝ)
    (h : GetGain (Matrix.diagonal d) T e w K) (i : Fin 3) (t : ℝ) (ht : 0 < t) (o : ℝ) (ho : 0 < o) :
    ∃ L L', axisLoopAt (Matrix.diagonal d) K none i (Complex.I * o) = .ok L ∧
      axisLoopAt (Matrix.diagonal d) K (some t) i (Complex.I * o) = .ok L' ∧ ‖L'‖ = ‖L‖ ∧
      (‖L‖ = 1 → o * t ≤ 1 → ∃ phi : ℝ, 0 < phi ∧ phi < Real.pi / 2 ∧
        L = Complex.exp (Complex.I * (phi - Real.pi : ℝ)) ∧
        ‖L' - Complex.exp (Complex.I * (phi - o * t - Real.pi : ℝ))‖ ≤ 2 / 1000000) := by
  obtain ⟨n, hn, -, h2, -⟩ := C151_margin d hd T e w hT K h i
  refine ⟨Spec.loopAt n (Complex.I * o), _, by simp only [axisLoopAt, hn, Spec.loopAt], axisLoopAt_eq hn ht _, ?_, ?_⟩
  · rw [norm_mul, pade_norm, mul_one]
  · intro h1 h3
    obtain ⟨phi, f1, f2, f3, -⟩ := h2 o ho h1
    refine ⟨phi, f1, f2, f3, ?_⟩
    have e : Complex.exp (Complex.I * (phi - o * t - Real.pi : ℝ)) =
        Spec.loopAt n (Complex.I * o) * Complex.exp (-(Complex.I * (o * t : ℝ))) := by
      rw [f3, ← Complex.exp_add]
      congr 1
      push_cast
      ring
    have hx : 0 ≤ o * t := by positivity
    rw [e, ← mul_sub, norm_mul, h1, one_mul]
    refine (pade_delay hx h3).trans ?_
    have := pow_le_one₀ (n := 9) hx h3
    linarith

/-- A number that `ct.margin` can report as the gain margin of an axis: the loop is negative at some frequency and its
value there is `-1 / g`. The least of them is the one that is reported. -/
def Spec.GainMargin (J : M3) (K : Matrix (Fin 3) I6 ℝ) (delay : Option ℝ) (i : Fin 3) (g : ℝ) : Prop :=
  0 < g ∧ ∃ o : ℝ, 0 < o ∧ axisLoopAt J K delay i (Complex.I * o) = .ok (-(1 / g : ℝ))

theorem pade_poly {u : ℝ} (h0 : 0 ≤ u) (h1 : u ≤ 1.2769) :
    0 < (1 - 3 / 28 * u + u ^ 2 / 1680) ^ 2 - u * (1 / 2 - u / 84) ^ 2 - (1 - 3 / 28 * u + u ^ 2 / 1680) * (1 / 2 - u / 84) := by
  norm_num at h1
  nlinarith [mul_nonneg h0 (sub_nonneg.2 h1), pow_nonneg h0 3, pow_nonneg h0 2, pow_nonneg h0 4, mul_nonneg (pow_nonneg h0 2) (sub_nonneg.2 h1), mul_nonneg (pow_nonneg h0 3) (sub_nonneg.2 h1)]

/-- What a negative value of the loop means for real and imaginary parts. -/
theorem margin_iff (n : ℝ × ℝ) {o t r : ℝ} (ho : 0 < o) :
    Spec.loopAt n (Complex.I * o) * padeAt t 4 (Complex.I * o) = -(r : ℂ) ↔
    n.2 * (padeRe (o * t) ^ 2 - padeIm (o * t) ^ 2) + 2 * padeRe (o * t) * padeIm (o * t) * (n.1 * o) =
      r * o ^ 2 * (padeRe (o * t) ^ 2 + padeIm (o * t) ^ 2) ∧
    n.1 * o * (padeRe (o * t) ^ 2 - padeIm (o * t) ^ 2) = 2 * padeRe (o * t) * padeIm (o * t) * n.2 := by
  rw [loopAt_imag n ho, pade_eq]
  have hz := pade_ne' (o * t)
  have hy : (padeRe (o * t) - padeIm (o * t) * Complex.I : ℂ) ≠ 0 := by
    intro h
    apply hz
    have := congrArg (starRingEnd ℂ) h
    simpa using this
  generalize padeRe (o * t) = a at *
  generalize padeIm (o * t) = b at *
  have ho' : (o : ℂ) ≠ 0 := by exact_mod_cast ho.ne'
  have key : (-(((n.2 / o ^ 2 : ℝ) : ℂ) + ((n.1 / o : ℝ) : ℂ) * Complex.I) * ((a - b * Complex.I) / (a + b * Complex.I)) =
      -(r : ℂ)) ↔ ((n.2 : ℂ) + n.1 * o * Complex.I) * (a - b * Complex.I) ^ 2 = r * o ^ 2 * (a ^ 2 + b ^ 2) := by
    have e1 : (a ^ 2 + b ^ 2 : ℂ) = (a + b * Complex.I) * (a - b * Complex.I) := by
      linear_combination (b : ℂ) ^ 2 * Complex.I_sq
    have e4 : ((n.2 / o ^ 2 : ℝ) : ℂ) + ((n.1 / o : ℝ) : ℂ) * Complex.I = ((n.2 : ℂ) + n.1 * o * Complex.I) / o ^ 2 := by
      push_cast
      field_simp
    rw [e1, e4, neg_mul, neg_inj, div_mul_div_comm, div_eq_iff (mul_ne_zero (pow_ne_zero 2 ho') hz)]
    constructor
    · intro h
      linear_combination (a - b * Complex.I : ℂ) * h
    · intro h
      apply mul_right_cancel₀ hy
      linear_combination h
  rw [key, Complex.ext_iff]
  have e2 : ((n.2 : ℂ) + n.1 * o * Complex.I) * (a - b * Complex.I) ^ 2 =
      ((n.2 * (a ^ 2 - b ^ 2) + 2 * a * b * (n.1 * o) : ℝ) : ℂ) +
        ((n.1 * o * (a ^ 2 - b ^ 2) - 2 * a * b * n.2 : ℝ) : ℂ) * Complex.I := by
    push_cast
    linear_combination (n.2 * b ^ 2 - 2 * a * b * n.1 * o + n.1 * o * b ^ 2 * Complex.I : ℂ) * Complex.I_sq
  have e3 : (r * o ^ 2 * (a ^ 2 + b ^ 2) : ℂ) = ((r * o ^ 2 * (a ^ 2 + b ^ 2) : ℝ) : ℂ) := by push_cast; ring
  rw [e2, e3]
  simp only [Complex.add_re, Complex.add_im, Complex.ofReal_re, Complex.ofReal_im, Complex.mul_re, Complex.mul_im,
    Complex.I_re, Complex.I_im, mul_zero, mul_one, sub_self, add_zero, zero_add]
  rw [sub_eq_zero]

/-- With the numbers of a design and a delay of half of the sampling time, every gain margin exceeds `2 / (T n.1)`. -/
theorem margin_large {n : ℝ × ℝ} {T o r : ℝ} (hT : 0 < T) (h1 : 0 < n.1) (h2 : 0 < n.2) (h12 : n.2 * T < n.1) (ho : 0 < o)
    (h : Spec.loopAt n (Complex.I * o) * padeAt (T / 2) 4 (Complex.I * o) = -(r : ℂ)) (hr : 0 < r) :
    r < T * n.1 / 2 := by
  have him := ((margin_iff n ho).1 h).2
  have hn : ‖Spec.loopAt n (Complex.I * o)‖ = r := by
    have := congrArg norm h
    rwa [norm_mul, pade_norm, mul_one, norm_neg, Complex.norm_real, Real.norm_eq_abs, abs_of_pos hr] at this
  have hn2 : n.2 ^ 2 + n.1 ^ 2 * o ^ 2 = r ^ 2 * o ^ 4 := by
    rw [← hn, Complex.sq_norm, loopAt_imag n ho, Complex.normSq_neg, Complex.normSq_add_mul_I]
    field_simp
  set x := o * (T / 2) with hx
  have hx0 : 0 < x := by positivity
  have hox : o = 2 * x / T := by rw [hx]; field_simp
  -- no crossover below 1.13
  have hbig : 1.13 < x := by
    by_contra hc
    rw [not_lt] at hc
    have hu : x ^ 2 ≤ 1.2769 := by norm_num at hc ⊢; nlinarith
    have hp := pade_poly (sq_nonneg x) hu
    have hu' : x ^ 2 ≤ 12769 / 10000 := by norm_num at hu; exact hu
    set A := 1 - 3 / 28 * x ^ 2 + (x ^ 2) ^ 2 / 1680 with hA
    set β := 1 / 2 - x ^ 2 / 84 with hβ
    have eA : padeRe x = A := by rw [padeRe, hA]; ring
    have eB : padeIm x = x * β := by rw [padeIm, hβ]; ring
    have hA0 : 0 < A := by rw [hA]; nlinarith [sq_nonneg (x ^ 2)]
    have hβ0 : 0 < β := by rw [hβ]; linarith
    rw [eA, eB, hox] at him
    have h3 : n.1 * (A ^ 2 - x ^ 2 * β ^ 2) = A * β * (n.2 * T) := by
      have e5 : 2 * x / T * T = 2 * x := div_mul_cancel₀ _ hT.ne'
      have : x * (n.1 * (A ^ 2 - x ^ 2 * β ^ 2)) = x * (A * β * (n.2 * T)) := by
        linear_combination T / 2 * him - n.1 * (A ^ 2 - (x * β) ^ 2) / 2 * e5
      exact mul_left_cancel₀ hx0.ne' this
    have h4 : A * β * (n.2 * T) < A * β * n.1 := mul_lt_mul_of_pos_left h12 (mul_pos hA0 hβ0)
    have h5 : n.1 * (A * β) < n.1 * (A ^ 2 - x ^ 2 * β ^ 2) := mul_lt_mul_of_pos_left (by linarith) h1
    linarith
  norm_num at hbig
  have hx2 : 12769 / 10000 < x ^ 2 := by nlinarith
  have e : o * T = 2 * x := by rw [hx]; ring
  have hz : 0 < n.2 * T := by positivity
  have h6 : (n.2 * T) ^ 2 < n.1 ^ 2 := pow_lt_pow_left₀ h12 hz.le (by norm_num)
  -- `r² o⁴ T⁴ = T² ((n₂T)² + n₁² (oT)²)`
  have h7 : r ^ 2 * (2 * x) ^ 4 = T ^ 2 * ((n.2 * T) ^ 2 + n.1 ^ 2 * (2 * x) ^ 2) := by
    rw [← e]; linear_combination -T ^ 4 * hn2
  have h8 : r ^ 2 * (16 * x ^ 4) < (T * n.1) ^ 2 * (1 + 4 * x ^ 2) := by
    have := mul_lt_mul_of_pos_left h6 (pow_pos hT 2)
    nlinarith
  have h9 : 1 + 4 * x ^ 2 < 4 * x ^ 4 := by nlinarith
  have h10 : r ^ 2 * (16 * x ^ 4) < (T * n.1 / 2) ^ 2 * (16 * x ^ 4) := by
    have := mul_lt_mul_of_pos_left h9 (pow_pos (mul_pos hT h1) 2)
    nlinarith
  have h11 : r ^ 2 < (T * n.1 / 2) ^ 2 := lt_of_mul_lt_mul_right h10 (by positivity)
  exact lt_of_pow_lt_pow_left₀ 2 (by positivity) h11

/-- The numbers of an axis of a design. -/
theorem design_numbers (d : V3) (hd : ∀ i, 0 < d i) (T e w : ℝ) (hT : 0 < T) (K : Matrix (Fin 3) I6 ℝ)
    (h : GetGain (Matrix.diagonal d) T e w K) (i : Fin 3) : ∃ n : ℝ × ℝ, axisLoop (Matrix.diagonal d) K i = .ok n ∧
      n.1 = K i (.inr i) / d i ∧ 0 < n.1 ∧ 0 < n.2 ∧ n.2 * T < n.1 := by
  have h1 := gain_ratio d hd T e w hT K h i
  obtain ⟨h2, -, -⟩ := C150_positive d hd T e w hT K h i
  have hdi := hd i
  have h3 : 0 < K i (.inr i) := lt_trans (by positivity) h1
  refine ⟨((d i)⁻¹ * K i (.inr i), 0.5 * (d i)⁻¹ * K i (.inl i)), ?_, ?_, ?_, ?_, ?_⟩
  · rw [axisLoop, npInv_diag d fun i => (hd i).ne']
    simp
  · simp only; rw [div_eq_inv_mul]
  · positivity
  · positivity
  · simp only
    have := mul_lt_mul_of_pos_left h1 (inv_pos.2 hdi)
    norm_num
    linarith

/-- For every satellite with principal axes and every design, the gain margin that is reported with a delay of half of
the sampling time (the delay that the comment suggests) is larger than the multiple `2 J / (T Kw)` of the gain at which
the sampled loop becomes unstable (`C151_sampled_partial`). -/
theorem C198_overstated (d : V3) (hd : ∀ i, 0 < d i) (T e w : ℝ) (hT : 0 < T) (K : Matrix (Fin 3) I6 ℝ)
    (h : GetGain (Matrix.diagonal d) T e w K) (i : Fin 3) (g : ℝ)
    (hg : Spec.GainMargin (Matrix.diagonal d) K (some (T / 2)) i g) : 2 * d i / (T * K i (.inr i)) < g := by
  obtain ⟨n, hn, e1, h1, h2, h12⟩ := design_numbers d hd T e w hT K h i
  obtain ⟨hg0, o, ho, hL⟩ := hg
  rw [axisLoopAt_eq hn (by positivity)] at hL
  have hL' := Except.ok.inj hL
  have := margin_large hT h1 h2 h12 ho (r := 1 / g) (by rw [hL']) (by positivity)
  have hdi := hd i
  rw [e1] at h1
  have hk : 0 < K i (.inr i) := by
    have := mul_pos h1 hdi
    rwa [div_mul_cancel₀ _ hdi.ne'] at this
  rw [e1, div_lt_iff₀ hg0] at this
  rw [div_lt_iff₀ (by positivity)]
  have e2 : T * (K i (.inr i) / d i) / 2 * g * (2 * d i) = g * (T * K i (.inr i)) := by field_simp
  have := mul_lt_mul_of_pos_right this (by positivity : 0 < 2 * d i)
  linarith

/-- The full claim: every multiple of the gain that is within the gain margins reported for that delay keeps the
sampled loop stable. -/
def C198_claim : Prop :=
  ∀ (d : V3) (T e w : ℝ) (K : Matrix (Fin 3) I6 ℝ), (∀ i, 0 < d i) → 0 < T → GetGain (Matrix.diagonal d) T e w K →
    ∀ c : ℝ, 0 < c → (∀ i g, Spec.GainMargin (Matrix.diagonal d) K (some (T / 2)) i g → c < g) →
      ∀ (l : ℂ) (v : I6 → ℂ), v ≠ 0 →
        ((Ad T - Bd (Matrix.diagonal d)⁻¹ T * (c • K)).map Complex.ofReal) *ᵥ v = l • v → ‖l‖ < 1

/-- The claim fails, for the moments of the satellite and the sampling time of the simulation. -/
theorem C198_fails : ¬ C198_claim := by
  intro hc
  obtain ⟨K, hK⟩ := exGain
  set d : V3 := ![0.0165, 0.016, 0.0065]
  have hk : ∀ i, 0 < K i (.inr i) := fun i =>
    lt_trans (mul_pos (by norm_num) (C150_positive d exMoments 0.1 0.1 0.05 (by norm_num) K hK i).1)
      (C150_positive d exMoments 0.1 0.1 0.05 (by norm_num) K hK i).2.1
  have hd : ∀ i, 0 < d i := exMoments
  obtain ⟨i, hi⟩ := Finite.exists_min fun i => 2 * d i / (0.1 * K i (.inr i))
  have hki := hk i
  have hdi := hd i
  have hpos : 0 < 2 * d i / (0.1 * K i (.inr i)) := by positivity
  have h1 := (C151_sampled_partial d hd 0.1 0.1 0.05 (by norm_num) K hK _ hpos).1
    (hc d 0.1 0.1 0.05 K hd (by norm_num) hK _ hpos fun j g hg =>
      (hi j).trans_lt (C198_overstated d hd 0.1 0.1 0.05 (by norm_num) K hK j g hg)) i
  have : 2 * d i / (0.1 * K i (.inr i)) * 0.1 * K i (.inr i) / d i = 2 := by field_simp
  linarith

/-- There is a gain margin below `1.571 * 2 J / (T Kw)`. -/
theorem margin_exists {n : ℝ × ℝ} {T : ℝ} (hT : 0 < T) (h1 : 0 < n.1) (h2 : 0 < n.2) (h12 : n.2 * T < n.1) :
    ∃ o r : ℝ, 0 < o ∧ 0 < r ∧ Spec.loopAt n (Complex.I * o) * padeAt (T / 2) 4 (Complex.I * o) = -(r : ℂ) ∧
      T * n.1 ≤ 3.142 * r := by
  set f : ℝ → ℝ := fun x => n.1 * (2 * x / T) * (padeRe x ^ 2 - padeIm x ^ 2) - 2 * padeRe x * padeIm x * n.2 with hf
  have hcont : Continuous f := by
    simp only [hf]
    unfold padeRe padeIm
    fun_prop
  have ha : 0 < f 1 := by
    simp only [hf, padeRe, padeIm]
    norm_num
    have : n.2 < n.1 / T := by rw [lt_div_iff₀ hT]; exact h12
    have e : n.1 * (2 / T) = 2 * (n.1 / T) := by ring
    rw [e]
    nlinarith
  have hb : f 1.571 < 0 := by
    simp only [hf, padeRe, padeIm]
    have : 0 < n.1 * (2 * 1.571 / T) := by positivity
    norm_num at this ⊢
    nlinarith
  obtain ⟨x, ⟨hx1, hx2⟩, hx⟩ := intermediate_value_Icc' (by norm_num : (1 : ℝ) ≤ 1.571) hcont.continuousOn
    (show (0 : ℝ) ∈ Set.Icc (f 1.571) (f 1) from ⟨hb.le, ha.le⟩)
  have hx0 : 0 < x := by linarith
  have hA0 : 0 < padeRe x := by
    unfold padeRe
    norm_num at hx2
    nlinarith [pow_nonneg hx0.le 4]
  have hB0 : 0 < padeIm x := by
    unfold padeIm
    norm_num at hx2
    nlinarith [pow_pos hx0 2, mul_pos hx0 hx0]
  set o := 2 * x / T with ho'
  have ho : 0 < o := by positivity
  have hox : o * (T / 2) = x := by rw [ho']; field_simp
  have him : n.1 * o * (padeRe x ^ 2 - padeIm x ^ 2) = 2 * padeRe x * padeIm x * n.2 := by
    have := hx
    simp only [hf] at this
    linarith
  have hs : 0 < padeRe x ^ 2 - padeIm x ^ 2 := by
    have h3 : 0 < n.1 * o * (padeRe x ^ 2 - padeIm x ^ 2) := by rw [him]; positivity
    exact (mul_pos_iff_of_pos_left (by positivity)).1 h3
  have hq := pade_ne x
  have hq0 : 0 < padeRe x ^ 2 + padeIm x ^ 2 := lt_of_le_of_ne (by positivity) hq.symm
  set r := (n.2 * (padeRe x ^ 2 - padeIm x ^ 2) + 2 * padeRe x * padeIm x * (n.1 * o)) /
    (o ^ 2 * (padeRe x ^ 2 + padeIm x ^ 2)) with hr
  have hr0 : 0 < r := by
    rw [hr]
    have : 0 < n.2 * (padeRe x ^ 2 - padeIm x ^ 2) := mul_pos h2 hs
    positivity
  have hL : Spec.loopAt n (Complex.I * o) * padeAt (T / 2) 4 (Complex.I * o) = -(r : ℂ) := by
    rw [margin_iff n ho, hox]
    refine ⟨?_, him⟩
    rw [hr]
    field_simp
  refine ⟨o, r, ho, hr0, hL, ?_⟩
  have hn : ‖Spec.loopAt n (Complex.I * o)‖ = r := by
    have := congrArg norm hL
    rwa [norm_mul, pade_norm, mul_one, norm_neg, Complex.norm_real, Real.norm_eq_abs, abs_of_pos hr0] at this
  have hn2 : n.2 ^ 2 + n.1 ^ 2 * o ^ 2 = r ^ 2 * o ^ 4 := by
    rw [← hn, Complex.sq_norm, loopAt_imag n ho, Complex.normSq_neg, Complex.normSq_add_mul_I]
    field_simp
  have h4 : n.1 ^ 2 ≤ (r * o) ^ 2 := by
    have : n.1 ^ 2 * o ^ 2 ≤ (r * o) ^ 2 * o ^ 2 := by nlinarith [sq_nonneg n.2]
    exact le_of_mul_le_mul_right this (by positivity)
  have h5 : n.1 ≤ r * o := le_of_sq_le_sq h4 (by positivity)
  have h6 : T * n.1 ≤ T * (r * o) := mul_le_mul_of_nonneg_left h5 hT.le
  have h7 : T * (r * o) = 2 * x * r := by rw [ho']; field_simp
  rw [h7] at h6
  refine h6.trans ?_
  nlinarith

/-- What holds: multiples of the gain up to 0.63 of the gain margins reported for a delay of half of the sampling time
keep the sampled loop stable. -/
theorem C198_safe_partial (d : V3) (hd : ∀ i, 0 < d i) (T e w : ℝ) (hT : 0 < T) (K : Matrix (Fin 3) I6 ℝ)
    (h : GetGain (Matrix.diagonal d) T e w K) (c : ℝ) (hc : 0 < c)
    (hm : ∀ i g, Spec.GainMargin (Matrix.diagonal d) K (some (T / 2)) i g → c ≤ 0.63 * g) (l : ℂ) (v : I6 → ℂ)
    (hv : v ≠ 0) (he : ((Ad T - Bd (Matrix.diagonal d)⁻¹ T * (c • K)).map Complex.ofReal) *ᵥ v = l • v) : ‖l‖ < 1 := by
  refine (C151_sampled_partial d hd T e w hT K h c hc).2 (fun i => ?_) l v hv he
  obtain ⟨n, hn, e1, h1, h2, h12⟩ := design_numbers d hd T e w hT K h i
  obtain ⟨o, r, ho, hr, hL, h3⟩ := margin_exists hT h1 h2 h12
  have := hm i (1 / r) ⟨by positivity, o, ho, by
    rw [axisLoopAt_eq hn (by positivity), hL, one_div_one_div]⟩
  have h4 : c * r ≤ 0.63 := by
    have := mul_le_mul_of_nonneg_right this hr.le
    rwa [mul_assoc, one_div, inv_mul_cancel₀ hr.ne', mul_one] at this
  have e2 : c * T * K i (.inr i) / d i = c * (T * n.1) := by rw [e1]; ring
  rw [e2]
  have h5 := mul_le_mul_of_nonneg_left h3 hc.le
  norm_num at h4 h5
  nlinarith

/-- The hypotheses hold for the moments of the satellite and the sampling time of the simulation; there is a gain margin
to report. -/
example : ∃ K g, GetGain (Matrix.diagonal ![0.0165, 0.016, 0.0065]) 0.1 0.1 0.05 K ∧
    Spec.GainMargin (Matrix.diagonal ![0.0165, 0.016, 0.0065]) K (some (0.1 / 2)) 0 g := by
  obtain ⟨K, hK⟩ := exGain
  obtain ⟨n, hn, e1, h1, h2, h12⟩ := design_numbers _ exMoments 0.1 0.1 0.05 (by norm_num) K hK 0
  obtain ⟨o, r, ho, hr, hL, -⟩ := margin_exists (by norm_num) h1 h2 h12
  exact ⟨K, 1 / r, hK, by positivity, o, ho, by rw [axisLoopAt_eq hn (by norm_num), hL, one_div_one_div]⟩

end Adcs
