import Verif.Props.GainAxes
import Mathlib.Analysis.SpecialFunctions.Complex.Arg
import Mathlib.FieldTheory.IsAlgClosed.Basic
import Mathlib.Analysis.Complex.Polynomial.Basic

set_option autoImplicit false

/-! # C151: the margins of one axis -/

namespace Adcs

open scoped Matrix Topology
open Filter Lqr Obs

/-! ## Roots of a quadratic inside the unit circle -/

theorem jury (t d : ℝ) :
    (∀ z : ℂ, z ^ 2 - t * z + d = 0 → ‖z‖ < 1) ↔ d < 1 ∧ 0 < 1 - t + d ∧ 0 < 1 + t + d := by
  constructor
  · intro h
    refine ⟨?_, ?_, ?_⟩
    · obtain ⟨s, hs⟩ := IsAlgClosed.exists_pow_nat_eq ((t : ℂ) ^ 2 - 4 * d) (n := 2) (by norm_num)
      have h1 := h ((t + s) / 2) (by linear_combination (1 / 4 : ℂ) * hs)
      have h2 := h ((t - s) / 2) (by linear_combination (1 / 4 : ℂ) * hs)
      have h3 : ((t + s) / 2) * ((t - s) / 2) = (d : ℂ) := by linear_combination (-1 / 4 : ℂ) * hs
      have h4 := congrArg norm h3
      rw [norm_mul, Complex.norm_real, Real.norm_eq_abs] at h4
      have h5 := le_abs_self d
      nlinarith [norm_nonneg (((t : ℂ) + s) / 2), norm_nonneg (((t : ℂ) - s) / 2)]
    · by_contra hc
      have hD : 0 ≤ t ^ 2 - 4 * d := by nlinarith [sq_nonneg (t - 2)]
      set r := Real.sqrt (t ^ 2 - 4 * d)
      have hr : r ^ 2 = t ^ 2 - 4 * d := Real.sq_sqrt hD
      have hr0 : 0 ≤ r := Real.sqrt_nonneg _
      have hr1 : 2 - t ≤ r := by
        by_contra hc2
        nlinarith
      have h1 := h (((t + r) / 2 : ℝ) : ℂ) (by
        have : ((t + r) / 2) ^ 2 - t * ((t + r) / 2) + d = 0 := by linear_combination (1 / 4 : ℝ) * hr
        exact_mod_cast this)
      rw [Complex.norm_real, Real.norm_eq_abs] at h1
      have := le_abs_self ((t + r) / 2)
      linarith
    · by_contra hc
      have hD : 0 ≤ t ^ 2 - 4 * d := by nlinarith [sq_nonneg (t + 2)]
      set r := Real.sqrt (t ^ 2 - 4 * d)
      have hr : r ^ 2 = t ^ 2 - 4 * d := Real.sq_sqrt hD
      have hr0 : 0 ≤ r := Real.sqrt_nonneg _
      have hr1 : 2 + t ≤ r := by
        by_contra hc2
        nlinarith
      have h1 := h (((t - r) / 2 : ℝ) : ℂ) (by
        have : ((t - r) / 2) ^ 2 - t * ((t - r) / 2) + d = 0 := by linear_combination (1 / 4 : ℝ) * hr
        exact_mod_cast this)
      rw [Complex.norm_real, Real.norm_eq_abs] at h1
      have := neg_abs_le ((t - r) / 2)
      linarith
  · rintro ⟨h1, h2, h3⟩ z hz
    have hre := congrArg Complex.re hz
    have him := congrArg Complex.im hz
    simp [pow_two] at hre him
    have hn : ‖z‖ ^ 2 = z.re ^ 2 + z.im ^ 2 := by
      rw [Complex.sq_norm, Complex.normSq_apply]; ring
    by_cases h0 : z.im = 0
    · rw [h0] at hre
      have hlt : z.re < 1 := by
        by_contra hc
        have : 0 < (z.re - 1) * (z.re + 1 - t) + (1 - t + d) := by
          have : 0 ≤ (z.re - 1) * (z.re + 1 - t) := mul_nonneg (by linarith) (by linarith)
          linarith
        nlinarith
      have hgt : -1 < z.re := by
        by_contra hc
        have : 0 ≤ (-z.re - 1) * (-z.re + 1 + t) := mul_nonneg (by linarith) (by linarith)
        nlinarith
      have : ‖z‖ ^ 2 < 1 := by rw [hn, h0]; nlinarith
      nlinarith [norm_nonneg z]
    · have ht : t = 2 * z.re := by
        have : z.im * (2 * z.re - t) = 0 := by linarith
        rcases mul_eq_zero.1 this with h | h
        · exact absurd h h0
        · linarith
      have : ‖z‖ ^ 2 < 1 := by rw [hn]; subst ht; nlinarith
      nlinarith [norm_nonneg z]

/-! ## The loop of every axis -/

/-- The gain matrix with diagonal blocks. -/
def diagGain (kq kw : V3) : Matrix (Fin 3) I6 ℝ := Matrix.fromCols (Matrix.diagonal kq) (Matrix.diagonal kw)

theorem gainMatrix_diag {d : V3} (hd : ∀ i, d i ≠ 0) {T e w : ℝ} (hT : T ≠ 0) {K : Matrix (Fin 3) I6 ℝ}
    (h : GetGain (Matrix.diagonal d) T e w K) : K = diagGain (fun i => K i (.inl i)) (fun i => K i (.inr i)) := by
  have h1 := (C150_decoupled d hd T e w hT).1 K h
  ext i j
  rcases j with j | j
  · rw [diagGain, Matrix.fromCols_apply_inl, Matrix.diagonal_apply]
    split_ifs with hij
    · rw [hij]
    · exact (h1 i j hij).1
  · rw [diagGain, Matrix.fromCols_apply_inr, Matrix.diagonal_apply]
    split_ifs with hij
    · rw [hij]
    · exact (h1 i j hij).2

theorem diag_inv (d : V3) (hd : ∀ i, d i ≠ 0) : (Matrix.diagonal d : M3)⁻¹ = Matrix.diagonal fun i => (d i)⁻¹ := by
  apply Matrix.inv_eq_left_inv
  rw [Matrix.diagonal_mul_diagonal, ← Matrix.diagonal_one]
  congr 1; funext i; exact inv_mul_cancel₀ (hd i)

theorem npInv_diag (d : V3) (hd : ∀ i, d i ≠ 0) :
    npInv (Matrix.diagonal d : M3) = .ok (Matrix.diagonal fun i => (d i)⁻¹) := by
  have hJ : (Matrix.diagonal d : M3).det ≠ 0 := by
    rw [Matrix.det_diagonal]; exact Finset.prod_ne_zero_iff.2 fun i _ => hd i
  rw [npInv, if_neg hJ, diag_inv d hd]

theorem loop_blocks (j : V3) (T : ℝ) (kq kw : V3) :
    Ad T - Bd (Matrix.diagonal j) T * diagGain kq kw = Matrix.fromBlocks
      (Matrix.diagonal fun i => 1 - T ^ 2 / 4 * (j i * kq i)) (Matrix.diagonal fun i => T / 2 - T ^ 2 / 4 * (j i * kw i))
      (Matrix.diagonal fun i => -(T * (j i * kq i))) (Matrix.diagonal fun i => 1 - T * (j i * kw i)) := by
  ext r c
  rcases r with r | r <;> rcases c with c | c <;> by_cases h : r = c <;>
    simp [Ad, Bd, A, B, diagGain, Matrix.mul_apply, Fintype.sum_sum_type, Matrix.diagonal_apply, Matrix.one_apply,
      Matrix.smul_apply, h, ite_mul, mul_ite] <;> ring

theorem loop_eig (p q r s : V3) :
    (∀ (l : ℂ) (v : I6 → ℂ), v ≠ 0 →
      ((Matrix.fromBlocks (Matrix.diagonal p) (Matrix.diagonal q) (Matrix.diagonal r) (Matrix.diagonal s)).map
        Complex.ofReal) *ᵥ v = l • v → ‖l‖ < 1) ↔
    ∀ i, ∀ z : ℂ, z ^ 2 - ((p i + s i : ℝ) : ℂ) * z + ((p i * s i - q i * r i : ℝ) : ℂ) = 0 → ‖z‖ < 1 := by
  have hM : ∀ v : I6 → ℂ,
      ((Matrix.fromBlocks (Matrix.diagonal p) (Matrix.diagonal q) (Matrix.diagonal r) (Matrix.diagonal s)).map
        Complex.ofReal) *ᵥ v = Sum.elim (fun i => (p i : ℂ) * v (.inl i) + q i * v (.inr i))
          (fun i => (r i : ℂ) * v (.inl i) + s i * v (.inr i)) := by
    intro v
    funext k
    rcases k with k | k <;>
      simp [Matrix.mulVec, dotProduct, Fintype.sum_sum_type, Matrix.diagonal_apply, apply_ite Complex.ofReal, ite_mul]
  constructor
  · intro h i z hz
    have hdet : (!![z - p i, -(q i : ℂ); -(r i : ℂ), z - s i]).det = 0 := by
      rw [Matrix.det_fin_two_of]
      push_cast at hz
      linear_combination hz
    obtain ⟨x, hx0, hx⟩ := Matrix.exists_mulVec_eq_zero_iff.2 hdet
    have e0 := congrFun hx 0
    have e1 := congrFun hx 1
    simp [Matrix.mulVec, dotProduct, Fin.sum_univ_two] at e0 e1
    refine h z (Sum.elim (Pi.single i (x 0)) (Pi.single i (x 1))) ?_ ?_
    · intro h0
      apply hx0
      have f0 := congrFun h0 (.inl i)
      have f1 := congrFun h0 (.inr i)
      simp at f0 f1
      funext k
      fin_cases k
      · exact f0
      · exact f1
    · rw [hM]
      funext k
      rcases k with k | k <;> by_cases hk : k = i
      · subst hk; simp; linear_combination -e0
      · simp [hk]
      · subst hk; simp; linear_combination -e1
      · simp [hk]
  · intro h l v hv he
    rw [hM] at he
    obtain ⟨i, hi⟩ : ∃ i, v (.inl i) ≠ 0 ∨ v (.inr i) ≠ 0 := by
      obtain ⟨k, hk⟩ := Function.ne_iff.1 hv
      rcases k with k | k
      · exact ⟨k, .inl hk⟩
      · exact ⟨k, .inr hk⟩
    have e0 := congrFun he (.inl i)
    have e1 := congrFun he (.inr i)
    simp at e0 e1
    apply h i l
    push_cast
    rcases hi with hi | hi
    · apply mul_right_cancel₀ hi
      linear_combination (s i - l) * e0 - (q i : ℂ) * e1
    · apply mul_right_cancel₀ hi
      linear_combination (p i - l) * e1 - (r i : ℂ) * e0

/-- When the sampled design model with diagonal gains is stable. -/
theorem loop_stable (d : V3) (hd : ∀ i, d i ≠ 0) (T : ℝ) (hT : 0 < T) (kq kw : V3) :
    (∀ (l : ℂ) (v : I6 → ℂ), v ≠ 0 →
      ((Ad T - Bd (Matrix.diagonal d)⁻¹ T * diagGain kq kw).map Complex.ofReal) *ᵥ v = l • v → ‖l‖ < 1) ↔
    ∀ i, 0 < kq i / d i ∧ T / 4 * (kq i / d i) < kw i / d i ∧ T * (kw i / d i) < 2 := by
  rw [diag_inv d hd, loop_blocks, loop_eig]
  refine forall_congr' fun i => ?_
  rw [jury]
  have e1 : (d i)⁻¹ * kq i = kq i / d i := by rw [mul_comm, div_eq_mul_inv]
  have e2 : (d i)⁻¹ * kw i = kw i / d i := by rw [mul_comm, div_eq_mul_inv]
  rw [e1, e2]
  generalize kq i / d i = a
  generalize kw i / d i = b
  have hdet : (1 - T ^ 2 / 4 * a) * (1 - T * b) - (T / 2 - T ^ 2 / 4 * b) * -(T * a) = 1 - T * (b - T / 4 * a) := by ring
  have hp : 1 - (1 - T ^ 2 / 4 * a + (1 - T * b)) + (1 - T * (b - T / 4 * a)) = T ^ 2 / 2 * a := by ring
  have hm : 1 + (1 - T ^ 2 / 4 * a + (1 - T * b)) + (1 - T * (b - T / 4 * a)) = 2 * (2 - T * b) := by ring
  rw [hdet, hp, hm]
  have hT2 : 0 < T ^ 2 / 2 := by positivity
  constructor
  · rintro ⟨h1, h2, h3⟩
    refine ⟨(mul_pos_iff_of_pos_left hT2).1 h2, ?_, by linarith⟩
    have : 0 < T * (b - T / 4 * a) := by linarith
    have := (mul_pos_iff_of_pos_left hT).1 this
    linarith
  · rintro ⟨h1, h2, h3⟩
    refine ⟨?_, mul_pos hT2 h1, by linarith⟩
    have : 0 < T * (b - T / 4 * a) := mul_pos hT (by linarith)
    linarith

/-- For a satellite with positive principal moments the gains of every axis are positive: the torque opposes both
the attitude error and the rate; the damping is at least a quarter of the sampling time times the stiffness, and
small enough for the sampling time. -/
theorem C150_positive (d : V3) (hd : ∀ i, 0 < d i) (T e w : ℝ) (hT : 0 < T) (K : Matrix (Fin 3) I6 ℝ)
    (h : GetGain (Matrix.diagonal d) T e w K) (i : Fin 3) :
    0 < K i (.inl i) ∧ T / 4 * K i (.inl i) < K i (.inr i) ∧ K i (.inr i) < 2 * d i / T := by
  have hd' : ∀ i, d i ≠ 0 := fun i => (hd i).ne'
  have h1 := ((C138_stable (Matrix.diagonal d) T e w).1 K h).2
  rw [gainMatrix_diag hd' hT.ne' h] at h1
  obtain ⟨g1, g2, g3⟩ := (loop_stable d hd' T hT _ _).1 h1 i
  have hi := hd i
  refine ⟨?_, ?_, ?_⟩
  · have := mul_pos g1 hi
    rwa [div_mul_cancel₀ _ (hd' i)] at this
  · rw [← mul_div_assoc, div_lt_div_iff_of_pos_right hi] at g2
    exact g2
  · rw [lt_div_iff₀ hT]
    rw [← mul_div_assoc, div_lt_iff₀ hi] at g3
    linarith

/-! ## C151 -/

namespace Spec

/-- The value of the transfer function with numerator `n` and denominator `s^2`. -/
noncomputable def loopAt (n : ℝ × ℝ) (s : ℂ) : ℂ := ((n.1 : ℂ) * s + n.2) / s ^ 2

end Spec

/-- The function whose margins are computed is the response of the controller `K x` to a torque of frequency `s` on
the axis, in the continuous design model `x' = A x + B u` of a satellite with principal axes: the output of the
controller is on the same axis only. -/
theorem C151_loop (d : V3) (hd : ∀ i, d i ≠ 0) (T e w : ℝ) (hT : T ≠ 0) (K : Matrix (Fin 3) I6 ℝ)
    (h : GetGain (Matrix.diagonal d) T e w K) (i : Fin 3) :
    ∃ n, axisLoop (Matrix.diagonal d) K i = .ok n ∧ ∀ (s : ℂ), s ≠ 0 → ∀ x : I6 → ℂ,
      s • x = A.map Complex.ofReal *ᵥ x + (B (Matrix.diagonal d)⁻¹).map Complex.ofReal *ᵥ Pi.single i 1 →
      K.map Complex.ofReal *ᵥ x = Pi.single i (Spec.loopAt n s) := by
  refine ⟨((d i)⁻¹ * K i (.inr i), 0.5 * (d i)⁻¹ * K i (.inl i)), ?_, ?_⟩
  · rw [axisLoop, npInv_diag d hd]
    simp
  · intro s hs x hx
    have hq : ∀ k, s * x (.inl k) = 0.5 * x (.inr k) := by
      intro k
      have := congrFun hx (.inl k)
      simp [A, B, Matrix.mulVec, dotProduct, Fintype.sum_sum_type, Matrix.one_apply, apply_ite Complex.ofReal] at this
      rw [this]
    have hw : ∀ k, s * x (.inr k) = if k = i then ((d i : ℂ))⁻¹ else 0 := by
      intro k
      have := congrFun hx (.inr k)
      rw [diag_inv d hd] at this
      simp [A, B, Matrix.mulVec, dotProduct, Fintype.sum_sum_type, Matrix.diagonal_apply] at this
      rw [this]
      by_cases hk : k = i
      · simp [hk]
      · simp [hk]
    have hKd : K.map Complex.ofReal *ᵥ x =
        (diagGain (fun i => K i (.inl i)) fun i => K i (.inr i)).map Complex.ofReal *ᵥ x := by
      conv_lhs => rw [gainMatrix_diag hd hT h]
    rw [hKd]
    funext k
    have hK : ((diagGain (fun i => K i (.inl i)) fun i => K i (.inr i)).map Complex.ofReal *ᵥ x) k =
        (K k (.inl k) : ℂ) * x (.inl k) + K k (.inr k) * x (.inr k) := by
      simp [diagGain, Matrix.mulVec, dotProduct, Fintype.sum_sum_type, Matrix.diagonal_apply, apply_ite Complex.ofReal,
        ite_mul]
    rw [hK, Pi.single_apply]
    have h1 := hq k
    have h2 := hw k
    split_ifs with hk
    · subst hk
      rw [if_pos rfl] at h2
      rw [Spec.loopAt, eq_div_iff (pow_ne_zero 2 hs)]
      push_cast
      linear_combination (K k (.inl k) : ℂ) * s * h1 + (0.5 * (K k (.inl k) : ℂ) + (K k (.inr k) : ℂ) * s) * h2
    · rw [if_neg hk] at h2
      have h3 : x (.inr k) = 0 := by
        rcases mul_eq_zero.1 h2 with h | h
        · exact absurd h hs
        · exact h
      rw [h3, mul_zero] at h1
      rcases mul_eq_zero.1 h1 with h | h
      · exact absurd h hs
      · rw [h, h3]; simp

theorem loopAt_imag (n : ℝ × ℝ) {o : ℝ} (ho : 0 < o) :
    Spec.loopAt n (Complex.I * o) = -(((n.2 / o ^ 2 : ℝ) : ℂ) + ((n.1 / o : ℝ) : ℂ) * Complex.I) := by
  have h0 : (o : ℂ) ≠ 0 := by exact_mod_cast ho.ne'
  rw [Spec.loopAt, mul_pow, Complex.I_sq]
  push_cast
  field_simp
  ring

/-- The margins that the numbers of every axis have: with a gain from `get_gain_matrix` for a satellite with
positive principal moments, the loop passes through the unit circle at exactly one frequency, its phase margin there
lies strictly between 0 and 90 degrees and has the tangent `num[0] * w / num[1]`, and no frequency makes the loop a
negative real number, so that the gain margin is infinite. -/
theorem C151_margin (d : V3) (hd : ∀ i, 0 < d i) (T e w : ℝ) (hT : 0 < T) (K : Matrix (Fin 3) I6 ℝ)
    (h : GetGain (Matrix.diagonal d) T e w K) (i : Fin 3) :
    ∃ n, axisLoop (Matrix.diagonal d) K i = .ok n ∧
      (∃! o : ℝ, 0 < o ∧ ‖Spec.loopAt n (Complex.I * o)‖ = 1) ∧
      (∀ o : ℝ, 0 < o → ‖Spec.loopAt n (Complex.I * o)‖ = 1 → ∃ phi : ℝ, 0 < phi ∧ phi < Real.pi / 2 ∧
        Spec.loopAt n (Complex.I * o) = Complex.exp (Complex.I * (phi - Real.pi : ℝ)) ∧
        Real.tan phi = n.1 * o / n.2) ∧
      ∀ o : ℝ, 0 < o → ∀ r : ℝ, Spec.loopAt n (Complex.I * o) ≠ r := by
  obtain ⟨hq, hqw, -⟩ := C150_positive d hd T e w hT K h i
  have hi := hd i
  have hw : 0 < K i (.inr i) := lt_trans (by positivity) hqw
  refine ⟨((d i)⁻¹ * K i (.inr i), 0.5 * (d i)⁻¹ * K i (.inl i)), ?_, ?_⟩
  · rw [axisLoop, npInv_diag d fun i => (hd i).ne']
    simp
  have hb : 0 < (d i)⁻¹ * K i (.inr i) := by positivity
  have ha : 0 < 0.5 * (d i)⁻¹ * K i (.inl i) := by positivity
  generalize (d i)⁻¹ * K i (.inr i) = b at hb ⊢
  generalize 0.5 * (d i)⁻¹ * K i (.inl i) = a at ha ⊢
  have hnorm : ∀ o : ℝ, 0 < o → (‖Spec.loopAt (b, a) (Complex.I * o)‖ = 1 ↔ a ^ 2 + b ^ 2 * o ^ 2 = o ^ 4) := by
    intro o ho
    rw [loopAt_imag _ ho, norm_neg, ← sq_eq_sq₀ (norm_nonneg _) zero_le_one, Complex.sq_norm, Complex.normSq_add_mul_I]
    have e : (a / o ^ 2) ^ 2 + (b / o) ^ 2 = (a ^ 2 + b ^ 2 * o ^ 2) / o ^ 4 := by field_simp
    dsimp only
    rw [e, one_pow, div_eq_one_iff_eq (by positivity)]
  refine ⟨?_, ?_, ?_⟩
  · set R := Real.sqrt (b ^ 4 + 4 * a ^ 2)
    have hR : R ^ 2 = b ^ 4 + 4 * a ^ 2 := Real.sq_sqrt (by positivity)
    have hR0 : 0 ≤ R := Real.sqrt_nonneg _
    have hX : 0 < (b ^ 2 + R) / 2 := by positivity
    refine ⟨Real.sqrt ((b ^ 2 + R) / 2), ⟨Real.sqrt_pos.2 hX, ?_⟩, ?_⟩
    · rw [hnorm _ (Real.sqrt_pos.2 hX)]
      have h2 : Real.sqrt ((b ^ 2 + R) / 2) ^ 2 = (b ^ 2 + R) / 2 := Real.sq_sqrt hX.le
      have h4 : Real.sqrt ((b ^ 2 + R) / 2) ^ 4 = ((b ^ 2 + R) / 2) ^ 2 := by
        rw [show (4 : ℕ) = 2 * 2 from rfl, pow_mul, h2]
      rw [h2, h4]
      linear_combination (-1 / 4 : ℝ) * hR
    · rintro o ⟨ho, h1⟩
      rw [hnorm o ho] at h1
      rw [eq_comm, Real.sqrt_eq_iff_mul_self_eq hX.le ho.le]
      have h3 : (o ^ 2 - (b ^ 2 + R) / 2) * (o ^ 2 - (b ^ 2 - R) / 2) = 0 := by
        linear_combination -h1 - (1 / 4 : ℝ) * hR
      rcases mul_eq_zero.1 h3 with h4 | h4
      · linarith [sq o]
      · exfalso
        have : b ^ 2 ≤ R := by
          by_contra hc
          nlinarith [sq_nonneg b, pow_pos ha 2]
        nlinarith [pow_pos ho 2]
  · intro o ho h1
    have hL := loopAt_imag (b, a) ho
    set z : ℂ := ((a / o ^ 2 : ℝ) : ℂ) + ((b / o : ℝ) : ℂ) * Complex.I with hz
    have hre : z.re = a / o ^ 2 := by simp [hz, -Complex.ofReal_div]
    have him : z.im = b / o := by simp [hz, -Complex.ofReal_div]
    have hz1 : ‖z‖ = 1 := by rw [← h1, hL, norm_neg]
    have hre0 : 0 < z.re := by rw [hre]; positivity
    have him0 : 0 < z.im := by rw [him]; positivity
    refine ⟨z.arg, ?_, ?_, ?_, ?_⟩
    · have := Complex.arg_nonneg_iff.2 him0.le
      refine lt_of_le_of_ne this fun h0 => ?_
      have := (Complex.arg_eq_zero_iff.1 h0.symm).2
      linarith
    · exact (abs_lt.1 (Complex.abs_arg_lt_pi_div_two_iff.2 (.inl hre0))).2
    · have h2 := Complex.norm_mul_exp_arg_mul_I z
      rw [hz1, Complex.ofReal_one, one_mul] at h2
      rw [hL]
      push_cast
      rw [mul_sub, Complex.exp_sub, mul_comm Complex.I (Real.pi : ℂ), Complex.exp_pi_mul_I, mul_comm Complex.I, h2]
      ring
    · rw [Complex.tan_arg, hre, him]
      field_simp
  · intro o ho r hr
    rw [loopAt_imag _ ho] at hr
    have := congrArg Complex.im hr
    simp [-Complex.ofReal_div] at this
    rcases this with h | h
    · exact hb.ne' h
    · exact ho.ne' h

/-- What an infinite gain margin promises, in continuous time: with every positive multiple of the gain all
eigenvalues of the closed loop have a negative real part. -/
theorem C151_continuous (d : V3) (hd : ∀ i, 0 < d i) (T e w : ℝ) (hT : 0 < T) (K : Matrix (Fin 3) I6 ℝ)
    (h : GetGain (Matrix.diagonal d) T e w K) (c : ℝ) (hc : 0 < c) (l : ℂ) (v : I6 → ℂ) (hv : v ≠ 0)
    (he : ((A - B (Matrix.diagonal d)⁻¹ * (c • K)).map Complex.ofReal) *ᵥ v = l • v) : l.re < 0 := by
  have hd' : ∀ i, d i ≠ 0 := fun i => (hd i).ne'
  have hg := C150_positive d hd T e w hT K h
  rw [gainMatrix_diag hd' hT.ne' h, diag_inv d hd'] at he
  have hM : ∀ v : I6 → ℂ, ((A - B (Matrix.diagonal fun i => (d i)⁻¹) * (c • diagGain (fun i => K i (.inl i))
      fun i => K i (.inr i))).map Complex.ofReal) *ᵥ v = Sum.elim (fun i => 0.5 * v (.inr i))
        (fun i => -((c * ((d i)⁻¹ * K i (.inl i)) : ℝ) : ℂ) * v (.inl i) -
          ((c * ((d i)⁻¹ * K i (.inr i)) : ℝ) : ℂ) * v (.inr i)) := by
    intro v
    have hb : A - B (Matrix.diagonal fun i => (d i)⁻¹) * (c • diagGain (fun i => K i (.inl i)) fun i => K i (.inr i)) =
        Matrix.fromBlocks 0 (Matrix.diagonal fun _ => 0.5) (Matrix.diagonal fun i => -(c * ((d i)⁻¹ * K i (.inl i))))
          (Matrix.diagonal fun i => -(c * ((d i)⁻¹ * K i (.inr i)))) := by
      ext r q
      rcases r with r | r <;> rcases q with q | q <;> by_cases h : r = q <;>
        simp [A, B, diagGain, h]
    rw [hb]
    funext k
    rcases k with k | k <;>
      simp [Matrix.mulVec, dotProduct, Fintype.sum_sum_type, Matrix.diagonal_apply, apply_ite Complex.ofReal, ite_mul] <;> ring
  rw [hM] at he
  obtain ⟨i, hi⟩ : ∃ i, v (.inl i) ≠ 0 ∨ v (.inr i) ≠ 0 := by
    obtain ⟨k, hk⟩ := Function.ne_iff.1 hv
    rcases k with k | k
    · exact ⟨k, .inl hk⟩
    · exact ⟨k, .inr hk⟩
  have e0 := congrFun he (.inl i)
  have e1 := congrFun he (.inr i)
  obtain ⟨hq, hqw, -⟩ := hg i
  have hdi := hd i
  have hw : 0 < K i (.inr i) := lt_trans (by positivity) hqw
  have ha : 0 < c * ((d i)⁻¹ * K i (.inl i)) := by positivity
  have hb : 0 < c * ((d i)⁻¹ * K i (.inr i)) := by positivity
  simp only [Sum.elim_inl, Sum.elim_inr, Pi.smul_apply, smul_eq_mul] at e0 e1
  generalize c * ((d i)⁻¹ * K i (.inl i)) = a at *
  generalize c * ((d i)⁻¹ * K i (.inr i)) = b at *
  have hl : l ^ 2 + b * l + 0.5 * a = 0 := by
    rcases hi with hi | hi
    · apply mul_right_cancel₀ hi
      linear_combination -(l + b) * e0 - (0.5 : ℂ) * e1
    · apply mul_right_cancel₀ hi
      linear_combination (a : ℂ) * e0 - l * e1
  have hre := congrArg Complex.re hl
  have him := congrArg Complex.im hl
  have h05 : (0.5 : ℂ) = ((0.5 : ℝ) : ℂ) := by norm_num
  rw [h05] at hre him
  simp [pow_two] at hre him
  by_contra hcon
  rw [not_lt] at hcon
  have h0 : l.im = 0 := by
    have : l.im * (2 * l.re + b) = 0 := by linarith
    rcases mul_eq_zero.1 this with h | h
    · exact h
    · linarith
  rw [h0] at hre
  nlinarith [mul_nonneg hb.le hcon, mul_self_nonneg l.re]

/-- The full claim: the sampled design model too stays stable for every positive multiple of the gain. -/
def C151_claim : Prop :=
  ∀ (d : V3) (T e w : ℝ) (K : Matrix (Fin 3) I6 ℝ), (∀ i, 0 < d i) → 0 < T → GetGain (Matrix.diagonal d) T e w K →
    ∀ c : ℝ, 0 < c → ∀ (l : ℂ) (v : I6 → ℂ), v ≠ 0 →
      ((Ad T - Bd (Matrix.diagonal d)⁻¹ T * (c • K)).map Complex.ofReal) *ᵥ v = l • v → ‖l‖ < 1

theorem smul_diagGain (c : ℝ) (kq kw : V3) :
    c • diagGain kq kw = diagGain (fun i => c * kq i) (fun i => c * kw i) := by
  ext i j
  rcases j with j | j <;> simp [diagGain, Matrix.diagonal_apply]

/-- The exact limit of the multiples: with `c` times the gain the sampled design model is stable if and only if
`c * T * Kw_i / J_i` is below 2 for every axis. The reported infinite gain margin is true only of the continuous
model (`C151_continuous`). -/
theorem C151_sampled_partial (d : V3) (hd : ∀ i, 0 < d i) (T e w : ℝ) (hT : 0 < T) (K : Matrix (Fin 3) I6 ℝ)
    (h : GetGain (Matrix.diagonal d) T e w K) (c : ℝ) (hc : 0 < c) :
    (∀ (l : ℂ) (v : I6 → ℂ), v ≠ 0 →
      ((Ad T - Bd (Matrix.diagonal d)⁻¹ T * (c • K)).map Complex.ofReal) *ᵥ v = l • v → ‖l‖ < 1) ↔
    ∀ i, c * T * K i (.inr i) / d i < 2 := by
  have hd' : ∀ i, d i ≠ 0 := fun i => (hd i).ne'
  have hg := C150_positive d hd T e w hT K h
  have hK := gainMatrix_diag hd' hT.ne' h
  have e1 : c • K = diagGain (fun i => c * K i (.inl i)) (fun i => c * K i (.inr i)) := by
    conv_lhs => rw [hK]
    rw [smul_diagGain]
  rw [e1, loop_stable d hd' T hT]
  refine forall_congr' fun i => ?_
  obtain ⟨g1, g2, -⟩ := hg i
  have hi := hd i
  constructor
  · rintro ⟨-, -, h3⟩
    have : T * (c * K i (.inr i) / d i) = c * T * K i (.inr i) / d i := by ring
    linarith
  · intro h3
    refine ⟨by positivity, ?_, ?_⟩
    · rw [← mul_div_assoc, div_lt_div_iff_of_pos_right hi]
      nlinarith
    · have : T * (c * K i (.inr i) / d i) = c * T * K i (.inr i) / d i := by ring
      linarith

/-- A gain for the moments of the satellite. -/
theorem exGain : ∃ K, GetGain (Matrix.diagonal ![0.0165, 0.016, 0.0065]) 0.1 0.1 0.05 K := by
  have hJ : (Matrix.diagonal ![0.0165, 0.016, 0.0065] : M3).det ≠ 0 := by
    rw [Matrix.det_diagonal]; norm_num [Fin.prod_univ_three]
  exact (C138_unique _ hJ 0.1 0.1 0.05 (by norm_num) (by norm_num) (by norm_num)).1.exists

theorem exMoments (i : Fin 3) : (0 : ℝ) < ![0.0165, 0.016, 0.0065] i := by
  fin_cases i <;> norm_num

/-- The claim fails for the gain of the satellite with the sampling time of the simulation: a large enough multiple
of it makes the sampled loop unstable. -/
theorem C151_sampled_fails : ¬ C151_claim := by
  intro hc
  obtain ⟨K, hK⟩ := exGain
  have hg := C150_positive _ exMoments 0.1 0.1 0.05 (by norm_num) K hK 0
  have hw : 0 < K 0 (.inr 0) := lt_trans (mul_pos (by norm_num) hg.1) hg.2.1
  have hd := exMoments 0
  set d : V3 := ![0.0165, 0.016, 0.0065]
  have h1 := (C151_sampled_partial d exMoments 0.1 0.1 0.05 (by norm_num) K hK (2 * d 0 / (0.1 * K 0 (.inr 0)))
    (by positivity)).1 (hc d 0.1 0.1 0.05 K exMoments (by norm_num) hK _ (by positivity)) 0
  have : 2 * d 0 / (0.1 * K 0 (.inr 0)) * 0.1 * K 0 (.inr 0) / d 0 = 2 := by field_simp
  linarith

/-- The hypotheses hold for the satellite with the sampling time of the simulation. -/
example : ∃ K n, axisLoop (Matrix.diagonal ![0.0165, 0.016, 0.0065]) K 0 = .ok n ∧
    ∃! o : ℝ, 0 < o ∧ ‖Spec.loopAt n (Complex.I * o)‖ = 1 := by
  obtain ⟨K, hK⟩ := exGain
  obtain ⟨n, h1, h2, -⟩ := C151_margin _ exMoments 0.1 0.1 0.05 (by norm_num) K hK 0
  exact ⟨K, n, h1, h2⟩

end Adcs
