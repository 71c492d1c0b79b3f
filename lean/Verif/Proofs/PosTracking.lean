import Verif.Props.Prediction
import Verif.Proofs.KeepOut
import Verif.Props.Bbq

set_option autoImplicit false

/-! # Lemmas on the error of the position filter while fixes keep coming -/

namespace Adcs

open Spec Vec Dyn JDay Fr Obs Obs.Pos
open scoped Matrix

/-- In every direction `e` is at most `c` standard deviations of the covariance `P`. -/
def Spec.Sigmas (P : M6) (e : I6 → ℝ) (c : ℝ) : Prop := ∀ w, |w ⬝ᵥ e| ≤ c * √(w ⬝ᵥ (P *ᵥ w))

/-! ## The update -/

section update
variable {P : M6}

theorem gain_post (hP : Covariance P) : kgain P Pos.R 1 * Pos.R = kpost P Pos.R 1 := by
  have h := kgain_innov (H := (1 : M6)) hP posR_strict
  rw [innov, Matrix.transpose_one, Matrix.mul_one, Matrix.one_mul, Matrix.mul_add] at h
  rw [kpost, Matrix.mul_one, Matrix.sub_mul, Matrix.one_mul]
  exact eq_sub_of_add_eq h

/-- What the gain makes of a direction: the part the fix sees and the part the prediction sees. -/
theorem gain_parts (hP : Covariance P) (w : I6 → ℝ) : ∃ s u : I6 → ℝ, s + u = w ∧ P *ᵥ s = Pos.R *ᵥ u ∧
    w ⬝ᵥ (kpost P Pos.R 1 *ᵥ w) = s ⬝ᵥ (P *ᵥ s) + u ⬝ᵥ (Pos.R *ᵥ u) ∧
    ∀ e f : I6 → ℝ, w ⬝ᵥ (e + kgain P Pos.R 1 *ᵥ (f - e)) = s ⬝ᵥ e + u ⬝ᵥ f := by
  have hg := gain_post hP
  have hj := kpost_joseph (H := (1 : M6)) hP posR_strict
  have hc := (kpost_cov (H := (1 : M6)) hP posR_strict).1
  have hk : kpost P Pos.R 1 = (1 - kgain P Pos.R 1) * P := by rw [kpost, Matrix.mul_one]
  rw [Matrix.mul_one] at hj
  set K := kgain P Pos.R 1
  refine ⟨(1 - K)ᵀ *ᵥ w, Kᵀ *ᵥ w, ?_, ?_, ?_, fun e f => ?_⟩
  · rw [← Matrix.add_mulVec, ← Matrix.transpose_add, sub_add_cancel, Matrix.transpose_one, Matrix.one_mulVec]
  · rw [Matrix.mulVec_mulVec, Matrix.mulVec_mulVec]
    congr 1
    have h1 : P * (1 - K)ᵀ = (kpost P Pos.R 1)ᵀ := by rw [hk, Matrix.transpose_mul, hP.1]
    have h2 : Pos.R * Kᵀ = (kpost P Pos.R 1)ᵀ := by rw [← hg, Matrix.transpose_mul, posR_strict.1]
    rw [h1, h2]
  · rw [hj, Matrix.add_mulVec, dotProduct_add, quad_conj, quad_conj]
  · rw [Matrix.transpose_sub, Matrix.sub_mulVec, Matrix.transpose_one, Matrix.one_mulVec, sub_dotProduct,
      dotProduct_add, Matrix.mulVec_sub, dotProduct_sub, Matrix.dotProduct_mulVec, Matrix.dotProduct_mulVec,
      ← Matrix.mulVec_transpose]
    ring

theorem quad_R (w : I6 → ℝ) : w ⬝ᵥ (Pos.R *ᵥ w) =
    10.0598 ^ 2 * npNorm (w ∘ Sum.inl) ^ 2 + 0.52038 ^ 2 * npNorm (w ∘ Sum.inr) ^ 2 := by
  simp only [dotProduct, Fintype.sum_sum_type, Pos.R, Matrix.mulVec_diagonal, npNorm_sq, Finset.mul_sum,
    Function.comp_apply, Sum.elim_inl, Sum.elim_inr]
  congr 1 <;> exact Finset.sum_congr rfl fun i _ => by ring

theorem quad_Q (w : I6 → ℝ) : w ⬝ᵥ (Pos.Q *ᵥ w) = 0.018166 ^ 2 * npNorm (w ∘ Sum.inr) ^ 2 := by
  simp only [dotProduct, Fintype.sum_sum_type, Pos.Q, Matrix.mulVec_diagonal, npNorm_sq, Finset.mul_sum,
    Function.comp_apply, Sum.elim_inl, Sum.elim_inr, zero_mul, mul_zero, Finset.sum_const_zero, zero_add]
  exact Finset.sum_congr rfl fun i _ => by ring

/-- If the covariance is at least a part of that of a fix, the fix takes at least that part of the weight. -/
theorem gain_share {ε : ℝ} (hε : 0 ≤ ε) (h : ∀ w, ε * (w ⬝ᵥ (Pos.R *ᵥ w)) ≤ w ⬝ᵥ (P *ᵥ w)) {s u : I6 → ℝ}
    (hsu : P *ᵥ s = Pos.R *ᵥ u) : ε * (s ⬝ᵥ (P *ᵥ s)) ≤ u ⬝ᵥ (Pos.R *ᵥ u) := by
  have h0 := posR_strict.weaken.2 (ε • s - u)
  have hs := h s
  have sym : u ⬝ᵥ (Pos.R *ᵥ s) = s ⬝ᵥ (Pos.R *ᵥ u) := by
    rw [Matrix.dotProduct_mulVec, ← Matrix.mulVec_transpose, posR_strict.1, dotProduct_comm]
  rw [hsu] at hs ⊢
  simp only [Matrix.mulVec_sub, Matrix.mulVec_smul, dotProduct_sub, sub_dotProduct, smul_dotProduct, dotProduct_smul,
    smul_eq_mul, sym] at h0
  nlinarith [mul_le_mul_of_nonneg_left hs hε]

theorem mix_update {c ν A B N η : ℝ} (hη : 0 < η) (hc : 0 ≤ c) (hν : 0 ≤ ν) (hcν : ν ≤ η * c) (hA : 0 ≤ A)
    (hB : η * A ≤ B) (hN : 0 ≤ N) (h : A ^ 2 + B ^ 2 = N ^ 2) :
    c * A + ν * B ≤ (c + η * ν) / √(1 + η ^ 2) * N := by
  have hp : (0 : ℝ) < 1 + η ^ 2 := by positivity
  have hq : √(1 + η ^ 2) ^ 2 = 1 + η ^ 2 := Real.sq_sqrt hp.le
  have hq0 : 0 < √(1 + η ^ 2) := Real.sqrt_pos.2 hp
  have h1 : A + η * B ≤ √(1 + η ^ 2) * N := by
    refine abs_le_of_sq_le_sq' ?_ (by positivity) |>.2
    rw [mul_pow, hq, ← h]
    nlinarith [sq_nonneg (B - η * A)]
  have h2 : c * A + ν * B ≤ (c + η * ν) / (1 + η ^ 2) * (A + η * B) := by
    rw [div_mul_eq_mul_div, le_div_iff₀ hp]
    nlinarith [mul_nonneg (sub_nonneg.2 hcν) (sub_nonneg.2 hB)]
  refine h2.trans ?_
  calc (c + η * ν) / (1 + η ^ 2) * (A + η * B) ≤ (c + η * ν) / (1 + η ^ 2) * (√(1 + η ^ 2) * N) := by
        gcongr
    _ = (c + η * ν) / √(1 + η ^ 2) * N := by
        field_simp; rw [hq]

/-- What a fix does to the error, in standard deviations. -/
theorem sigmas_update {η : ℝ} (hη : 0 < η) (hP : Covariance P)
    (h : ∀ w, η ^ 2 * (w ⬝ᵥ (Pos.R *ᵥ w)) ≤ w ⬝ᵥ (P *ᵥ w)) {e f : I6 → ℝ} {c ν : ℝ} (hc : 0 ≤ c) (hν : 0 ≤ ν)
    (hcν : ν ≤ η * c) (he : Sigmas P e c) (hf : Sigmas Pos.R f ν) :
    Sigmas (kpost P Pos.R 1) (e + kgain P Pos.R 1 *ᵥ (f - e)) ((c + η * ν) / √(1 + η ^ 2)) := by
  intro w
  obtain ⟨s, u, -, hsu, hq, hw⟩ := gain_parts hP w
  have hr := gain_share (sq_nonneg η) h hsu
  have hp0 := hP.2 s
  have hr0 := posR_strict.weaken.2 u
  rw [hw, hq]
  refine (abs_add_le _ _).trans ((add_le_add (he s) (hf u)).trans ?_)
  refine mix_update hη hc hν hcν (Real.sqrt_nonneg _) ?_ (Real.sqrt_nonneg _) ?_
  · rw [← Real.sqrt_sq hη.le, ← Real.sqrt_mul (sq_nonneg η)]
    exact Real.sqrt_le_sqrt hr
  · rw [Real.sq_sqrt hp0, Real.sq_sqrt hr0, Real.sq_sqrt (add_nonneg hp0 hr0)]

end update

/-! ## The prediction -/

/-- The gradient as the code computes it: that of gravity with the opposite sign. -/
theorem gradA_form {mu : ℝ} {p : V3} {J : M3} (h : gradA mu p = .ok J) (v : V3) :
    J *ᵥ v = (mu / npNorm p ^ 3) • v - (3 * mu / npNorm p ^ 5 * (p ⬝ᵥ v)) • p ∧ Jᵀ = J := by
  rcases eq_or_ne (npNorm p) 0 with h0 | hn
  · simp [gradA, npDiv, h0] at h
  simp only [gradA, npDiv, hn, ne_eq, OfNat.ofNat_ne_zero, not_false_eq_true, pow_eq_zero_iff,
    if_false, Except.ok.injEq] at h
  subst h
  constructor
  · funext i
    fin_cases i <;>
      simp [Matrix.mulVec, dotProduct, Fin.sum_univ_three] <;> ring
  · ext i j
    fin_cases i <;> fin_cases j <;> simp <;> ring

/-- Bounds on the gradient where gravity is `g` times the distance. -/
theorem gradA_norms {mu : ℝ} {p : V3} {J : M3} (h : gradA mu p = .ok J) (hmu : 0 ≤ mu)
    (hg : mu / npNorm p ^ 3 ≤ 1.53e-6) (v : V3) :
    npNorm (J *ᵥ v) ≤ 3.06e-6 * npNorm v ∧ npNorm ((1.28e-6 : ℝ) • v + J *ᵥ v) ≤ 2.81e-6 * npNorm v := by
  obtain ⟨hJ, -⟩ := gradA_form h v
  have hn : npNorm p ≠ 0 := by
    intro h0; simp [gradA, npDiv, h0] at h
  have hp : 0 < npNorm p := lt_of_le_of_ne (npNorm_nonneg p) (Ne.symm hn)
  obtain ⟨g, hgd⟩ : ∃ g, g = mu / npNorm p ^ 3 := ⟨_, rfl⟩
  rw [← hgd] at hg hJ
  have hg0 : 0 ≤ g := by rw [hgd]; positivity
  -- the component along the position
  obtain ⟨d, hd⟩ : ∃ d, d = (p ⬝ᵥ v) / npNorm p := ⟨_, rfl⟩
  have hdv : d ^ 2 ≤ npNorm v ^ 2 := by
    rw [hd, div_pow, div_le_iff₀ (by positivity), mul_comm, ← mul_pow]
    exact sq_le_sq' (by linarith [(abs_le.1 (abs_dot_le p v)).1]) (abs_le.1 (abs_dot_le p v)).2
  have e5 : 3 * mu / npNorm p ^ 5 * (p ⬝ᵥ v) = 3 * g * d / npNorm p := by
    rw [hgd, hd]; field_simp
  rw [e5] at hJ
  have key : ∀ k : ℝ, npNorm (k • v + J *ᵥ v) ^ 2 = (k + g) ^ 2 * npNorm v ^ 2 - (6 * g * (k + g) - 9 * g ^ 2) * d ^ 2 := by
    intro k
    have hpv : p ⬝ᵥ v = d * npNorm p := by rw [hd]; field_simp
    have h1 := npNorm_sq_dot (k • v + J *ᵥ v)
    have h2 := npNorm_sq_dot v
    have h3 := npNorm_sq_dot p
    rw [npDot_eq_dotProduct] at h1 h2 h3
    have : k • v + J *ᵥ v = (k + g) • v - (3 * g * d / npNorm p) • p := by rw [hJ, add_smul]; abel
    rw [h1, this]
    simp only [sub_dotProduct, dotProduct_sub, smul_dotProduct, dotProduct_smul, smul_eq_mul, ← h2, ← h3,
      dotProduct_comm v p, hpv]
    field_simp
    ring
  have hv := npNorm_nonneg v
  constructor
  · refine abs_le_of_sq_le_sq' ?_ (by positivity) |>.2
    have := key 0
    rw [zero_smul, zero_add] at this
    rw [this, mul_pow]
    have hgg : g ^ 2 ≤ 1.53e-6 ^ 2 := pow_le_pow_left₀ hg0 hg 2
    nlinarith [mul_le_mul_of_nonneg_left hdv (sq_nonneg g), mul_le_mul_of_nonneg_right hgg (sq_nonneg (npNorm v))]
  · refine abs_le_of_sq_le_sq' ?_ (by positivity) |>.2
    rw [key, mul_pow]
    have h1 : 0 ≤ 6 * g * (1.28e-6 + g) - 9 * g ^ 2 := by nlinarith
    have h2 : (1.28e-6 + g) ^ 2 ≤ 2.81e-6 ^ 2 := by
      refine pow_le_pow_left₀ (by positivity) (by norm_num at hg ⊢; linarith) 2
    nlinarith [mul_nonneg h1 (sq_nonneg d), mul_le_mul_of_nonneg_right h2 (sq_nonneg (npNorm v))]

/-- The matrix by which `propagate(1.0)` predicts the covariance. -/
noncomputable def stepF (J : M3) : M6 :=
  1 + (1 : ℝ) • (Matrix.fromBlocks 0 1 J (Pos.b • 1) : M6) +
    (0.5 * (1 : ℝ) ^ 2) • ((Matrix.fromBlocks 0 1 J (Pos.b • 1) : M6) * (Matrix.fromBlocks 0 1 J (Pos.b • 1) : M6))

theorem propagate_one {n : ℕ} {k : Pos.Kalman n} (h : k.output.1 ≠ 0) : ∃ J, gradA k.mu k.output.1 = .ok J ∧
    (k.propagate 1).1 = .ok () ∧ (k.propagate 1).2.P = stepF J * (k.P * (stepF J)ᵀ) + Pos.Q ∧
    (k.propagate 1).2.x = aDiscrete 1 *ᵥ k.x ∧ (k.propagate 1).2.mu = k.mu ∧
    (k.propagate 1).2.state = k.state := by
  rcases gradA_cases k.mu k.output.1 with ⟨h0, -⟩ | ⟨J, hJ⟩
  · exact absurd h0 (npNorm_pos h).ne'
  refine ⟨J, hJ, ?_⟩
  change gradA k.mu (k.x ∘ Sum.inl) = .ok J at hJ
  simp only [Kalman.propagate, Kalman.stateTransition, Kalman.fContinuous, hJ]
  exact ⟨trivial, rfl, trivial, trivial, trivial⟩

theorem fBlock_mulVec (J : M3) (p q : V3) : (Matrix.fromBlocks 0 1 J (Pos.b • 1) : M6) *ᵥ Sum.elim p q =
    Sum.elim q (J *ᵥ p + Pos.b • q) := by
  rw [Matrix.fromBlocks_mulVec]
  simp [Matrix.smul_mulVec]

theorem fBlock_mulVecT (J : M3) (p q : V3) : (Matrix.fromBlocks 0 1 J (Pos.b • 1) : M6)ᵀ *ᵥ Sum.elim p q =
    Sum.elim (Jᵀ *ᵥ q) (p + Pos.b • q) := by
  rw [Matrix.fromBlocks_transpose, Matrix.fromBlocks_mulVec]
  simp [Matrix.smul_mulVec]

theorem stepF_mulVec (J : M3) (p q : V3) : stepF J *ᵥ Sum.elim p q =
    Sum.elim (p + q + (0.5 : ℝ) • (J *ᵥ p + Pos.b • q))
      (q + (J *ᵥ p + Pos.b • q) + (0.5 : ℝ) • (J *ᵥ q + Pos.b • (J *ᵥ p + Pos.b • q))) := by
  rw [stepF, Matrix.add_mulVec, Matrix.add_mulVec, Matrix.one_mulVec, Matrix.smul_mulVec, Matrix.smul_mulVec,
    ← Matrix.mulVec_mulVec, fBlock_mulVec, fBlock_mulVec]
  funext i
  rcases i with i | i <;> simp <;> ring

theorem stepF_mulVecT (J : M3) (p q : V3) : (stepF J)ᵀ *ᵥ Sum.elim p q =
    Sum.elim (p + Jᵀ *ᵥ q + (0.5 : ℝ) • (Jᵀ *ᵥ (p + Pos.b • q)))
      (q + (p + Pos.b • q) + (0.5 : ℝ) • (Jᵀ *ᵥ q + Pos.b • (p + Pos.b • q))) := by
  rw [stepF, Matrix.transpose_add, Matrix.transpose_add, Matrix.transpose_smul, Matrix.transpose_smul,
    Matrix.transpose_mul, Matrix.transpose_one, Matrix.add_mulVec, Matrix.add_mulVec, Matrix.one_mulVec,
    Matrix.smul_mulVec, Matrix.smul_mulVec, ← Matrix.mulVec_mulVec, fBlock_mulVecT, fBlock_mulVecT]
  funext i
  rcases i with i | i
  · simp
  · simp; ring

/-- A variance that the covariance of a filter with a fix each second never falls below. -/
noncomputable def lowForm (w : I6 → ℝ) : ℝ :=
  ∑ i : Fin 3, (0.99 * w (.inl i) ^ 2 + 0.034 * (w (.inl i) * w (.inr i)) + 0.0026 * w (.inr i) ^ 2)

def Low (P : M6) : Prop := ∀ w, lowForm w ≤ w ⬝ᵥ (P *ᵥ w)

theorem low_one : Low 1 := by
  intro w
  rw [Matrix.one_mulVec, dotProduct, Fintype.sum_sum_type, ← Finset.sum_add_distrib, lowForm]
  refine Finset.sum_le_sum fun i _ => ?_
  nlinarith [sq_nonneg (w (.inl i) - 1.7 * w (.inr i))]

theorem low_R {P : M6} (h : Low P) (w : I6 → ℝ) : 0.08 ^ 2 * (w ⬝ᵥ (Pos.R *ᵥ w)) ≤ w ⬝ᵥ (P *ᵥ w) := by
  refine le_trans ?_ (h w)
  rw [quad_R, lowForm, npNorm_sq, npNorm_sq, Finset.mul_sum, Finset.mul_sum, ← Finset.sum_add_distrib, Finset.mul_sum]
  refine Finset.sum_le_sum fun i _ => ?_
  simp only [Function.comp_apply]
  nlinarith [sq_nonneg (w (.inl i) + 0.0497 * w (.inr i)), sq_nonneg (w (.inr i))]

theorem low_diag {P : M6} (h : Low P) (w : I6 → ℝ) :
    0.5 ^ 2 * npNorm (w ∘ Sum.inl) ^ 2 + 0.046 ^ 2 * npNorm (w ∘ Sum.inr) ^ 2 ≤ w ⬝ᵥ (P *ᵥ w) := by
  refine le_trans ?_ (h w)
  rw [lowForm, npNorm_sq, npNorm_sq, Finset.mul_sum, Finset.mul_sum, ← Finset.sum_add_distrib]
  refine Finset.sum_le_sum fun i _ => ?_
  simp only [Function.comp_apply]
  nlinarith [sq_nonneg (w (.inl i) + 0.023 * w (.inr i)), sq_nonneg (w (.inr i))]

/-- One component of the covariance: the lower bound survives a fix and the prediction of the next second, with
something to spare. -/
theorem low_component (x y s t : ℝ) :
    0.99 * x ^ 2 + 0.034 * (x * y) + 0.0026 * y ^ 2 + 3e-6 * (x ^ 2 + y ^ 2) ≤
      0.99 * s ^ 2 + 0.034 * (s * t) + 0.0026 * t ^ 2 + 0.999 * 10.0598 ^ 2 * (x - s) ^ 2 +
        0.999 * 0.52038 ^ 2 * (x + y - t) ^ 2 + 0.018166 ^ 2 * y ^ 2 := by
  nlinarith [sq_nonneg (s + (425000000/2552209411599) * t + (-280828823511/283578823511) * x),
    sq_nonneg (t + (-1618671225427736717839761/1742659549096087717839761) * x + (-1726088250420694217839761/1742659549096087717839761) * y),
    sq_nonneg (x + (3916673013906939441383378600/44056806409039709834781733317) * y),
    sq_nonneg (y)]

theorem sum_elim_parts (w : I6 → ℝ) : ∃ p q : V3, w = Sum.elim p q :=
  ⟨w ∘ Sum.inl, w ∘ Sum.inr, by funext i; rcases i with i | i <;> rfl⟩

theorem dot_elim (p q r s : V3) : (Sum.elim p q : I6 → ℝ) ⬝ᵥ Sum.elim r s = p ⬝ᵥ r + q ⬝ᵥ s := by
  simp [dotProduct, Fintype.sum_sum_type]

theorem sq_perturb (a b : ℝ) : 0.999 * a ^ 2 - 999 * b ^ 2 ≤ (a + b) ^ 2 := by
  nlinarith [sq_nonneg (a + 1000 * b)]

theorem small_b : Pos.b = 1.618e-10 := rfl

theorem perturb_pos {J : M3} (hJ : ∀ v, npNorm (J *ᵥ v) ≤ 3.06e-6 * npNorm v) (p q : V3) :
    npNorm (J *ᵥ q + (0.5 : ℝ) • (J *ᵥ (p + Pos.b • q))) ^ 2 ≤ 1.9e-11 * (npNorm p ^ 2 + npNorm q ^ 2) := by
  have hp := npNorm_nonneg p
  have hq := npNorm_nonneg q
  have h0 := npNorm_nonneg (J *ᵥ q + (0.5 : ℝ) • (J *ᵥ (p + Pos.b • q)))
  have h1 : npNorm (J *ᵥ q + (0.5 : ℝ) • (J *ᵥ (p + Pos.b • q))) ≤ 3.06e-6 * (0.5 * npNorm p + 1.001 * npNorm q) := by
    refine (npNorm_add3 _ _).trans ?_
    have h2 := npNorm_add3 p (Pos.b • q)
    rw [npNorm_smul, small_b, abs_of_pos (by norm_num)] at h2
    rw [npNorm_smul, abs_of_pos (by norm_num)]
    have h3 := hJ (p + Pos.b • q)
    have h4 := hJ q
    rw [small_b] at h3 ⊢
    norm_num at h2 h3 h4 ⊢
    linarith
  have h2 := pow_le_pow_left₀ h0 h1 2
  refine h2.trans ?_
  nlinarith [sq_nonneg (0.5 * npNorm p - 1.001 * npNorm q), sq_nonneg (npNorm p), sq_nonneg (npNorm q)]

theorem perturb_vel {J : M3} (hJ : ∀ v, npNorm (J *ᵥ v) ≤ 3.06e-6 * npNorm v) (p q : V3) :
    npNorm (Pos.b • q + (0.5 : ℝ) • (J *ᵥ q + Pos.b • (p + Pos.b • q))) ^ 2 ≤
      1e-11 * (npNorm p ^ 2 + npNorm q ^ 2) := by
  have hp := npNorm_nonneg p
  have hq := npNorm_nonneg q
  have h0 := npNorm_nonneg (Pos.b • q + (0.5 : ℝ) • (J *ᵥ q + Pos.b • (p + Pos.b • q)))
  have h1 : npNorm (Pos.b • q + (0.5 : ℝ) • (J *ᵥ q + Pos.b • (p + Pos.b • q))) ≤ 1.6e-6 * (npNorm p + npNorm q) := by
    refine (npNorm_add3 _ _).trans ?_
    have h2 := npNorm_add3 p (Pos.b • q)
    have h3 := npNorm_add3 (J *ᵥ q) (Pos.b • (p + Pos.b • q))
    have h4 := hJ q
    simp only [npNorm_smul, small_b] at h2 h3 ⊢
    rw [abs_of_pos (by norm_num)] at h2 h3 ⊢
    rw [abs_of_pos (by norm_num)]
    norm_num at h2 h3 h4 ⊢
    linarith
  have h2 := pow_le_pow_left₀ h0 h1 2
  refine h2.trans ?_
  nlinarith [sq_nonneg (npNorm p - npNorm q), sq_nonneg (npNorm p), sq_nonneg (npNorm q)]

/-- The lower bound survives a fix and the prediction of the next second. -/
theorem low_step {P : M6} (hP : Covariance P) (hL : Low P) {J : M3} (hJT : Jᵀ = J)
    (hJ : ∀ v, npNorm (J *ᵥ v) ≤ 3.06e-6 * npNorm v) :
    Low (stepF J * (kpost P Pos.R 1 * (stepF J)ᵀ) + Pos.Q) := by
  intro w
  obtain ⟨p, q, rfl⟩ := sum_elim_parts w
  rw [Matrix.add_mulVec, dotProduct_add, quad_conj, quad_Q, stepF_mulVecT, hJT]
  obtain ⟨y, hy⟩ : ∃ y : I6 → ℝ, y = Sum.elim (p + J *ᵥ q + (0.5 : ℝ) • (J *ᵥ (p + Pos.b • q)))
      (q + (p + Pos.b • q) + (0.5 : ℝ) • (J *ᵥ q + Pos.b • (p + Pos.b • q))) := ⟨_, rfl⟩
  rw [← hy]
  obtain ⟨s, u, hs, -, hq, -⟩ := gain_parts hP y
  rw [hq]
  have h1 := hL s
  have h2 := perturb_pos hJ p q
  have h3 := perturb_vel hJ p q
  obtain ⟨f, hf⟩ : ∃ f : V3, f = J *ᵥ q + (0.5 : ℝ) • (J *ᵥ (p + Pos.b • q)) := ⟨_, rfl⟩
  obtain ⟨g, hg⟩ : ∃ g : V3, g = Pos.b • q + (0.5 : ℝ) • (J *ᵥ q + Pos.b • (p + Pos.b • q)) := ⟨_, rfl⟩
  rw [← hf] at h2
  rw [← hg] at h3
  have hu1 : ∀ i, u (.inl i) = (p i - s (.inl i)) + f i := by
    intro i
    have := congrFun (hs.trans hy) (.inl i)
    simp only [Pi.add_apply, Sum.elim_inl] at this
    rw [hf]; simp only [Pi.add_apply]; linarith
  have hu2 : ∀ i, u (.inr i) = (p i + q i - s (.inr i)) + g i := by
    intro i
    have := congrFun (hs.trans hy) (.inr i)
    simp only [Pi.add_apply, Sum.elim_inr] at this
    rw [hg]; simp only [Pi.add_apply]; linarith
  have h4 : lowForm (Sum.elim p q) + 3e-6 * (npNorm p ^ 2 + npNorm q ^ 2) ≤
      lowForm s + u ⬝ᵥ (Pos.R *ᵥ u) + 0.018166 ^ 2 * npNorm q ^ 2 +
        999 * (10.0598 ^ 2 * npNorm f ^ 2 + 0.52038 ^ 2 * npNorm g ^ 2) := by
    rw [quad_R, lowForm, lowForm]
    simp only [npNorm_sq, Finset.mul_sum, ← Finset.sum_add_distrib, Function.comp_apply, Sum.elim_inl, Sum.elim_inr,
      hu1, hu2]
    refine Finset.sum_le_sum fun i _ => ?_
    have a1 := low_component (p i) (q i) (s (.inl i)) (s (.inr i))
    have a2 := sq_perturb (p i - s (.inl i)) (f i)
    have a3 := sq_perturb (p i + q i - s (.inr i)) (g i)
    nlinarith only [a1, a2, a3]
  have e : ((Sum.elim p q : I6 → ℝ) ∘ Sum.inr) = q := rfl
  rw [e]
  have h5 : 0 ≤ npNorm p ^ 2 + npNorm q ^ 2 := by positivity
  norm_num at h2 h3 h4 ⊢
  linarith only [h1, h2, h3, h4, h5]

/-! ## The error over a prediction -/

theorem mix_noise {c δ A B N : ℝ} (hc : 0 ≤ c) (hδ : 0 ≤ δ) (hcδ : δ ≤ 0.08 * c) (hN : 0 ≤ N)
    (h : A ^ 2 + B ^ 2 ≤ N ^ 2) : c * A + δ * B ≤ (c + 0.04 * δ) * N := by
  refine abs_le_of_sq_le_sq' ?_ (by positivity) |>.2
  have h1 : (c * A + δ * B) ^ 2 ≤ (c ^ 2 + δ ^ 2) * (A ^ 2 + B ^ 2) := by nlinarith [sq_nonneg (c * B - δ * A)]
  have h2 : c ^ 2 + δ ^ 2 ≤ (c + 0.04 * δ) ^ 2 := by
    have := mul_le_mul_of_nonneg_left hcδ hδ
    norm_num at this ⊢
    nlinarith only [this, sq_nonneg δ]
  calc (c * A + δ * B) ^ 2 ≤ (c ^ 2 + δ ^ 2) * (A ^ 2 + B ^ 2) := h1
    _ ≤ (c + 0.04 * δ) ^ 2 * N ^ 2 := by gcongr
    _ = _ := by ring

/-- An error in standard deviations of at most those of a fix is bounded in metres and metres per second. -/
theorem sigmas_norms {P : M6} (hR : ∀ w, w ⬝ᵥ (P *ᵥ w) ≤ w ⬝ᵥ (Pos.R *ᵥ w)) {p q : V3} {c : ℝ} (hc : 0 ≤ c)
    (h : Sigmas P (Sum.elim p q) c) : npNorm p ≤ 10.0598 * c ∧ npNorm q ≤ 0.52038 * c := by
  have key : ∀ (σ : ℝ) (v : V3), 0 ≤ σ → npNorm v ^ 2 ≤ c * √(σ ^ 2 * npNorm v ^ 2) → npNorm v ≤ σ * c := by
    intro σ v hσ hv
    rw [← mul_pow, Real.sqrt_sq (mul_nonneg hσ (npNorm_nonneg v))] at hv
    rcases (npNorm_nonneg v).eq_or_lt with h0 | h0
    · rw [← h0]; positivity
    · refine le_of_mul_le_mul_right ?_ h0
      nlinarith only [hv]
  constructor
  · refine key _ p (by norm_num) ?_
    have h1 := h (Sum.elim p 0)
    have h2 := hR (Sum.elim p 0)
    rw [quad_R] at h2
    rw [dot_elim, zero_dotProduct, add_zero, ← npDot_eq_dotProduct, ← npNorm_sq_dot, abs_of_nonneg (sq_nonneg _)] at h1
    refine h1.trans (mul_le_mul_of_nonneg_left (Real.sqrt_le_sqrt (h2.trans ?_)) hc)
    have e1 : ((Sum.elim p 0 : I6 → ℝ) ∘ Sum.inl) = p := rfl
    have e2 : ((Sum.elim p 0 : I6 → ℝ) ∘ Sum.inr) = (0 : V3) := rfl
    rw [e1, e2, npNorm_eq_zero.2 rfl]
    norm_num
  · refine key _ q (by norm_num) ?_
    have h1 := h (Sum.elim 0 q)
    have h2 := hR (Sum.elim 0 q)
    rw [quad_R] at h2
    rw [dot_elim, zero_dotProduct, zero_add, ← npDot_eq_dotProduct, ← npNorm_sq_dot, abs_of_nonneg (sq_nonneg _)] at h1
    refine h1.trans (mul_le_mul_of_nonneg_left (Real.sqrt_le_sqrt (h2.trans ?_)) hc)
    have e1 : ((Sum.elim 0 q : I6 → ℝ) ∘ Sum.inl) = (0 : V3) := rfl
    have e2 : ((Sum.elim 0 q : I6 → ℝ) ∘ Sum.inr) = q := rfl
    rw [e1, e2, npNorm_eq_zero.2 rfl]
    norm_num

theorem low_norms {P : M6} (hL : Low P) (p q : V3) :
    npNorm p ≤ 2 * √((Sum.elim p q : I6 → ℝ) ⬝ᵥ (P *ᵥ Sum.elim p q)) ∧
    npNorm q ≤ √((Sum.elim p q : I6 → ℝ) ⬝ᵥ (P *ᵥ Sum.elim p q)) / 0.046 := by
  have h := low_diag hL (Sum.elim p q)
  have e1 : ((Sum.elim p q : I6 → ℝ) ∘ Sum.inl) = p := rfl
  have e2 : ((Sum.elim p q : I6 → ℝ) ∘ Sum.inr) = q := rfl
  rw [e1, e2] at h
  constructor
  · have : 0.5 * npNorm p ≤ √((Sum.elim p q : I6 → ℝ) ⬝ᵥ (P *ᵥ Sum.elim p q)) := by
      refine Real.le_sqrt_of_sq_le ?_
      nlinarith only [h, sq_nonneg (npNorm q)]
    norm_num at this ⊢
    linarith
  · rw [le_div_iff₀ (by norm_num)]
    refine Real.le_sqrt_of_sq_le ?_
    nlinarith only [h, sq_nonneg (npNorm p)]

/-- How far the matrices for the estimate and for the covariance differ. -/
theorem aDiscrete_stepF (J : M3) (p q : V3) : aDiscrete 1 *ᵥ Sum.elim p q = stepF J *ᵥ Sum.elim p q +
    Sum.elim ((-0.5 : ℝ) • ((1.28e-6 : ℝ) • p + J *ᵥ p) + (-(1.618e-10 + 0.1666 * 1.28e-6) : ℝ) • q)
      ((-1 : ℝ) • ((1.28e-6 : ℝ) • p + J *ᵥ p) + (-(0.5 * 1.618e-10) : ℝ) • (J *ᵥ p) +
        ((-0.5 : ℝ) • ((1.28e-6 : ℝ) • q + J *ᵥ q) + (-(2 * 1.618e-10 + 0.5 * 1.618e-10 ^ 2) : ℝ) • q)) := by
  rw [stepF_mulVec, aDiscrete, Matrix.fromBlocks_mulVec]
  funext i
  rcases i with i | i <;> simp [Matrix.smul_mulVec, Matrix.neg_mulVec, Pos.a, Pos.b] <;> ring

theorem gap_norms {J : M3} (hJ : ∀ v, npNorm (J *ᵥ v) ≤ 3.06e-6 * npNorm v)
    (hJa : ∀ v, npNorm ((1.28e-6 : ℝ) • v + J *ᵥ v) ≤ 2.81e-6 * npNorm v) {p q : V3} {c : ℝ} (hc : 0 ≤ c)
    (hp : npNorm p ≤ 10.0598 * c) (hq : npNorm q ≤ 0.52038 * c) :
    npNorm ((-0.5 : ℝ) • ((1.28e-6 : ℝ) • p + J *ᵥ p) + (-(1.618e-10 + 0.1666 * 1.28e-6) : ℝ) • q) ≤ 1.43e-5 * c ∧
    npNorm ((-1 : ℝ) • ((1.28e-6 : ℝ) • p + J *ᵥ p) + (-(0.5 * 1.618e-10) : ℝ) • (J *ᵥ p) +
        ((-0.5 : ℝ) • ((1.28e-6 : ℝ) • q + J *ᵥ q) + (-(2 * 1.618e-10 + 0.5 * 1.618e-10 ^ 2) : ℝ) • q)) ≤
      2.91e-5 * c := by
  have a1 := hJ p
  have a2 := hJa p
  have a3 := hJa q
  constructor
  · refine (npNorm_comb _ _).trans ?_
    rw [abs_neg, abs_of_pos (by norm_num), abs_neg, abs_of_pos (by norm_num)]
    norm_num at a1 a2 a3 hp hq ⊢
    linarith
  · refine (npNorm_add3 _ _).trans ((add_le_add (npNorm_comb _ _) (npNorm_comb _ _)).trans ?_)
    simp only [abs_neg]
    rw [abs_of_pos (by norm_num), abs_of_pos (by norm_num), abs_of_pos (by norm_num), abs_of_pos (by norm_num)]
    norm_num at a1 a2 a3 hp hq ⊢
    linarith

/-- What the prediction of the next second does to the error, in standard deviations. -/
theorem sigmas_predict {P : M6} (hP : Covariance P) (hR : ∀ w, w ⬝ᵥ (P *ᵥ w) ≤ w ⬝ᵥ (Pos.R *ᵥ w)) {J : M3}
    (hJ : ∀ v, npNorm (J *ᵥ v) ≤ 3.06e-6 * npNorm v)
    (hJa : ∀ v, npNorm ((1.28e-6 : ℝ) • v + J *ᵥ v) ≤ 2.81e-6 * npNorm v)
    (hL : Low (stepF J * (P * (stepF J)ᵀ) + Pos.Q)) {e : I6 → ℝ} {c δx δv : ℝ} (hc : 0 ≤ c) (he : Sigmas P e c)
    (hδ0 : 0 ≤ δv) (hcδ : δv ≤ 0.08 * c) {dx dv : V3} (hdx : 2 * npNorm dx ≤ δx)
    (hdv : npNorm dv ≤ 0.018166 * δv) :
    Sigmas (stepF J * (P * (stepF J)ᵀ) + Pos.Q) (aDiscrete 1 *ᵥ e - Sum.elim dx dv)
      (1.00067 * c + 0.04 * δv + δx) := by
  intro w
  obtain ⟨p, q, rfl⟩ := sum_elim_parts e
  obtain ⟨w1, w2, rfl⟩ := sum_elim_parts w
  obtain ⟨hp, hq⟩ := sigmas_norms hR hc he
  obtain ⟨g1, g2⟩ := gap_norms hJ hJa hc hp hq
  obtain ⟨l1, l2⟩ := low_norms hL w1 w2
  have hy := he ((stepF J)ᵀ *ᵥ Sum.elim w1 w2)
  have hquad : (Sum.elim w1 w2 : I6 → ℝ) ⬝ᵥ ((stepF J * (P * (stepF J)ᵀ) + Pos.Q) *ᵥ Sum.elim w1 w2) =
      ((stepF J)ᵀ *ᵥ Sum.elim w1 w2) ⬝ᵥ (P *ᵥ ((stepF J)ᵀ *ᵥ Sum.elim w1 w2)) + 0.018166 ^ 2 * npNorm w2 ^ 2 := by
    rw [Matrix.add_mulVec, dotProduct_add, quad_conj, quad_Q]; rfl
  have hp0 := hP.2 ((stepF J)ᵀ *ᵥ Sum.elim w1 w2)
  have hdot : ((stepF J)ᵀ *ᵥ Sum.elim w1 w2) ⬝ᵥ Sum.elim p q = (Sum.elim w1 w2 : I6 → ℝ) ⬝ᵥ (stepF J *ᵥ Sum.elim p q) := by
    rw [Matrix.dotProduct_mulVec, ← Matrix.mulVec_transpose]
  rw [hdot] at hy
  rw [aDiscrete_stepF J]
  generalize (-0.5 : ℝ) • ((1.28e-6 : ℝ) • p + J *ᵥ p) + (-(1.618e-10 + 0.1666 * 1.28e-6) : ℝ) • q = m1 at g1 ⊢
  generalize (-1 : ℝ) • ((1.28e-6 : ℝ) • p + J *ᵥ p) + (-(0.5 * 1.618e-10) : ℝ) • (J *ᵥ p) +
        ((-0.5 : ℝ) • ((1.28e-6 : ℝ) • q + J *ᵥ q) + (-(2 * 1.618e-10 + 0.5 * 1.618e-10 ^ 2) : ℝ) • q) = m2 at g2 ⊢
  rw [dotProduct_sub, dotProduct_add, dot_elim, dot_elim]
  obtain ⟨N, hN⟩ : ∃ N, N = √((Sum.elim w1 w2 : I6 → ℝ) ⬝ᵥ
    ((stepF J * (P * (stepF J)ᵀ) + Pos.Q) *ᵥ Sum.elim w1 w2)) := ⟨_, rfl⟩
  rw [← hN] at l1 l2 ⊢
  have hN0 : 0 ≤ N := by rw [hN]; exact Real.sqrt_nonneg _
  have hmix : c * √(((stepF J)ᵀ *ᵥ Sum.elim w1 w2) ⬝ᵥ (P *ᵥ ((stepF J)ᵀ *ᵥ Sum.elim w1 w2))) +
      δv * (0.018166 * npNorm w2) ≤ (c + 0.04 * δv) * N := by
    refine mix_noise hc hδ0 hcδ hN0 ?_
    rw [hN, Real.sq_sqrt hp0, Real.sq_sqrt (by rw [hquad]; positivity), hquad]
    linarith [mul_pow (0.018166 : ℝ) (npNorm w2) 2]
  have n1 := npNorm_nonneg w1
  have n2 := npNorm_nonneg w2
  have b1 : |w1 ⬝ᵥ m1| ≤ 2 * N * (1.43e-5 * c) :=
    (abs_dot_le _ _).trans (mul_le_mul l1 g1 (npNorm_nonneg _) (by positivity))
  have b2 : |w2 ⬝ᵥ m2| ≤ N / 0.046 * (2.91e-5 * c) :=
    (abs_dot_le _ _).trans (mul_le_mul l2 g2 (npNorm_nonneg _) (by positivity))
  have b3 : |w1 ⬝ᵥ dx| ≤ N * δx := by
    refine (abs_dot_le _ _).trans ?_
    have : npNorm w1 * npNorm dx ≤ 2 * N * npNorm dx := mul_le_mul_of_nonneg_right l1 (npNorm_nonneg _)
    nlinarith only [this, mul_le_mul_of_nonneg_left hdx hN0]
  have b4 : |w2 ⬝ᵥ dv| ≤ δv * (0.018166 * npNorm w2) := by
    refine (abs_dot_le _ _).trans ?_
    nlinarith only [mul_le_mul_of_nonneg_left hdv n2]
  have b5 : 2 * N * (1.43e-5 * c) + N / 0.046 * (2.91e-5 * c) ≤ 0.00067 * (N * c) := by
    have : 0 ≤ N * c := by positivity
    norm_num
    nlinarith only [this]
  generalize (Sum.elim w1 w2 : I6 → ℝ) ⬝ᵥ (stepF J *ᵥ Sum.elim p q) = z at hy ⊢
  generalize √(((stepF J)ᵀ *ᵥ Sum.elim w1 w2) ⬝ᵥ (P *ᵥ ((stepF J)ᵀ *ᵥ Sum.elim w1 w2))) = A at hy hmix
  have tri : |z + (w1 ⬝ᵥ m1 + w2 ⬝ᵥ m2) - (w1 ⬝ᵥ dx + w2 ⬝ᵥ dv)| ≤
      |z| + |w1 ⬝ᵥ m1| + |w2 ⬝ᵥ m2| + |w1 ⬝ᵥ dx| + |w2 ⬝ᵥ dv| := by
    refine (abs_sub _ _).trans ?_
    linarith [abs_add_le z (w1 ⬝ᵥ m1 + w2 ⬝ᵥ m2), abs_add_le (w1 ⬝ᵥ m1) (w2 ⬝ᵥ m2), abs_add_le (w1 ⬝ᵥ dx) (w2 ⬝ᵥ dv)]
  refine tri.trans ?_
  norm_num at b1 b2 b4 b5 hmix ⊢
  linarith only [hy, b1, b2, b3, b4, b5, hmix]

end Adcs
