import Verif.Props.Mismatch

set_option autoImplicit false

/-! # Decay near the command for every inertia

The function is `w·A w / 2 + alpha u·J u + eta u·A w` with `A = J I⁻¹ J`, where `I` is the inertia assumed, `J` the one
that flies, `u` the vector part of the attitude error (with the sign of the memory) and `w` the rate. -/

namespace Adcs

open Str Ctl Sens JDay Quat Vec Dyn
open scoped Matrix

/-- Constants for the gains, bounds of the matrices and the width of the hysteresis. -/
theorem ml_consts {alpha gamma l L h : ℝ} (ha : 0 < alpha) (hg : 0 < gamma) (hl : 0 < l) (hL : 0 < L) (h0 : 0 < h)
    (h1 : h < 1) : ∃ eta ρ κ m : ℝ, 0 < eta ∧ 0 < ρ ∧ 0 < κ ∧ 0 < m ∧ eta ^ 2 * L ^ 2 ≤ alpha * l ^ 2 / 2 ∧
      eta * (L / 2 + gamma ^ 2 * L ^ 2 / (alpha * l)) ≤ gamma * l / 8 ∧ ρ ≤ 1 ∧
      ρ * (L + 2 * eta * L) + 4 * ρ ^ 2 * alpha * L ^ 2 / (eta * l) ≤ gamma * l / 8 ∧ κ * L ≤ gamma * l / 2 ∧
      8 * κ * L ≤ eta * l ∧ 4 * m ≤ l * ρ ^ 2 ∧ 2 * m ≤ alpha * l * ρ ^ 2 ∧ 2 * m < alpha * l * (1 - h ^ 2) := by
  have hh : 0 < 1 - h ^ 2 := by nlinarith
  obtain ⟨P, hP⟩ : ∃ P, P = L / 2 + gamma ^ 2 * L ^ 2 / (alpha * l) := ⟨_, rfl⟩
  have hP0 : 0 < P := by rw [hP]; positivity
  obtain ⟨eta, he, e1, e2⟩ : ∃ eta > 0, eta ^ 2 * L ^ 2 ≤ alpha * l ^ 2 / 2 ∧ eta * P ≤ gamma * l / 8 := by
    have hs : 0 < Real.sqrt (alpha * l ^ 2 / 2) := Real.sqrt_pos.2 (by positivity)
    refine ⟨min (Real.sqrt (alpha * l ^ 2 / 2) / L) (gamma * l / 8 / P), lt_min (by positivity) (by positivity), ?_, ?_⟩
    · have h2 : min (Real.sqrt (alpha * l ^ 2 / 2) / L) (gamma * l / 8 / P) * L ≤ Real.sqrt (alpha * l ^ 2 / 2) := by
        rw [← le_div_iff₀ hL]; exact min_le_left _ _
      rw [← mul_pow]
      refine (pow_le_pow_left₀ (mul_nonneg (le_min (by positivity) (by positivity)) hL.le) h2 2).trans ?_
      rw [Real.sq_sqrt (by positivity)]
    · rw [← le_div_iff₀ hP0]; exact min_le_right _ _
  obtain ⟨Q, hQ⟩ : ∃ Q, Q = L + 2 * eta * L + 4 * alpha * L ^ 2 / (eta * l) := ⟨_, rfl⟩
  have hQ0 : 0 < Q := by rw [hQ]; positivity
  obtain ⟨ρ, hρ, r1, r2⟩ : ∃ ρ > 0, ρ ≤ 1 ∧ ρ * Q ≤ gamma * l / 8 := by
    refine ⟨min 1 (gamma * l / 8 / Q), lt_min one_pos (by positivity), min_le_left _ _, ?_⟩
    rw [← le_div_iff₀ hQ0]; exact min_le_right _ _
  obtain ⟨κ, hκ, k1, k2⟩ : ∃ κ > 0, κ * L ≤ gamma * l / 2 ∧ 8 * κ * L ≤ eta * l := by
    refine ⟨min (gamma * l / 2 / L) (eta * l / 8 / L), lt_min (by positivity) (by positivity), ?_, ?_⟩
    · rw [← le_div_iff₀ hL]; exact min_le_left _ _
    · have : min (gamma * l / 2 / L) (eta * l / 8 / L) * L ≤ eta * l / 8 := by
        rw [← le_div_iff₀ hL]; exact min_le_right _ _
      linarith
  obtain ⟨m, hm, m1, m2, m3⟩ : ∃ m > 0, 4 * m ≤ l * ρ ^ 2 ∧ 2 * m ≤ alpha * l * ρ ^ 2 ∧ 4 * m ≤ alpha * l * (1 - h ^ 2) := by
    refine ⟨min (l * ρ ^ 2 / 4) (min (alpha * l * ρ ^ 2 / 2) (alpha * l * (1 - h ^ 2) / 4)),
      lt_min (by positivity) (lt_min (by positivity) (by positivity)), ?_, ?_, ?_⟩
    · have := min_le_left (l * ρ ^ 2 / 4) (min (alpha * l * ρ ^ 2 / 2) (alpha * l * (1 - h ^ 2) / 4))
      linarith
    · have := (min_le_right (l * ρ ^ 2 / 4) (min (alpha * l * ρ ^ 2 / 2) (alpha * l * (1 - h ^ 2) / 4))).trans (min_le_left _ _)
      linarith
    · have := (min_le_right (l * ρ ^ 2 / 4) (min (alpha * l * ρ ^ 2 / 2) (alpha * l * (1 - h ^ 2) / 4))).trans (min_le_right _ _)
      linarith
  refine ⟨eta, ρ, κ, m, he, hρ, hκ, hm, e1, hP ▸ e2, r1, ?_, k1, k2, m1, m2, by linarith⟩
  have : 4 * ρ ^ 2 * alpha * L ^ 2 / (eta * l) ≤ ρ * (4 * alpha * L ^ 2 / (eta * l)) := by
    have h2 : ρ ^ 2 ≤ ρ := by nlinarith
    calc 4 * ρ ^ 2 * alpha * L ^ 2 / (eta * l) = ρ ^ 2 * (4 * alpha * L ^ 2 / (eta * l)) := by ring
      _ ≤ _ := mul_le_mul_of_nonneg_right h2 (by positivity)
  rw [hQ] at r2
  linarith

theorem young_mul {x y a b c : ℝ} (ha : 0 < a) (hc : c ^ 2 ≤ 4 * a * b) : c * (x * y) ≤ a * x ^ 2 + b * y ^ 2 := by
  have h1 : 0 ≤ (2 * a * x - c * y) ^ 2 := sq_nonneg _
  have h2 : c ^ 2 * y ^ 2 ≤ 4 * a * b * y ^ 2 := mul_le_mul_of_nonneg_right hc (sq_nonneg _)
  have h3 : 0 ≤ 4 * a * (a * x ^ 2 + b * y ^ 2 - c * (x * y)) := by nlinarith
  have := nonneg_of_mul_nonneg_right h3 (by linarith)
  linarith

/-- The inequality of the decay, in terms of the lengths of `w` and `u`. -/
theorem ml_real {alpha gamma l L eta ρ κ p q δ : ℝ} (ha : 0 < alpha) (hg : 0 < gamma) (hl : 0 < l) (hL : 0 < L)
    (he : 0 < eta) (e2 : eta * (L / 2 + gamma ^ 2 * L ^ 2 / (alpha * l)) ≤ gamma * l / 8)
    (e3 : ρ * (L + 2 * eta * L) + 4 * ρ ^ 2 * alpha * L ^ 2 / (eta * l) ≤ gamma * l / 8) (k1 : κ * L ≤ gamma * l / 2)
    (k2 : 8 * κ * L ≤ eta * l) (hp : 0 ≤ p) (hq : 0 ≤ q) (hpρ : p ≤ ρ) (hqρ : q ≤ ρ) :
    -gamma * (l * p ^ 2) + eta * (L / 2 * p ^ 2 - alpha * (l * q ^ 2) + gamma * (L * (q * p)))
      + (p * (L * p ^ 2) + 2 * alpha * (L * (q * (q * p))) + eta * (L * (q * p * p) + q * (L * p ^ 2)))
      + (p + eta * q) * (L * δ) ≤
      -κ * (L * p ^ 2 + 2 * alpha * L * q ^ 2) + (L ^ 2 / (gamma * l) + eta * L ^ 2 / (alpha * l)) * δ ^ 2 := by
  have y1 : eta * gamma * L * (p * q) ≤ eta * gamma ^ 2 * L ^ 2 / (alpha * l) * p ^ 2 + eta * alpha * l / 4 * q ^ 2 :=
    young_mul (by positivity) (le_of_eq (by field_simp))
  have y2 : 2 * ρ * alpha * L * (p * q) ≤ 4 * ρ ^ 2 * alpha * L ^ 2 / (eta * l) * p ^ 2 + eta * alpha * l / 4 * q ^ 2 := by
    rcases (le_trans hp hpρ).eq_or_lt with hz | hz
    · rw [← hz]; simp; positivity
    · refine young_mul (by positivity) ?_
      have : 4 * (4 * ρ ^ 2 * alpha * L ^ 2 / (eta * l)) * (eta * alpha * l / 4) = 4 * (ρ * alpha * L) ^ 2 := by field_simp
      rw [this]
      nlinarith [sq_nonneg (ρ * alpha * L)]
  have y3 : L * (p * δ) ≤ gamma * l / 4 * p ^ 2 + L ^ 2 / (gamma * l) * δ ^ 2 :=
    young_mul (by positivity) (le_of_eq (by field_simp))
  have y4 : eta * L * (q * δ) ≤ eta * alpha * l / 4 * q ^ 2 + eta * L ^ 2 / (alpha * l) * δ ^ 2 :=
    young_mul (by positivity) (le_of_eq (by field_simp))
  have z1 : p * (L * p ^ 2) ≤ ρ * (L * p ^ 2) := mul_le_mul_of_nonneg_right hpρ (by positivity)
  have z2 : 2 * alpha * (L * (q * (q * p))) ≤ 2 * ρ * alpha * L * (p * q) := by
    have := mul_le_mul_of_nonneg_right hqρ (by positivity : 0 ≤ 2 * alpha * L * (q * p))
    linarith
  have z3 : eta * (L * (q * p * p) + q * (L * p ^ 2)) ≤ ρ * (2 * eta * L) * p ^ 2 := by
    have := mul_le_mul_of_nonneg_right hqρ (by positivity : 0 ≤ 2 * eta * L * p ^ 2)
    linarith
  have w1 := mul_le_mul_of_nonneg_right e2 (sq_nonneg p)
  have w2 := mul_le_mul_of_nonneg_right e3 (sq_nonneg p)
  have w3 := mul_le_mul_of_nonneg_right k1 (sq_nonneg p)
  have w4 := mul_le_mul_of_nonneg_right k2 (by positivity : 0 ≤ alpha * q ^ 2)
  have s1 : eta * (L / 2 + gamma ^ 2 * L ^ 2 / (alpha * l)) * p ^ 2 =
      eta * L / 2 * p ^ 2 + eta * gamma ^ 2 * L ^ 2 / (alpha * l) * p ^ 2 := by ring
  rw [s1] at w1
  linarith

/-- The function. -/
noncomputable def mlV (J A : M3) (alpha eta : ℝ) (u w : V3) : ℝ :=
  w ⬝ᵥ A *ᵥ w / 2 + alpha * (u ⬝ᵥ J *ᵥ u) + eta * (u ⬝ᵥ A *ᵥ w)

theorem quad_abs {A : M3} {L : ℝ} (hA : ∀ x, npNorm (A *ᵥ x) ≤ L * npNorm x) (x y : V3) :
    |x ⬝ᵥ A *ᵥ y| ≤ L * (npNorm x * npNorm y) := by
  refine (abs_dot_le _ _).trans ?_
  have := mul_le_mul_of_nonneg_left (hA y) (npNorm_nonneg x)
  linarith

/-- The function is between multiples of the squares of the lengths. -/
theorem mlV_between {J A : M3} {alpha eta l L : ℝ} (ha : 0 < alpha) (hl : 0 < l) (hlL : l ≤ L) (he : 0 < eta)
    (e1 : eta ^ 2 * L ^ 2 ≤ alpha * l ^ 2 / 2) (hJl : ∀ x : V3, l * npNorm x ^ 2 ≤ x ⬝ᵥ J *ᵥ x)
    (hAl : ∀ x : V3, l * npNorm x ^ 2 ≤ x ⬝ᵥ A *ᵥ x) (hJL : ∀ x, npNorm (J *ᵥ x) ≤ L * npNorm x)
    (hAL : ∀ x, npNorm (A *ᵥ x) ≤ L * npNorm x) (u w : V3) :
    l / 4 * npNorm w ^ 2 + alpha * l / 2 * npNorm u ^ 2 ≤ mlV J A alpha eta u w ∧
      mlV J A alpha eta u w ≤ L * npNorm w ^ 2 + 2 * alpha * L * npNorm u ^ 2 := by
  have c1 := abs_le.1 (quad_abs hAL u w)
  have c2 := abs_le.1 (quad_abs hAL w w)
  have c3 := abs_le.1 (quad_abs hJL u u)
  have c4 := hJl u
  have c5 := hAl w
  obtain ⟨p, hp⟩ : ∃ p, p = npNorm w := ⟨_, rfl⟩
  obtain ⟨q, hq⟩ : ∃ q, q = npNorm u := ⟨_, rfl⟩
  rw [← hp] at c1 c2 c5
  rw [← hq] at c1 c3 c4
  rw [← hp, ← hq]
  have y : eta * L * (p * q) ≤ l / 4 * p ^ 2 + alpha * l / 2 * q ^ 2 := by
    refine young_mul (by positivity) ?_
    have : 4 * (l / 4) * (alpha * l / 2) = alpha * l ^ 2 / 2 := by ring
    rw [this, mul_pow]; exact e1
  have d1 := mul_le_mul_of_nonneg_left c1.1 he.le
  have d2 := mul_le_mul_of_nonneg_left c1.2 he.le
  have d3 := mul_le_mul_of_nonneg_left c3.2 ha.le
  have d4 := mul_le_mul_of_nonneg_left c4 ha.le
  have f1 : l * p ^ 2 ≤ L * p ^ 2 := mul_le_mul_of_nonneg_right hlL (sq_nonneg _)
  have f2 : alpha * (l * q ^ 2) ≤ alpha * (L * q ^ 2) :=
    mul_le_mul_of_nonneg_left (mul_le_mul_of_nonneg_right hlL (sq_nonneg _)) ha.le
  have f3 : 0 ≤ alpha * (l * q ^ 2) := by positivity
  have f4 : 0 ≤ l * p ^ 2 := by positivity
  unfold mlV
  constructor <;> linarith

/-- The decay at an instant. -/
theorem ml_point {J A : M3} {alpha gamma l L eta ρ κ δ : ℝ} (ha : 0 < alpha) (hg : 0 < gamma) (hl : 0 < l) (hL : 0 < L)
    (hlL : l ≤ L) (he : 0 < eta) (hκ : 0 < κ)
    (e1 : eta ^ 2 * L ^ 2 ≤ alpha * l ^ 2 / 2) (e2 : eta * (L / 2 + gamma ^ 2 * L ^ 2 / (alpha * l)) ≤ gamma * l / 8)
    (e3 : ρ * (L + 2 * eta * L) + 4 * ρ ^ 2 * alpha * L ^ 2 / (eta * l) ≤ gamma * l / 8) (k1 : κ * L ≤ gamma * l / 2)
    (k2 : 8 * κ * L ≤ eta * l) (hJl : ∀ x : V3, l * npNorm x ^ 2 ≤ x ⬝ᵥ J *ᵥ x)
    (hAl : ∀ x : V3, l * npNorm x ^ 2 ≤ x ⬝ᵥ A *ᵥ x) (hJL : ∀ x, npNorm (J *ᵥ x) ≤ L * npNorm x)
    (hAL : ∀ x, npNorm (A *ᵥ x) ≤ L * npNorm x) {u w w' y x r : V3}
    (hr : npNorm r ≤ npNorm u * npNorm w) (hy : npNorm y ≤ L * npNorm w ^ 2) (hx : npNorm x ≤ δ)
    (hw' : A *ᵥ w' = y - alpha • J *ᵥ u - gamma • J *ᵥ w + A *ᵥ x) (hpρ : npNorm w ≤ ρ) (hqρ : npNorm u ≤ ρ) :
    w ⬝ᵥ A *ᵥ w' + 2 * alpha * (((1 / 2 : ℝ) • w + r) ⬝ᵥ J *ᵥ u) + eta * (((1 / 2 : ℝ) • w + r) ⬝ᵥ A *ᵥ w
      + u ⬝ᵥ A *ᵥ w') ≤
      -κ * mlV J A alpha eta u w + (L ^ 2 / (gamma * l) + eta * L ^ 2 / (alpha * l)) * δ ^ 2 := by
  have hV := mul_le_mul_of_nonneg_left (mlV_between ha hl hlL he e1 hJl hAl hJL hAL u w).2 hκ.le
  have key := ml_real (δ := δ) ha hg hl hL he e2 e3 k1 k2 (npNorm_nonneg w) (npNorm_nonneg u) hpρ hqρ
  rw [hw']
  simp only [add_dotProduct, dotProduct_add, dotProduct_sub, smul_dotProduct, dotProduct_smul, smul_eq_mul]
  have b1 : w ⬝ᵥ y ≤ npNorm w * (L * npNorm w ^ 2) :=
    ((le_abs_self _).trans (abs_dot_le _ _)).trans (mul_le_mul_of_nonneg_left hy (npNorm_nonneg _))
  have b2 : u ⬝ᵥ y ≤ npNorm u * (L * npNorm w ^ 2) :=
    ((le_abs_self _).trans (abs_dot_le _ _)).trans (mul_le_mul_of_nonneg_left hy (npNorm_nonneg _))
  have b3 : w ⬝ᵥ A *ᵥ x ≤ npNorm w * (L * δ) := by
    refine ((le_abs_self _).trans (quad_abs hAL w x)).trans ?_
    have := mul_le_mul_of_nonneg_left hx (mul_nonneg hL.le (npNorm_nonneg w))
    linarith
  have b4 : u ⬝ᵥ A *ᵥ x ≤ npNorm u * (L * δ) := by
    refine ((le_abs_self _).trans (quad_abs hAL u x)).trans ?_
    have := mul_le_mul_of_nonneg_left hx (mul_nonneg hL.le (npNorm_nonneg u))
    linarith
  have b5 : r ⬝ᵥ J *ᵥ u ≤ L * (npNorm u * (npNorm u * npNorm w)) := by
    refine ((le_abs_self _).trans (quad_abs hJL r u)).trans ?_
    have := mul_le_mul_of_nonneg_left hr (mul_nonneg hL.le (npNorm_nonneg u))
    linarith
  have b6 : r ⬝ᵥ A *ᵥ w ≤ L * (npNorm u * npNorm w * npNorm w) := by
    refine ((le_abs_self _).trans (quad_abs hAL r w)).trans ?_
    have := mul_le_mul_of_nonneg_left hr (mul_nonneg hL.le (npNorm_nonneg w))
    linarith
  have b7 : w ⬝ᵥ A *ᵥ w ≤ L * npNorm w ^ 2 := by
    have := (le_abs_self _).trans (quad_abs hAL w w)
    linarith
  have b8 : -(u ⬝ᵥ J *ᵥ w) ≤ L * (npNorm u * npNorm w) := (neg_le_abs _).trans (quad_abs hJL u w)
  have b9 := hJl w
  have b10 := hJl u
  obtain ⟨p, hp⟩ : ∃ p, p = npNorm w := ⟨_, rfl⟩
  obtain ⟨q, hq⟩ : ∃ q, q = npNorm u := ⟨_, rfl⟩
  rw [← hp, ← hq] at key b2 b5 b6 b8 hV
  rw [← hp] at b1 b3 b7 b9
  rw [← hq] at b4 b10
  have g2 := mul_le_mul_of_nonneg_left b2 he.le
  have g4 := mul_le_mul_of_nonneg_left b4 he.le
  have g5 := mul_le_mul_of_nonneg_left b5 (by linarith : 0 ≤ 2 * alpha)
  have g6 := mul_le_mul_of_nonneg_left b6 he.le
  have g7 := mul_le_mul_of_nonneg_left b7 he.le
  have g8 := mul_le_mul_of_nonneg_left b8 (mul_pos he hg).le
  have g9 := mul_le_mul_of_nonneg_left b9 hg.le
  have g10 := mul_le_mul_of_nonneg_left b10 (mul_pos he ha).le
  linarith

/-- The matrices of two inertias have such bounds. -/
theorem ml_matrices {I J : M3} (hI : I.PosDef) (hJ : J.PosDef) : ∃ l L : ℝ, 0 < l ∧ l ≤ L ∧
    (∀ x : V3, l * npNorm x ^ 2 ≤ x ⬝ᵥ J *ᵥ x) ∧ (∀ x : V3, l * npNorm x ^ 2 ≤ x ⬝ᵥ (J * I⁻¹ * J) *ᵥ x) ∧
    (∀ x, npNorm (J *ᵥ x) ≤ L * npNorm x) ∧ (∀ x, npNorm ((J * I⁻¹ * J) *ᵥ x) ≤ L * npNorm x) ∧
    ∀ w, npNorm ((J * I⁻¹) *ᵥ npCross w ((I - J) *ᵥ w)) ≤ L * npNorm w ^ 2 := by
  have lower : ∀ {A : M3}, A.PosDef → ∃ l > 0, ∀ x : V3, l * npNorm x ^ 2 ≤ x ⬝ᵥ A *ᵥ x := by
    intro A hA
    choose k hk using fun i => pd_coord hA i
    obtain ⟨S, hS⟩ : ∃ S, S = |k 0| + |k 1| + |k 2| + 1 := ⟨_, rfl⟩
    have hS0 : 0 < S := by rw [hS]; positivity
    refine ⟨1 / S, by positivity, fun x => ?_⟩
    have hx := psd_nonneg hA.posSemidef x
    have g : ∀ i, x i ^ 2 ≤ |k i| * (x ⬝ᵥ A *ᵥ x) := fun i =>
      (hk i x).trans (mul_le_mul_of_nonneg_right (le_abs_self _) hx)
    rw [div_mul_eq_mul_div, one_mul, div_le_iff₀ hS0, npNorm3_sq, hS]
    linarith [g 0, g 1, g 2]
  have hJs := psd_symm hJ.posSemidef
  have hApd : (J * I⁻¹ * J).PosDef := by
    have h1 := hI.inv.conjTranspose_mul_mul_same (B := J)
      (Matrix.mulVec_injective_iff_isUnit.2 hJ.isUnit)
    rwa [Matrix.conjTranspose_eq_transpose_of_trivial, hJs] at h1
  obtain ⟨l1, hl1, h1⟩ := lower hJ
  obtain ⟨l2, hl2, h2⟩ := lower hApd
  obtain ⟨L1, hL1, h3⟩ := mulVec_euclid J
  obtain ⟨L2, hL2, h4⟩ := mulVec_euclid (J * I⁻¹ * J)
  obtain ⟨L3, hL3, h5⟩ := mulVec_euclid (J * I⁻¹)
  obtain ⟨L4, hL4, h6⟩ := mulVec_euclid (I - J)
  obtain ⟨L, hL⟩ : ∃ L, L = l1 + L1 + L2 + L3 * L4 := ⟨_, rfl⟩
  have hp : 0 ≤ L3 * L4 := mul_nonneg hL3 hL4
  refine ⟨min l1 l2, L, lt_min hl1 hl2, (min_le_left _ _).trans (by linarith), fun x => ?_, fun x => ?_, fun x => ?_,
    fun x => ?_, fun w => ?_⟩
  · exact (mul_le_mul_of_nonneg_right (min_le_left _ _) (sq_nonneg _)).trans (h1 x)
  · exact (mul_le_mul_of_nonneg_right (min_le_right _ _) (sq_nonneg _)).trans (h2 x)
  · exact (h3 x).trans (mul_le_mul_of_nonneg_right (by linarith) (npNorm_nonneg _))
  · exact (h4 x).trans (mul_le_mul_of_nonneg_right (by linarith) (npNorm_nonneg _))
  · have g1 : npNorm (npCross w ((I - J) *ᵥ w)) ≤ L4 * npNorm w ^ 2 := by
      refine (cross_norm_le _ _).trans ?_
      have := mul_le_mul_of_nonneg_left (h6 w) (npNorm_nonneg w)
      linarith
    refine (h5 _).trans ((mul_le_mul_of_nonneg_left g1 hL3).trans ?_)
    rw [← mul_assoc]
    exact mul_le_mul_of_nonneg_right (by linarith) (sq_nonneg _)

/-- Derivative of the vector part of the error. -/
theorem hasDerivAt_errorVec {q : ℝ → V4} {w : V3} {t : ℝ} (qc : V4) (sgn : ℝ)
    (hq : HasDerivAt q ((0.5 : ℝ) • product (q t) (pureQ w)) t) :
    HasDerivAt (fun τ => sgn • vecPart (errorQuat (q τ) qc)) ((1 / 2 : ℝ) • w +
      (1 / 2 : ℝ) • ((sgn * errorQuat (q t) qc 0 - 1) • w + npCross (sgn • vecPart (errorQuat (q t) qc)) w)) t := by
  have hp := hasDerivAt_pi.1 (hasDerivAt_product (hasDerivAt_const t (conjugate qc)) hq)
  have z : product 0 (q t) = 0 := by
    apply vec4_ext <;> simp [product_0, product_1, product_2, product_3]
  have k : ∀ i, product (conjugate qc) ((0.5 : ℝ) • product (q t) (pureQ w)) i
      = 0.5 * product (errorQuat (q t) qc) (pureQ w) i := by
    intro i
    rw [(C04_product_bilinear _ _ 0 _).2.2.2, ← product_assoc]; rfl
  simp only [z, Pi.add_apply, Pi.zero_apply, zero_add, k] at hp
  obtain ⟨E, hE⟩ : ∃ E, E = errorQuat (q t) qc := ⟨_, rfl⟩
  rw [← hE] at hp ⊢
  rw [hasDerivAt_pi]
  intro i
  fin_cases i
  · refine ((hp 1).const_mul sgn).congr_deriv ?_
    simp [npCross_0, product_1, pureQ, vecPart_0, vecPart_1, vecPart_2]; ring
  · refine ((hp 2).const_mul sgn).congr_deriv ?_
    simp [npCross_1, product_2, pureQ, vecPart_0, vecPart_1, vecPart_2]; ring
  · refine ((hp 3).const_mul sgn).congr_deriv ?_
    simp [npCross_2, product_3, pureQ, vecPart_0, vecPart_1, vecPart_2]; ring

theorem mlV_deriv {J A : M3} (hJ : Jᵀ = J) (hA : Aᵀ = A) {alpha eta : ℝ} {u w : ℝ → V3} {u' w' : V3} {t : ℝ}
    (hu : HasDerivAt u u' t) (hw : HasDerivAt w w' t) :
    HasDerivAt (fun τ => mlV J A alpha eta (u τ) (w τ))
      (w t ⬝ᵥ A *ᵥ w' + 2 * alpha * (u' ⬝ᵥ J *ᵥ u t) + eta * (u' ⬝ᵥ A *ᵥ w t + u t ⬝ᵥ A *ᵥ w')) t := by
  have sym : ∀ {B : M3}, Bᵀ = B → ∀ x y : V3, x ⬝ᵥ B *ᵥ y = y ⬝ᵥ B *ᵥ x := fun hB x y => by
    rw [Matrix.dotProduct_mulVec, ← Matrix.mulVec_transpose, hB, dotProduct_comm]
  refine ((((hasDerivAt_dot3 hw (hasDerivAt_mulVec3 (J := A) hw)).div_const 2).fun_add
    ((hasDerivAt_dot3 hu (hasDerivAt_mulVec3 (J := J) hu)).const_mul alpha)).fun_add
    ((hasDerivAt_dot3 hu (hasDerivAt_mulVec3 (J := A) hw)).const_mul eta)).congr_deriv ?_
  rw [sym hA w' (w t), sym hJ (u t) u']
  ring

end Adcs
