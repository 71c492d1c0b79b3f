import Verif.Props.Triad
import Verif.Proofs.HeldTrack
import Verif.Proofs.KeepOut

set_option autoImplicit false

/-! # C216: what errors of the measured directions do to the attitude of the TRIAD algorithm -/

namespace Adcs

open Vec Quat AttEst
open scoped Matrix

theorem npNorm_diff_le (x y : V3) : |npNorm x - npNorm y| ≤ npNorm (x - y) := by
  have h1 := npNorm_add3 (x - y) y
  have h2 := npNorm_add3 (y - x) x
  have h3 := npNorm_neg3 (x - y)
  rw [sub_add_cancel] at h1 h2
  rw [neg_sub] at h3
  rw [abs_le]
  constructor <;> linarith

theorem cross_diff_le (x x' y y' : V3) :
    npNorm (npCross x' y' - npCross x y) ≤ npNorm (x' - x) * npNorm y' + npNorm x * npNorm (y' - y) := by
  have e : npCross x' y' - npCross x y = npCross (x' - x) y' + npCross x (y' - y) := by
    apply vec3_ext <;> simp [npCross_0, npCross_1, npCross_2] <;> ring
  rw [e]
  exact (npNorm_add3 _ _).trans (add_le_add (cross_norm_le _ _) (cross_norm_le _ _))

/-- A vector in the basis `r`, `n`, `r × n` with `n` orthogonal to the unit vector `r`. -/
theorem basis_decomp {r n : V3} (hr : IsUnit3 r) (o : npDot r n = 0) (v : V3) :
    npDot n n • v = (npDot n n * npDot v r) • r + npDot v n • n + npDot v (npCross r n) • npCross r n := by
  unfold IsUnit3 at hr
  rw [npDot3] at o
  apply vec3_ext <;> simp [npDot3, npCross_0, npCross_1, npCross_2] <;> grind

theorem basis_norm {r n : V3} (hr : IsUnit3 r) (o : npDot r n = 0) (v : V3) :
    npDot n n * npDot v v = npDot n n * npDot v r ^ 2 + npDot v n ^ 2 + npDot v (npCross r n) ^ 2 := by
  have h := congrArg (npDot v) (basis_decomp hr o v)
  have e : ∀ (a : ℝ) (x y : V3), npDot x (a • y) = a * npDot x y := by
    intro a x y; simp [npDot3]; ring
  have e' : ∀ x y z : V3, npDot x (y + z) = npDot x y + npDot x z := by
    intro x y z; simp [npDot3]; ring
  simp only [e, e'] at h
  linear_combination h

theorem triadNoise_real {s ε a b c x : ℝ} (hs : 0 < s) (hs1 : s ≤ 1) (hε : 0 ≤ ε) (hx : 0 ≤ x)
    (h : a ^ 2 + b ^ 2 + c ^ 2 = x ^ 2) : |a| * ε + |b| * (4 * ε / s) + |c| * (5 * ε / s) ≤ 13 / 2 * (ε / s) * x := by
  have h1 : ε ≤ ε / s := by rw [le_div_iff₀ hs]; nlinarith
  have h2 : |a| + 4 * |b| + 5 * |c| ≤ 13 / 2 * x := by
    refine le_of_sq_le_sq ?_ (by positivity)
    rw [← sq_abs a, ← sq_abs b, ← sq_abs c] at h
    nlinarith [sq_nonneg (4 * |a| - |b|), sq_nonneg (5 * |a| - |c|), sq_nonneg (5 * |b| - 4 * |c|), sq_nonneg x]
  have h3 : 0 ≤ ε / s := by positivity
  calc |a| * ε + |b| * (4 * ε / s) + |c| * (5 * ε / s)
      ≤ |a| * (ε / s) + |b| * (4 * ε / s) + |c| * (5 * ε / s) := by
        have := mul_le_mul_of_nonneg_left h1 (abs_nonneg a)
        linarith
    _ = (|a| + 4 * |b| + 5 * |c|) * (ε / s) := by ring
    _ ≤ 13 / 2 * x * (ε / s) := mul_le_mul_of_nonneg_right h2 h3
    _ = 13 / 2 * (ε / s) * x := by ring

/-- **C216** (bound). Unit measurements of two directions that are off by at most `ε` give an attitude that is off by
at most `13/2 ε` over the sine of the angle between the directions; the first measured direction is reproduced
exactly. -/
theorem C216_bound (r1 r2 b1 b2 : V3) (p : V4) (hp : npNorm p = 1) (hr1 : npNorm r1 = 1) (hr2 : npNorm r2 = 1)
    (hb1 : npNorm b1 = 1) (hb2 : npNorm b2 = 1) (hne : b1 ≠ -r1) {ε : ℝ}
    (e1 : npNorm (b1 - sandwich p r1) ≤ ε) (e2 : npNorm (b2 - sandwich p r2) ≤ ε) (hε : 2 * ε < npNorm (r1 ⨯₃ r2)) :
    ∃ q, triad r1 r2 b1 b2 = .ok (some q) ∧ npNorm q = 1 ∧ sandwich q r1 = b1 ∧
      ∀ v, npNorm (sandwich q v - sandwich p v) ≤ 13 / 2 * (ε / npNorm (r1 ⨯₃ r2)) * npNorm v := by
  have hε0 : 0 ≤ ε := (npNorm_nonneg _).trans e1
  have up := (isUnit4_iff p).2 hp
  have ur := (isUnit3_iff r1).2 hr1
  obtain ⟨n, hn⟩ : ∃ n, n = npCross r1 r2 := ⟨_, rfl⟩
  have hn' : r1 ⨯₃ r2 = n := by rw [hn, npCross_eq_crossProduct]
  rw [hn'] at hε ⊢
  obtain ⟨s, hs⟩ : ∃ s, s = npNorm n := ⟨_, rfl⟩
  rw [← hs] at hε ⊢
  have s0 : 0 < s := by linarith
  have s1 : s ≤ 1 := by
    have := cross_norm_le r1 r2
    rw [hr1, hr2, ← hn, ← hs] at this
    linarith
  have hnn : n ≠ 0 := fun h => by
    rw [hs, h, npNorm_eq_zero.2 rfl] at s0
    exact lt_irrefl _ s0
  have An : npCross (sandwich p r1) (sandwich p r2) = sandwich p n := by
    rw [npCross_eq_crossProduct, ← sandwich_cross up, hn']
  have nA : ∀ v, npNorm (sandwich p v) = npNorm v := fun v => (C06_sandwich_preserves p hp v 0).2.1
  have hc : npNorm (npCross b1 b2 - sandwich p n) ≤ 2 * ε := by
    rw [← An]
    have := cross_diff_le (sandwich p r1) b1 (sandwich p r2) b2
    rw [hb2, nA, hr1] at this
    linarith
  have hcs : |npNorm (npCross b1 b2) - s| ≤ 2 * ε := by
    have := npNorm_diff_le (npCross b1 b2) (sandwich p n)
    rw [nA, ← hs] at this
    exact this.trans hc
  have hcn : b1 ⨯₃ b2 ≠ 0 := fun h => by
    rw [npCross_eq_crossProduct, h, npNorm_eq_zero.2 rfl, zero_sub, abs_neg, abs_of_pos s0] at hcs
    linarith
  obtain ⟨q, hq, hu, h1, k, hk, h2⟩ := C19_triad r1 r2 b1 b2 hr1 hb1 hne (by rw [hn']; exact hnn) hcn
  refine ⟨q, hq, hu, h1, fun v => ?_⟩
  have uq := (isUnit4_iff q).2 hu
  have nB : ∀ v, npNorm (sandwich q v) = npNorm v := fun v => (C06_sandwich_preserves q hu v 0).2.1
  rw [hn', ← npCross_eq_crossProduct] at h2
  have d2 : npNorm (sandwich q n - sandwich p n) ≤ 4 * ε := by
    have hks : k * npNorm (npCross b1 b2) = s := by
      have := nB n
      rw [h2, npNorm_smul, abs_of_pos hk, ← hs] at this
      exact this
    have e : sandwich q n - sandwich p n = (k - 1) • npCross b1 b2 + (npCross b1 b2 - sandwich p n) := by
      rw [h2, sub_smul, one_smul]; abel
    have e' : npNorm ((k - 1) • npCross b1 b2) ≤ 2 * ε := by
      rw [npNorm_smul, ← abs_of_nonneg (npNorm_nonneg (npCross b1 b2)), ← abs_mul, sub_mul, hks, one_mul, abs_sub_comm]
      exact hcs
    rw [e]
    refine (npNorm_add3 _ _).trans ?_
    linarith
  have d3 : npNorm (sandwich q (npCross r1 n) - sandwich p (npCross r1 n)) ≤ 5 * ε := by
    rw [npCross_eq_crossProduct, sandwich_cross uq, sandwich_cross up, ← npCross_eq_crossProduct,
      ← npCross_eq_crossProduct, h1]
    have := cross_diff_le (sandwich p r1) b1 (sandwich p n) (sandwich q n)
    rw [nA, hr1, nB, ← hs] at this
    nlinarith [npNorm_nonneg (b1 - sandwich p r1)]
  have o : npDot r1 n = 0 := by
    rw [hn]
    simp [npDot3, npCross_0, npCross_1, npCross_2]; ring
  have hnn' : npDot n n = s ^ 2 := by rw [hs, npNorm_sq_dot]
  have hdec := basis_decomp ur o v
  have hnorm := basis_norm ur o v
  rw [hnn'] at hdec hnorm
  have hv : v = (npDot v r1) • r1 + (npDot v n / s ^ 2) • n + (npDot v (npCross r1 n) / s ^ 2) • npCross r1 n := by
    have h := congrArg (fun x : V3 => (s ^ 2)⁻¹ • x) hdec
    simp only [smul_add, smul_smul] at h
    have hs2 : s ^ 2 ≠ 0 := by positivity
    rw [inv_mul_cancel₀ hs2, one_smul, ← mul_assoc, inv_mul_cancel₀ hs2, one_mul] at h
    rw [div_eq_inv_mul, div_eq_inv_mul]
    exact h
  have hd : sandwich q v - sandwich p v = (npDot v r1) • (b1 - sandwich p r1)
      + (npDot v n / s ^ 2) • (sandwich q n - sandwich p n)
      + (npDot v (npCross r1 n) / s ^ 2) • (sandwich q (npCross r1 n) - sandwich p (npCross r1 n)) := by
    conv_lhs => rw [hv]
    simp only [sandwich_add, sandwich_smul, h1, smul_sub]
    abel
  rw [hd]
  refine (npNorm_add3 _ _).trans ?_
  refine (add_le_add (npNorm_add3 _ _) le_rfl).trans ?_
  rw [npNorm_smul, npNorm_smul, npNorm_smul]
  have hx : npDot v r1 ^ 2 + (npDot v n / s) ^ 2 + (npDot v (npCross r1 n) / s) ^ 2 = npNorm v ^ 2 := by
    rw [npNorm_sq_dot]
    field_simp
    linarith
  refine le_trans ?_ (triadNoise_real s0 s1 hε0 (npNorm_nonneg v) hx)
  have conv : ∀ x y : ℝ, |x / s ^ 2| * y = |x / s| * (y / s) := by
    intro x y
    rw [abs_div, abs_div, abs_of_pos s0, abs_of_pos (pow_pos s0 2)]
    field_simp
  rw [conv, conv]
  gcongr

/-- Rodrigues' rotation moves a vector by twice the sine of half the angle times its distance from the axis. -/
theorem rodrigues_move {r : V3} (hr : npNorm r = 1) (θ : ℝ) (v : V3) :
    npNorm (Spec.rodrigues r θ v - v) = 2 * |Real.sin (θ / 2)| * npNorm (npCross r v) := by
  refine (pow_left_inj₀ (npNorm_nonneg _) (by have := npNorm_nonneg (npCross r v); positivity) two_ne_zero).1 ?_
  have ur : r 0 ^ 2 + r 1 ^ 2 + r 2 ^ 2 = 1 := (isUnit3_iff r).2 hr
  have hc : Real.cos θ = 1 - 2 * Real.sin (θ / 2) ^ 2 := by
    have := Real.cos_two_mul (θ / 2)
    have h2 := Real.sin_sq_add_cos_sq (θ / 2)
    rw [show 2 * (θ / 2) = θ by ring] at this
    linarith
  have hs := Real.sin_sq_add_cos_sq θ
  rw [mul_pow, mul_pow, sq_abs, npNorm3_sq, npNorm3_sq, npCross_0, npCross_1, npCross_2]
  have h4 : (2 : ℝ) ^ 2 * Real.sin (θ / 2) ^ 2 = 2 * (1 - Real.cos θ) := by rw [hc]; ring
  rw [h4]
  simp only [Spec.rodrigues, ← npCross_eq_crossProduct, Pi.sub_apply, Pi.add_apply, Pi.smul_apply, smul_eq_mul, npCross_0,
    npCross_1, npCross_2, Matrix.vec3_dotProduct]
  generalize Real.cos θ = c at *
  generalize Real.sin θ = u at *
  grind

/-- **C216** (the bound has the right form). For every attitude, every pair of directions and every angle there are
measurements, exact in the first direction, that lead the algorithm to an attitude that is off by the error of the
second measurement over the sine of the angle between the directions. -/
theorem C216_sharp (r1 r2 : V3) (p : V4) (hp : npNorm p = 1) (hr1 : npNorm r1 = 1) (hr2 : npNorm r2 = 1)
    (hne : sandwich p r1 ≠ -r1) (hr : r1 ⨯₃ r2 ≠ 0) (θ : ℝ) :
    ∃ (b2 : V3) (q : V4), npNorm b2 = 1 ∧ triad r1 r2 (sandwich p r1) b2 = .ok (some q) ∧
      npNorm (b2 - sandwich p r2) = 2 * |Real.sin (θ / 2)| * npNorm (r1 ⨯₃ r2) ∧
      ∀ v, v ⬝ᵥ r1 = 0 →
        npNorm (sandwich q v - sandwich p v) = npNorm (b2 - sandwich p r2) / npNorm (r1 ⨯₃ r2) * npNorm v := by
  obtain ⟨a, ha⟩ : ∃ a, a = axisangleToQuat r1 (-θ) := ⟨_, rfl⟩
  have hua : npNorm a = 1 := by rw [ha]; exact C10_axisangle_unit r1 _ hr1
  have hsa : ∀ v, sandwich a v = Spec.rodrigues r1 θ v := by
    intro v
    rw [ha, C10_axisangle_passive r1 _ hr1, neg_neg]
  obtain ⟨p', hp'⟩ : ∃ p', p' = product a p := ⟨_, rfl⟩
  have hup : npNorm p' = 1 := by rw [hp', C04_product_norm, hua, hp, one_mul]
  have hsp : ∀ v, sandwich p' v = sandwich p (Spec.rodrigues r1 θ v) := by
    intro v
    rw [hp', (C08_sandwich_product a p v).1, hsa]
  have hfix : Spec.rodrigues r1 θ r1 = r1 := by
    have h := rodrigues_move hr1 θ r1
    have h0 : npCross r1 r1 = 0 := by rw [npCross_eq_crossProduct, cross_self]
    rw [h0, npNorm_eq_zero.2 rfl, mul_zero, npNorm_eq_zero, sub_eq_zero] at h
    exact h
  have h1 : sandwich p' r1 = sandwich p r1 := by rw [hsp, hfix]
  obtain ⟨q, hq, hqs⟩ := C19_triad_exact r1 r2 p' hup hr1 (by rw [h1]; exact hne) hr
  rw [h1] at hq
  have hqv : ∀ v, sandwich q v = sandwich p' v := by
    intro v
    rcases hqs with rfl | rfl
    · rfl
    · exact C06_sandwich_neg p' v
  have sub : ∀ u v, sandwich p u - sandwich p v = sandwich p (u - v) := by
    intro u v
    rw [sandwich_eq_dcm, sandwich_eq_dcm, sandwich_eq_dcm, Matrix.mulVec_sub]
  have mv : ∀ v, npNorm (sandwich p' v - sandwich p v) = 2 * |Real.sin (θ / 2)| * npNorm (npCross r1 v) := by
    intro v
    rw [hsp, sub, (C06_sandwich_preserves p hp _ 0).2.1, rodrigues_move hr1]
  have hpos := npNorm_pos hr
  refine ⟨sandwich p' r2, q, ?_, hq, ?_, fun v hv => ?_⟩
  · rw [(C06_sandwich_preserves p' hup r2 0).2.1, hr2]
  · rw [mv, npCross_eq_crossProduct]
  · rw [hqv, mv, mv, npCross_eq_crossProduct r1 r2]
    have hcv : npNorm (npCross r1 v) = npNorm v := by
      refine (pow_left_inj₀ (npNorm_nonneg _) (npNorm_nonneg _) two_ne_zero).1 ?_
      have ur : r1 0 ^ 2 + r1 1 ^ 2 + r1 2 ^ 2 = 1 := (isUnit3_iff r1).2 hr1
      rw [npNorm3_sq, npNorm3_sq, npCross_0, npCross_1, npCross_2]
      rw [Matrix.vec3_dotProduct] at hv
      grind
    rw [hcv]
    field_simp

/-- **C216** (what is ignored). The part of the second measurement along the first and its length do not matter. -/
theorem C216_second (r1 r2 b1 b2 : V3) (k m : ℝ) (hk : 0 < k) :
    triad r1 r2 b1 (k • b2 + m • b1) = triad r1 r2 b1 b2 := by
  have hb : npCross b1 (k • b2 + m • b1) = k • npCross b1 b2 := by
    apply vec3_ext <;> simp [npCross_0, npCross_1, npCross_2] <;> ring
  obtain ⟨c, hc⟩ : ∃ c, c = npCross b1 b2 := ⟨_, rfl⟩
  obtain ⟨n, hn⟩ : ∃ n, n = npCross r1 r2 := ⟨_, rfl⟩
  unfold triad
  simp only [isFreshObject, Bool.or_self, Bool.false_eq_true, if_false]
  rw [hb, ← hc, ← hn]
  have m1 : (1 + npDot b1 r1) * npDot (k • c) n - npDot b1 n * npDot r1 (k • c)
      = k * ((1 + npDot b1 r1) * npDot c n - npDot b1 n * npDot r1 c) := by
    simp [npDot3]; ring
  have n1 : npDot (b1 + r1) (npCross (k • c) n) = k * npDot (b1 + r1) (npCross c n) := by
    simp [npDot3, npCross_0, npCross_1, npCross_2]; ring
  rw [m1, n1]
  generalize (1 + npDot b1 r1) * npDot c n - npDot b1 n * npDot r1 c = mu
  generalize npDot (b1 + r1) (npCross c n) = nu
  generalize 1 + npDot b1 r1 = d
  have hr : Real.sqrt ((k * mu) ^ 2 + (k * nu) ^ 2) = k * Real.sqrt (mu ^ 2 + nu ^ 2) := by
    rw [show (k * mu) ^ 2 + (k * nu) ^ 2 = k ^ 2 * (mu ^ 2 + nu ^ 2) by ring, Real.sqrt_mul (sq_nonneg k),
      Real.sqrt_sq hk.le]
  rw [hr]
  generalize Real.sqrt (mu ^ 2 + nu ^ 2) = rho
  have hsq : ∀ x : ℝ, npSqrt (k ^ 2 * x) = match npSqrt x with | .error e => .error e | .ok y => .ok (k * y) := by
    intro x
    unfold npSqrt
    by_cases hx : x < 0
    · rw [if_pos hx, if_pos (mul_neg_of_pos_of_neg (by positivity) hx)]
    · rw [if_neg hx, if_neg (not_lt.2 (mul_nonneg (by positivity) (not_lt.1 hx)))]
      simp only [Real.sqrt_mul (sq_nonneg k), Real.sqrt_sq hk.le]
  by_cases hm : mu ≥ 0
  · rw [if_pos hm, if_pos (mul_nonneg hk.le hm)]
    rw [show k * rho * ((k * rho + k * mu) * d) = k ^ 2 * (rho * ((rho + mu) * d)) by ring, hsq]
    rcases npSqrt (rho * ((rho + mu) * d)) with e | y
    · rfl
    · by_cases hy : y = 0
      · simp [npDiv, hy]
      · simp only [npDiv, hy, hk.ne', mul_eq_zero, or_self, if_false]
        congr 2
        apply vec4_ext <;> simp <;> field_simp
  · rw [if_neg hm, if_neg (by simp only [ge_iff_le, not_le] at hm ⊢; exact mul_neg_of_pos_of_neg hk hm)]
    rw [show k * rho * (k * rho - k * mu) * d = k ^ 2 * (rho * (rho - mu) * d) by ring, hsq]
    rcases npSqrt (rho * (rho - mu) * d) with e | y
    · rfl
    · by_cases hy : y = 0
      · simp [npDiv, hy]
      · simp only [npDiv, hy, hk.ne', mul_eq_zero, or_self, if_false]
        congr 2
        apply vec4_ext <;> simp <;> field_simp

/-- Perpendicular directions and a second measurement that is off by less than 0.29. -/
example : ∃ (r1 r2 b1 b2 : V3) (p : V4), npNorm p = 1 ∧ npNorm r1 = 1 ∧ npNorm r2 = 1 ∧ npNorm b1 = 1 ∧ npNorm b2 = 1 ∧
    b1 ≠ -r1 ∧ b2 ≠ sandwich p r2 ∧ npNorm (b1 - sandwich p r1) ≤ 0.29 ∧ npNorm (b2 - sandwich p r2) ≤ 0.29 ∧
    2 * (0.29 : ℝ) < npNorm (r1 ⨯₃ r2) ∧ sandwich p r1 ≠ -r1 := by
  have u : ∀ {x y z : ℝ}, x ^ 2 + y ^ 2 + z ^ 2 = 1 → npNorm (![x, y, z] : V3) = 1 := fun h => npNorm_vec3 h
  have i : ∀ v : V3, sandwich ![1, 0, 0, 0] v = v := by
    intro v
    apply vec3_ext
    · rw [sandwich_0]; simp
    · rw [sandwich_1]; simp
    · rw [sandwich_2]; simp
  refine ⟨![1, 0, 0], ![0, 1, 0], ![1, 0, 0], ![0, 24 / 25, 7 / 25], ![1, 0, 0, 0], ?_, u (by norm_num), u (by norm_num),
    u (by norm_num), u (by norm_num), ?_, ?_, ?_, ?_, ?_, ?_⟩
  · simp [npNorm, Fin.sum_univ_four]
  · intro h
    have := congrFun h 0
    norm_num at this
  · rw [i]
    intro h
    have := congrFun h 2
    norm_num at this
  · rw [i, sub_self, npNorm_eq_zero.2 rfl]
    norm_num
  · rw [i]
    refine le_of_sq_le_sq ?_ (by norm_num)
    rw [npNorm3_sq]
    simp
    norm_num
  · have : npNorm ((![1, 0, 0] : V3) ⨯₃ ![0, 1, 0]) = 1 := by
      rw [← npCross_eq_crossProduct]
      simp [npCross, npNorm, Fin.sum_univ_three]
    rw [this]
    norm_num
  · rw [i]
    intro h
    have := congrFun h 0
    norm_num at this

end Adcs
