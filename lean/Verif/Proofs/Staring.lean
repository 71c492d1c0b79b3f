import Verif.Props.Convergence
import Verif.Props.Pointing
import Verif.Proofs.SimTrack
import Verif.Proofs.KeepOut
import Verif.Proofs.Slew
import Verif.Props.Spin
import Verif.Proofs.RollLimit

set_option autoImplicit false

/-! # The closed loop of `point_and_stare`: algebra and inequalities -/

namespace Adcs

open Str Ctl Sens JDay Quat Vec Dyn
open scoped Matrix Topology

/-- The rotation between two unit vectors that are not opposite. -/
theorem align_eq {b d : V3} (hb : npNorm b = 1) (hd : npNorm d = 1) (hne : -1 < b ⬝ᵥ d) :
    axisangleToQuat (rAxisAngle b d).1 (rAxisAngle b d).2 0 = √((1 + b ⬝ᵥ d) / 2) ∧
    vecPart (axisangleToQuat (rAxisAngle b d).1 (rAxisAngle b d).2) =
      (1 / (2 * √((1 + b ⬝ᵥ d) / 2))) • npCross b d := by
  have hb2 := npNorm_eq_one.1 hb
  have hd2 := npNorm_eq_one.1 hd
  simp only [Fin.sum_univ_three] at hb2 hd2
  obtain ⟨c, hc⟩ : ∃ c, c = b ⬝ᵥ d := ⟨_, rfl⟩
  rw [← hc] at hne ⊢
  have hc3 : c = b 0 * d 0 + b 1 * d 1 + b 2 * d 2 := hc.trans (Matrix.vec3_dotProduct' ..)
  have hlag : c ^ 2 + (npCross b d 0 ^ 2 + npCross b d 1 ^ 2 + npCross b d 2 ^ 2) = 1 := by
    rw [npCross_0, npCross_1, npCross_2, hc3]
    linear_combination (d 0 ^ 2 + d 1 ^ 2 + d 2 ^ 2) * hb2 + hd2
  have hc1 : -1 ≤ c ∧ c ≤ 1 := by
    constructor <;> nlinarith [sq_nonneg (npCross b d 0), sq_nonneg (npCross b d 1), sq_nonneg (npCross b d 2)]
  have hclip : npClip (npDot b d) (-1) 1 = c := by
    rw [npDot_eq_dotProduct, ← hc, npClip, max_eq_left hc1.1, min_eq_left hc1.2]
  simp only [rAxisAngle, hclip]
  set θ := Real.arccos c with hθ
  have hcos : Real.cos θ = c := Real.cos_arccos hc1.1 hc1.2
  have hk2 : Real.cos (θ / 2) ^ 2 = (1 + c) / 2 := by
    rw [Real.cos_sq, mul_div_cancel₀ _ (by norm_num : (2 : ℝ) ≠ 0), hcos]; ring
  have hkn : 0 ≤ Real.cos (θ / 2) := by
    apply Real.cos_nonneg_of_mem_Icc
    have h1 := Real.arccos_nonneg c
    have h2 := Real.arccos_le_pi c
    constructor <;> linarith [Real.pi_pos]
  have hk : Real.cos (θ / 2) = √((1 + c) / 2) := by
    rw [← hk2, Real.sqrt_sq hkn]
  have hk0 : √((1 + c) / 2) ≠ 0 := (Real.sqrt_pos.2 (by linarith)).ne'
  have hv : Real.sin (θ / 2) • normalizeV (npCross b d) = (1 / (2 * √((1 + c) / 2))) • npCross b d := by
    by_cases h0 : npCross b d = 0
    · rw [h0, normalize_zero, smul_zero, smul_zero]
    · have hs : Real.sin θ = npNorm (npCross b d) := by
        rw [hθ, Real.sin_arccos, npNorm, Fin.sum_univ_three]
        congr 1; linarith
      have hs2 : Real.sin θ = 2 * Real.sin (θ / 2) * √((1 + c) / 2) := by
        rw [← hk, ← Real.sin_two_mul]; congr 1; ring
      have hn := (npNorm_pos h0).ne'
      rw [normalize_eq h0, smul_smul]
      congr 1
      rw [← hs, hs2] at *
      have : Real.sin (θ / 2) ≠ 0 := by
        intro h; rw [h] at hn; simp at hn
      field_simp
  refine ⟨hk, ?_⟩
  rw [← hv]
  apply vec3_ext <;> rfl

/-- A rotation moves a vector by at most twice its length times the sine of half the angle. -/
theorem sandwich_move {e : V4} (he : IsUnit4 e) (u : V3) :
    npNorm (sandwich e u - u) ≤ 2 * npNorm (vecPart e) * npNorm u := by
  have h1 : sandwich e u - u = npCross (vecPart e) ((2 : ℝ) • (npCross (vecPart e) u - e 0 • u)) := by
    unfold IsUnit4 at he
    apply vec3_ext <;>
      simp only [Pi.sub_apply, Pi.smul_apply, smul_eq_mul, sandwich_0, sandwich_1, sandwich_2, npCross_0, npCross_1,
        npCross_2, vecPart_0, vecPart_1, vecPart_2]
    · linear_combination (u 0) * he
    · linear_combination (u 1) * he
    · linear_combination (u 2) * he
  have h2 : npNorm ((2 : ℝ) • (npCross (vecPart e) u - e 0 • u)) ≤ 2 * npNorm u := by
    refine abs_le_of_sq_le_sq' ?_ (by positivity [npNorm_nonneg u]) |>.2
    rw [mul_pow, npNorm3_sq, npNorm3_sq]
    unfold IsUnit4 at he
    simp only [Pi.sub_apply, Pi.smul_apply, smul_eq_mul, npCross_0, npCross_1, npCross_2, vecPart_0, vecPart_1, vecPart_2]
    have : (2:ℝ) ^ 2 * (u 0 ^ 2 + u 1 ^ 2 + u 2 ^ 2) - ((2 * (e 2 * u 2 - e 3 * u 1 - e 0 * u 0)) ^ 2 +
        (2 * (e 3 * u 0 - e 1 * u 2 - e 0 * u 1)) ^ 2 + (2 * (e 1 * u 1 - e 2 * u 0 - e 0 * u 2)) ^ 2) =
        4 * (e 1 * u 0 + e 2 * u 1 + e 3 * u 2) ^ 2 := by
      linear_combination -(4 * (u 0 ^ 2 + u 1 ^ 2 + u 2 ^ 2)) * he
    nlinarith [sq_nonneg (e 1 * u 0 + e 2 * u 1 + e 3 * u 2)]
  rw [h1]
  refine (cross_norm_le _ _).trans ?_
  have := mul_le_mul_of_nonneg_left h2 (npNorm_nonneg (vecPart e))
  linarith

set_option maxHeartbeats 1000000 in
/-- The decay of the function with the cross term; `x`, `y` are the sizes of the rate error and of the vector part of
the attitude error. -/
theorem stare_decay {al ga ep K k rho sg a x y Q Z zp vp W : ℝ} (hal : 0 < al) (hga : 0 < ga) (hep : 0 < ep)
    (h1 : 16 * ga * ep ≤ al) (h2 : 2 * rho ≤ ep * ga) (hr : 0 ≤ rho) (h3 : 8 * ep * K ≤ ga) (h4 : 8 * sg ≤ ga)
    (hs : 0 ≤ sg) (hk1 : 4 * k ≤ ga) (hk2 : 16 * k ≤ ep) (hk : 0 ≤ k) (hx : 0 ≤ x) (hy : 0 ≤ y) (hy1 : y ≤ 1) (ha : 0 ≤ a)
    (hQ : |Q| ≤ x * y) (hZ : Z ≤ K * x ^ 2) (hzp : zp ≤ x * (rho * y + sg * (y * x) + a))
    (hvp : vp ≤ y * (rho * y + sg * (y * x) + a)) (hW : W ≤ x ^ 2 + 4 * al * y ^ 2) :
    -ga * x ^ 2 + zp - ep * al * y ^ 2 - ep * ga * Q + ep * vp + ep * Z ≤
      -k * W + (1 / ga + ep / al) * a ^ 2 := by
  have e1 : -(ep * ga * Q) ≤ ep * ga * (x * y) := by
    have := mul_le_mul_of_nonneg_left (abs_le.1 hQ).1 (mul_pos hep hga).le
    linarith
  have e2 : ep * Z ≤ ga / 8 * x ^ 2 := by
    have h : ep * Z ≤ ep * (K * x ^ 2) := mul_le_mul_of_nonneg_left hZ hep.le
    have h' := mul_le_mul_of_nonneg_right h3 (sq_nonneg x)
    linarith
  have e3 : sg * (y * x) * x ≤ ga / 8 * x ^ 2 := by
    have h : y * x ^ 2 ≤ 1 * x ^ 2 := mul_le_mul_of_nonneg_right hy1 (sq_nonneg x)
    have h' := mul_le_mul_of_nonneg_left h hs
    have h'' := mul_le_mul_of_nonneg_right h4 (sq_nonneg x)
    linarith
  have e4 : sg * (y * x) * y ≤ ga / 8 * (x * y) := by
    have h : y * (x * y) ≤ 1 * (x * y) := mul_le_mul_of_nonneg_right hy1 (mul_nonneg hx hy)
    have h' := mul_le_mul_of_nonneg_left h hs
    have h'' := mul_le_mul_of_nonneg_right h4 (mul_nonneg hx hy)
    linarith
  have e5 : a * x ≤ ga / 4 * x ^ 2 + 1 / ga * a ^ 2 := by
    have : 0 ≤ (ga * x / 2 - a) ^ 2 / ga := by positivity
    have e : (ga * x / 2 - a) ^ 2 / ga = ga / 4 * x ^ 2 + 1 / ga * a ^ 2 - a * x := by field_simp; ring
    linarith
  have e6 : ep * (a * y) ≤ ep * al / 4 * y ^ 2 + ep / al * a ^ 2 := by
    have : 0 ≤ ep * ((al * y / 2 - a) ^ 2 / al) := by positivity
    have e : ep * ((al * y / 2 - a) ^ 2 / al) = ep * al / 4 * y ^ 2 + ep / al * a ^ 2 - ep * (a * y) := by
      field_simp; ring
    linarith
  have e7 : rho * (x * y) ≤ ep * ga / 2 * (x * y) :=
    mul_le_mul_of_nonneg_right (by linarith) (mul_nonneg hx hy)
  have e8 : ep * (rho * y ^ 2) ≤ ep * (al / 32) * y ^ 2 := by
    have h : rho ≤ al / 32 := by linarith
    have h' := mul_le_mul_of_nonneg_left (mul_le_mul_of_nonneg_right h (sq_nonneg y)) hep.le
    linarith
  -- the mixed term
  have e9 : 2 * ep * ga * (x * y) ≤ ga / 4 * x ^ 2 + ep * al / 4 * y ^ 2 := by
    have : 0 ≤ ga / 4 * (x - 4 * ep * y) ^ 2 := by positivity
    have h : ga / 4 * (x - 4 * ep * y) ^ 2 = ga / 4 * x ^ 2 - 2 * ep * ga * (x * y) + 4 * ep * (ep * ga) * y ^ 2 := by ring
    have h' : 4 * ep * (ep * ga) * y ^ 2 ≤ ep * al / 4 * y ^ 2 := by
      have h := mul_le_mul_of_nonneg_left h1 hep.le
      have : 4 * ep * (ep * ga) ≤ ep * al / 4 := by linarith
      exact mul_le_mul_of_nonneg_right this (sq_nonneg y)
    linarith
  have e10 : ep * (ga / 8 * (x * y)) = ep * ga / 8 * (x * y) := by ring
  have hzp' : zp ≤ rho * (x * y) + sg * (y * x) * x + a * x := hzp.trans_eq (by ring)
  have hvp' : ep * vp ≤ ep * (rho * y ^ 2) + ep * (sg * (y * x) * y) + ep * (a * y) := by
    have := mul_le_mul_of_nonneg_left hvp hep.le
    linarith
  have e4' : ep * (sg * (y * x) * y) ≤ ep * ga / 8 * (x * y) := by
    rw [← e10]; exact mul_le_mul_of_nonneg_left e4 hep.le
  have eW : k * W ≤ ga / 4 * x ^ 2 + ep * al / 4 * y ^ 2 := by
    have h := mul_le_mul_of_nonneg_left hW hk
    have i1 : k * x ^ 2 ≤ ga / 4 * x ^ 2 := mul_le_mul_of_nonneg_right (by linarith) (sq_nonneg x)
    have i2 : k * (4 * al) * y ^ 2 ≤ ep * al / 4 * y ^ 2 := by
      have h := mul_le_mul_of_nonneg_right hk2 hal.le
      exact mul_le_mul_of_nonneg_right (by linarith) (sq_nonneg y)
    linarith
  have p1 : 0 ≤ ep * ga * (x * y) := by positivity
  have p2 : 0 ≤ ep * al * y ^ 2 := by positivity
  have p3 : 0 ≤ ga * x ^ 2 := by positivity
  have r : (1 / ga + ep / al) * a ^ 2 = 1 / ga * a ^ 2 + ep / al * a ^ 2 := by ring
  rw [r]
  linarith

/-- The cosine of half the angle between two unit vectors. -/
noncomputable def halfCos (b d : V3) : ℝ := √((1 + b ⬝ᵥ d) / 2)

/-- The vector part of the attitude error of `point_and_stare`. -/
noncomputable def stareVec (b d : V3) : V3 := (-(1 / (2 * halfCos b d))) • (b ⨯₃ d)

theorem dot_range {b d : V3} (hb : npNorm b = 1) (hd : npNorm d = 1) : -1 ≤ b ⬝ᵥ d ∧ b ⬝ᵥ d ≤ 1 := by
  have := dot_le_norms b d
  rw [hb, hd, one_mul, abs_le] at this
  exact this

theorem halfCos_sq {b d : V3} (hb : npNorm b = 1) (hd : npNorm d = 1) : halfCos b d ^ 2 = (1 + b ⬝ᵥ d) / 2 :=
  Real.sq_sqrt (by linarith [(dot_range hb hd).1])

theorem halfCos_le {b d : V3} (hb : npNorm b = 1) (hd : npNorm d = 1) : halfCos b d ≤ 1 := by
  have h1 := halfCos_sq hb hd
  have h2 := (dot_range hb hd).2
  have h3 : 0 ≤ halfCos b d := Real.sqrt_nonneg _
  nlinarith

theorem cross_dot_self {b d : V3} (hb : npNorm b = 1) (hd : npNorm d = 1) :
    (b ⨯₃ d) ⬝ᵥ (b ⨯₃ d) = 1 - (b ⬝ᵥ d) ^ 2 := by
  have hb2 := npNorm3_sq b
  have hd2 := npNorm3_sq d
  rw [hb] at hb2
  rw [hd] at hd2
  rw [← npCross_eq_crossProduct, Matrix.vec3_dotProduct, Matrix.vec3_dotProduct, npCross_0, npCross_1, npCross_2]
  linear_combination -(d 0 ^ 2 + d 1 ^ 2 + d 2 ^ 2) * hb2 - hd2

theorem stareVec_dot {b d : V3} (hb : npNorm b = 1) (hd : npNorm d = 1) (h0 : 0 < halfCos b d) :
    stareVec b d ⬝ᵥ stareVec b d = 1 - halfCos b d ^ 2 := by
  have h := halfCos_sq hb hd
  unfold stareVec
  rw [smul_dotProduct, dotProduct_smul, cross_dot_self hb hd, smul_eq_mul, smul_eq_mul]
  have e : b ⬝ᵥ d = 2 * halfCos b d ^ 2 - 1 := by linarith
  rw [e]
  field_simp
  ring

/-- The distance of the boresight from the direction and from the opposite direction. -/
theorem norm_sub_halfCos {b d : V3} (hb : npNorm b = 1) (hd : npNorm d = 1) :
    npNorm (d - b) ^ 2 = 4 * (1 - halfCos b d ^ 2) ∧ npNorm (d + b) = 2 * halfCos b d := by
  have hb2 := npNorm3_sq b
  have hd2 := npNorm3_sq d
  rw [hb] at hb2
  rw [hd] at hd2
  have h := halfCos_sq hb hd
  rw [Matrix.vec3_dotProduct] at h
  have h3 : 0 ≤ halfCos b d := Real.sqrt_nonneg _
  constructor
  · rw [npNorm3_sq]
    simp only [Pi.sub_apply]
    linarith
  · have : npNorm (d + b) ^ 2 = (2 * halfCos b d) ^ 2 := by
      rw [npNorm3_sq]
      simp only [Pi.add_apply]
      linarith
    rwa [pow_left_inj₀ (npNorm_nonneg _) (by positivity) two_ne_zero] at this

theorem hasDerivAt_halfCos {b : V3} {d : ℝ → V3} {z : V3} {t : ℝ} (h0 : 0 < halfCos b (d t))
    (hd : HasDerivAt d (d t ⨯₃ z) t) :
    HasDerivAt (fun τ => halfCos b (d τ)) (-(stareVec b (d t) ⬝ᵥ z) / 2) t := by
  have h1 := hasDerivAt_dot3 (hasDerivAt_const t b) hd
  have h2 := ((h1.const_add 1).div_const 2).sqrt (Real.sqrt_pos.1 h0).ne'
  refine h2.congr_deriv ?_
  change _ / (2 * halfCos b (d t)) = _
  unfold stareVec
  rw [smul_dotProduct, smul_eq_mul, zero_dotProduct, zero_add]
  have e : b ⬝ᵥ (d t ⨯₃ z) = (b ⨯₃ d t) ⬝ᵥ z := by
    simp only [← npCross_eq_crossProduct, Matrix.vec3_dotProduct, npCross_0, npCross_1, npCross_2]; ring
  rw [e]
  field_simp

/-- The function with the cross term. -/
noncomputable def stareW (al ep : ℝ) (b d z : V3) : ℝ :=
  z ⬝ᵥ z / 2 + 2 * al * (1 - halfCos b d) + ep * (stareVec b d ⬝ᵥ z)

theorem hasDerivAt_stareW {al ga ep : ℝ} {b : V3} {d z : ℝ → V3} {p : V3} {t : ℝ} (h0 : 0 < halfCos b (d t))
    (hd : HasDerivAt d (d t ⨯₃ z t) t) (hz : HasDerivAt z (-al • stareVec b (d t) - ga • z t + p) t) :
    HasDerivAt (fun τ => stareW al ep b (d τ) (z τ))
      (-ga * (z t ⬝ᵥ z t) + z t ⬝ᵥ p - ep * al * (stareVec b (d t) ⬝ᵥ stareVec b (d t))
        - ep * ga * (stareVec b (d t) ⬝ᵥ z t) + ep * (stareVec b (d t) ⬝ᵥ p)
        + ep * (((b ⬝ᵥ d t) * (z t ⬝ᵥ z t) - (d t ⬝ᵥ z t) * (b ⬝ᵥ z t)
          + (stareVec b (d t) ⬝ᵥ z t) ^ 2) / (2 * halfCos b (d t)))) t := by
  have hc := hasDerivAt_halfCos h0 hd
  have hzz := hasDerivAt_dot3 hz hz
  have hs : HasDerivAt (fun τ => -(1 / (2 * halfCos b (d τ)))) (-(stareVec b (d t) ⬝ᵥ z t) / (4 * halfCos b (d t) ^ 2)) t := by
    have := ((hasDerivAt_const t (1 : ℝ)).fun_div (hc.const_mul 2) (by positivity)).fun_neg
    refine this.congr_deriv ?_
    field_simp
    ring
  have hv : HasDerivAt (fun τ => stareVec b (d τ)) _ t := hs.fun_smul (hasDerivAt_crossConst b hd)
  have hvz := hasDerivAt_dot3 hv hz
  have := ((hzz.div_const 2).fun_add ((hc.const_sub 1).const_mul (2 * al))).fun_add (hvz.const_mul ep)
  refine this.congr_deriv ?_
  have hcv : b ⨯₃ d t = (-(2 * halfCos b (d t))) • stareVec b (d t) := by
    unfold stareVec
    rw [smul_smul]
    rw [show -(2 * halfCos b (d t)) * -(1 / (2 * halfCos b (d t))) = 1 by field_simp, one_smul]
  have htri : (b ⨯₃ (d t ⨯₃ z t)) ⬝ᵥ z t = (d t ⬝ᵥ z t) * (b ⬝ᵥ z t) - (b ⬝ᵥ d t) * (z t ⬝ᵥ z t) := by
    simp only [← npCross_eq_crossProduct, Matrix.vec3_dotProduct, npCross_0, npCross_1, npCross_2]; ring
  rw [hcv]
  simp only [add_dotProduct, smul_dotProduct, dotProduct_add, dotProduct_sub, sub_dotProduct, dotProduct_smul,
    smul_eq_mul, htri, neg_smul, neg_dotProduct, dotProduct_neg]
  rw [dotProduct_comm (z t) (stareVec b (d t)), dotProduct_comm p (z t)]
  field_simp
  ring

theorem gronwall_flow {f : ℝ → ℝ} {k D T : ℝ} (hk : 0 < k) (hT : 0 ≤ T) (hc : ContinuousOn f (Set.Icc 0 T))
    (h : ∀ t ∈ Set.Ioo 0 T, ∃ f', HasDerivAt f f' t ∧ f' ≤ -k * f t + D) :
    f T ≤ Real.exp (-k * T) * f 0 + (1 - Real.exp (-k * T)) * (D / k) := by
  have hanti : AntitoneOn (fun t => Real.exp (k * t) * (f t - D / k)) (Set.Icc 0 T) := by
    refine anti_flow ?_ ?_
    · exact (by fun_prop : Continuous fun t : ℝ => Real.exp (k * t)).continuousOn.mul (hc.sub continuousOn_const)
    · intro t ht
      obtain ⟨W', h, hle⟩ := h t ht
      have hexp : HasDerivAt (fun t => Real.exp (k * t)) (Real.exp (k * t) * k) t := by
        simpa using ((hasDerivAt_id t).const_mul k).exp
      refine ⟨_, hexp.fun_mul (h.sub_const (D / k)), ?_⟩
      have e : Real.exp (k * t) * k * (f t - D / k) + Real.exp (k * t) * W' =
          Real.exp (k * t) * (W' - (-k * f t + D)) := by field_simp; ring
      rw [e]
      exact mul_nonpos_of_nonneg_of_nonpos (Real.exp_pos _).le (by linarith)
  have h := hanti ⟨le_rfl, hT⟩ ⟨hT, le_rfl⟩ hT
  simp only [mul_zero, Real.exp_zero, one_mul] at h
  have hE : Real.exp (-k * T) * Real.exp (k * T) = 1 := by rw [← Real.exp_add]; simp
  have h' := mul_le_mul_of_nonneg_left h (Real.exp_pos (-k * T)).le
  rw [← mul_assoc, hE, one_mul] at h'
  linarith

/-- The function is comparable with the energy. -/
theorem stareW_bounds {al ep eta : ℝ} (hal : 0 < al) (heta : 0 ≤ eta) (hep : 0 ≤ ep) (h : ep ^ 2 ≤ 2 * al * eta ^ 2)
    {b d : V3} (hb : npNorm b = 1) (hd : npNorm d = 1) (h0 : 0 < halfCos b d) (z : V3) :
    (1 - eta) * (z ⬝ᵥ z / 2 + 2 * al * (1 - halfCos b d)) ≤ stareW al ep b d z ∧
    stareW al ep b d z ≤ (1 + eta) * (z ⬝ᵥ z / 2 + 2 * al * (1 - halfCos b d)) := by
  have h1 := stareVec_dot hb hd h0
  have h2 := halfCos_le hb hd
  have hQ := dot_sq_le (stareVec b d) z
  have hzz := dot_self_nonneg3 z
  have hvv := dot_self_nonneg3 (stareVec b d)
  unfold stareW
  obtain ⟨P, hP⟩ : ∃ P, P = z ⬝ᵥ z := ⟨_, rfl⟩
  obtain ⟨Q, hQ'⟩ : ∃ Q, Q = stareVec b d ⬝ᵥ z := ⟨_, rfl⟩
  obtain ⟨B, hB⟩ : ∃ B, B = stareVec b d ⬝ᵥ stareVec b d := ⟨_, rfl⟩
  obtain ⟨e, he⟩ : ∃ e, e = halfCos b d := ⟨_, rfl⟩
  simp only [← hP, ← hQ', ← hB, ← he] at *
  have hV : P / 2 + al * B ≤ P / 2 + 2 * al * (1 - e) := by
    have : B ≤ 2 * (1 - e) := by rw [h1]; nlinarith
    nlinarith
  have hVn : 0 ≤ P / 2 + al * B := by positivity
  have key : |ep * Q| ≤ eta * (P / 2 + al * B) := by
    refine abs_le_of_sq_le_sq ?_ (mul_nonneg heta hVn)
    have i1 : (ep * Q) ^ 2 ≤ 2 * al * eta ^ 2 * (B * P) := by
      rw [mul_pow]
      exact mul_le_mul h hQ (sq_nonneg _) (by positivity)
    have i2 : 2 * al * (B * P) ≤ (P / 2 + al * B) ^ 2 := by nlinarith [sq_nonneg (P / 2 - al * B)]
    have i3 := mul_le_mul_of_nonneg_left i2 (sq_nonneg eta)
    rw [mul_pow]
    linarith
  have h3 := abs_le.1 key
  have h4 := mul_le_mul_of_nonneg_left hV heta
  constructor <;> linarith

theorem halfCos_continuousOn {b : V3} {d : ℝ → V3} {s : Set ℝ} (hd : ContinuousOn d s) :
    ContinuousOn (fun t => halfCos b (d t)) s := by
  unfold halfCos
  have h : ContinuousOn (fun t => b ⬝ᵥ d t) s := by
    simp only [Matrix.vec3_dotProduct]
    have := continuousOn_pi.1 hd
    have h0 := this 0
    have h1 := this 1
    have h2 := this 2
    fun_prop
  exact ((continuousOn_const.add h).div_const 2).sqrt

theorem stareW_continuousOn {al ep : ℝ} {b : V3} {d z : ℝ → V3} {s : Set ℝ} (hd : ContinuousOn d s)
    (hz : ContinuousOn z s) (h0 : ∀ t ∈ s, 0 < halfCos b (d t)) :
    ContinuousOn (fun t => stareW al ep b (d t) (z t)) s := by
  have hh := halfCos_continuousOn (b := b) hd
  have hzi := continuousOn_pi.1 hz
  have hdi := continuousOn_pi.1 hd
  have z0 := hzi 0
  have z1 := hzi 1
  have z2 := hzi 2
  have d0 := hdi 0
  have d1 := hdi 1
  have d2 := hdi 2
  have hinv : ContinuousOn (fun t => 1 / (2 * halfCos b (d t))) s :=
    continuousOn_const.div (continuousOn_const.mul hh) fun t ht => by have := h0 t ht; positivity
  unfold stareW stareVec
  simp only [smul_dotProduct, smul_eq_mul, Matrix.vec3_dotProduct, ← npCross_eq_crossProduct, npCross_0, npCross_1, npCross_2]
  fun_prop

/-- The constants. -/
theorem stare_constants {al ga E : ℝ} (hal : 0 < al) (hga : 0 < ga) (hE0 : 0 ≤ E) (hE : E < 2 * al) :
    ∃ c eta ep k nu a0 : ℝ, 0 < c ∧ 0 < eta ∧ eta ≤ 1 / 2 ∧ 0 < ep ∧ 0 < k ∧ 0 < nu ∧ 0 < a0 ∧
      ep ^ 2 ≤ 2 * al * eta ^ 2 ∧ 16 * ga * ep ≤ al ∧ 8 * ep * (3 / (2 * c)) ≤ ga ∧ 4 * k ≤ ga ∧ 16 * k ≤ ep ∧
      16 * nu ≤ ga ∧ 5 * nu ≤ ep ∧
      (1 + eta) * E + (1 / ga + ep / al) * a0 ^ 2 / k < (1 - eta) * (2 * al * (1 - c)) := by
  obtain ⟨g, hg⟩ : ∃ g, g = 2 * al - E := ⟨_, rfl⟩
  have hg0 : 0 < g := by linarith
  have hg2 : g ≤ 2 * al := by linarith
  obtain ⟨c, hc⟩ : ∃ c, c = g / (8 * al) := ⟨_, rfl⟩
  obtain ⟨eta, he⟩ : ∃ eta, eta = g / (16 * al) := ⟨_, rfl⟩
  have hc0 : 0 < c := by rw [hc]; positivity
  have he0 : 0 < eta := by rw [he]; positivity
  have hca : c * al = g / 8 := by rw [hc]; field_simp
  have hea : eta * al = g / 16 := by rw [he]; field_simp
  have he2 : eta ≤ 1 / 8 := by rw [he, div_le_div_iff₀ (by positivity) (by norm_num)]; linarith
  obtain ⟨ep, hep⟩ : ∃ ep, ep = min (√(2 * al) * eta) (min (al / (16 * ga)) (ga * c / 12)) := ⟨_, rfl⟩
  have hep0 : 0 < ep := by
    rw [hep]
    exact lt_min (by positivity) (lt_min (by positivity) (by positivity))
  have e1 : ep ≤ √(2 * al) * eta := by rw [hep]; exact min_le_left _ _
  have e2 : ep ≤ al / (16 * ga) := by rw [hep]; exact (min_le_right _ _).trans (min_le_left _ _)
  have e3 : ep ≤ ga * c / 12 := by rw [hep]; exact (min_le_right _ _).trans (min_le_right _ _)
  obtain ⟨k, hk⟩ : ∃ k, k = min (ga / 4) (ep / 16) := ⟨_, rfl⟩
  have hk0 : 0 < k := by rw [hk]; exact lt_min (by positivity) (by positivity)
  obtain ⟨nu, hnu⟩ : ∃ nu, nu = min (ga / 16) (ep / 5) := ⟨_, rfl⟩
  have hnu0 : 0 < nu := by rw [hnu]; exact lt_min (by positivity) (by positivity)
  have hM : 0 < (1 / ga + ep / al) / k := by positivity
  obtain ⟨a0, ha⟩ : ∃ a0, a0 = √(g / 4 / ((1 / ga + ep / al) / k)) := ⟨_, rfl⟩
  have ha2 : a0 ^ 2 * ((1 / ga + ep / al) / k) = g / 4 := by
    rw [ha, Real.sq_sqrt (by positivity)]
    field_simp
  refine ⟨c, eta, ep, k, nu, a0, hc0, he0, by linarith, hep0, hk0, hnu0, by rw [ha]; positivity, ?_, ?_, ?_, ?_, ?_, ?_, ?_, ?_⟩
  · calc ep ^ 2 ≤ (√(2 * al) * eta) ^ 2 := pow_le_pow_left₀ hep0.le e1 2
      _ = 2 * al * eta ^ 2 := by rw [mul_pow, Real.sq_sqrt (by positivity)]
  · rw [le_div_iff₀ (by positivity)] at e2; linarith
  · rw [show 8 * ep * (3 / (2 * c)) = 12 * ep / c by field_simp; ring, div_le_iff₀ hc0]; linarith
  · have : k ≤ ga / 4 := by rw [hk]; exact min_le_left _ _
    linarith
  · have : k ≤ ep / 16 := by rw [hk]; exact min_le_right _ _
    linarith
  · have : nu ≤ ga / 16 := by rw [hnu]; exact min_le_left _ _
    linarith
  · have : nu ≤ ep / 5 := by rw [hnu]; exact min_le_right _ _
    linarith
  · have h1 : (1 / ga + ep / al) * a0 ^ 2 / k = g / 4 := by rw [← ha2]; ring
    have h2 : (1 - eta) * (2 * al * (1 - c)) = 2 * al - g / 8 - g / 4 + 2 * eta * (c * al) := by
      linear_combination (-2) * hea - 2 * hca
    have h3 : (1 + eta) * E = 2 * al - g + g / 8 - eta * g := by
      have : E = 2 * al - g := by linarith
      rw [this]; linear_combination 2 * hea
    rw [h1, h2, h3, hca]
    have : 0 ≤ eta * g := by positivity
    linarith

set_option maxHeartbeats 1000000 in
/-- While the half angle stays below the bound. -/
theorem stare_flow {al ga ep k c nu a eta : ℝ} (hal : 0 < al) (hga : 0 < ga) (hep : 0 < ep) (hk : 0 < k) (hc : 0 < c)
    (ha : 0 ≤ a) (hn : 0 ≤ nu) (heta : 0 ≤ eta) (heta2 : eta ≤ 1 / 2) (h0 : ep ^ 2 ≤ 2 * al * eta ^ 2)
    (h1 : 16 * ga * ep ≤ al) (h3 : 8 * ep * (3 / (2 * c)) ≤ ga)
    (hk1 : 4 * k ≤ ga) (hk2 : 16 * k ≤ ep) (hn1 : 16 * nu ≤ ga) (hn2 : 5 * nu ≤ ep) {b : V3} (hb : npNorm b = 1)
    {d z : ℝ → V3} {T : ℝ} (hT : 0 ≤ T) (hdu : ∀ t ∈ Set.Icc 0 T, npNorm (d t) = 1) (hcd : ContinuousOn d (Set.Icc 0 T))
    (hcz : ContinuousOn z (Set.Icc 0 T)) (hlo : ∀ t ∈ Set.Icc 0 T, c ≤ halfCos b (d t))
    (hd : ∀ t ∈ Set.Ioo 0 T, HasDerivAt d (d t ⨯₃ z t) t)
    (hz : ∀ t ∈ Set.Ioo 0 T, ∃ p : V3, npNorm p ≤ 2 * nu * (ga + nu) * npNorm (stareVec b (d t))
        + 2 * nu * (npNorm (stareVec b (d t)) * npNorm (z t)) + a ∧
      HasDerivAt z (-al • stareVec b (d t) - ga • z t + p) t) :
    stareW al ep b (d T) (z T) ≤ Real.exp (-k * T) * stareW al ep b (d 0) (z 0)
      + (1 - Real.exp (-k * T)) * ((1 / ga + ep / al) * a ^ 2 / k) := by
  refine gronwall_flow hk hT (stareW_continuousOn hcd hcz fun t ht => hc.trans_le (hlo t ht)) fun t ht => ?_
  have htI : t ∈ Set.Icc 0 T := ⟨ht.1.le, ht.2.le⟩
  have hpos : 0 < halfCos b (d t) := hc.trans_le (hlo t htI)
  obtain ⟨p, hp, hz'⟩ := hz t ht
  refine ⟨_, hasDerivAt_stareW (ep := ep) hpos (hd t ht) hz', ?_⟩
  have hu := hdu t htI
  have hvv := stareVec_dot hb hu hpos
  have hle := halfCos_le hb hu
  have hcl := hlo t htI
  have hx := npNorm_nonneg (z t)
  have hy := npNorm_nonneg (stareVec b (d t))
  have hy2 : npNorm (stareVec b (d t)) ^ 2 = 1 - halfCos b (d t) ^ 2 := by rw [← dot_self3, hvv]
  have hy1 : npNorm (stareVec b (d t)) ≤ 1 := by
    refine abs_le_of_sq_le_sq' ?_ zero_le_one |>.2
    rw [hy2]
    linarith [sq_nonneg (halfCos b (d t))]
  have hQ := dot_le_norms (stareVec b (d t)) (z t)
  have hzp := (le_abs_self _).trans (dot_le_norms (z t) p)
  have hvp := (le_abs_self _).trans (dot_le_norms (stareVec b (d t)) p)
  have hW := (stareW_bounds hal heta hep.le h0 hb hu hpos (z t)).2
  have hbd := dot_range hb hu
  have hdz := dot_le_norms (d t) (z t)
  have hbz := dot_le_norms b (z t)
  rw [hu, one_mul] at hdz
  rw [hb, one_mul] at hbz
  rw [dot_self3 (z t)] at hW ⊢
  rw [dot_self3 (stareVec b (d t))]
  have hZ : ((b ⬝ᵥ d t) * npNorm (z t) ^ 2 - (d t ⬝ᵥ z t) * (b ⬝ᵥ z t) + (stareVec b (d t) ⬝ᵥ z t) ^ 2) /
      (2 * halfCos b (d t)) ≤ 3 / (2 * c) * npNorm (z t) ^ 2 := by
    have i1 : (b ⬝ᵥ d t) * npNorm (z t) ^ 2 ≤ 1 * npNorm (z t) ^ 2 := mul_le_mul_of_nonneg_right hbd.2 (sq_nonneg _)
    have i2 : -((d t ⬝ᵥ z t) * (b ⬝ᵥ z t)) ≤ npNorm (z t) * npNorm (z t) := by
      have := mul_le_mul hdz hbz (abs_nonneg _) hx
      rw [← abs_mul] at this
      linarith [neg_le_abs ((d t ⬝ᵥ z t) * (b ⬝ᵥ z t))]
    have i3 : (stareVec b (d t) ⬝ᵥ z t) ^ 2 ≤ 1 * npNorm (z t) ^ 2 := by
      have := dot_sq_le (stareVec b (d t)) (z t)
      rw [dot_self3 (z t), hvv] at this
      refine this.trans (mul_le_mul_of_nonneg_right ?_ (sq_nonneg _))
      linarith [sq_nonneg (halfCos b (d t))]
    rw [div_le_iff₀ (by positivity)]
    have i4 : (3 : ℝ) ≤ 3 / (2 * c) * (2 * halfCos b (d t)) := by
      rw [div_mul_eq_mul_div, le_div_iff₀ (by positivity)]; linarith
    have i5 := mul_le_mul_of_nonneg_right i4 (sq_nonneg (npNorm (z t)))
    linarith
  have hW' : stareW al ep b (d t) (z t) ≤ npNorm (z t) ^ 2 + 4 * al * npNorm (stareVec b (d t)) ^ 2 := by
    have j1 : 1 - halfCos b (d t) ≤ npNorm (stareVec b (d t)) ^ 2 := by
      rw [hy2]
      have : halfCos b (d t) ^ 2 ≤ halfCos b (d t) := pow_le_of_le_one hpos.le hle two_ne_zero
      linarith
    have j2 : 0 ≤ npNorm (z t) ^ 2 / 2 + 2 * al * (1 - halfCos b (d t)) := by
      have : 0 ≤ 1 - halfCos b (d t) := by linarith
      positivity
    have j3 : stareW al ep b (d t) (z t) ≤ 2 * (npNorm (z t) ^ 2 / 2 + 2 * al * (1 - halfCos b (d t))) :=
      hW.trans (mul_le_mul_of_nonneg_right (by linarith) j2)
    have j4 := mul_le_mul_of_nonneg_left j1 (show (0 : ℝ) ≤ 4 * al by positivity)
    linarith
  refine stare_decay (rho := 2 * nu * (ga + nu)) (sg := 2 * nu) (K := 3 / (2 * c)) (x := npNorm (z t))
    (y := npNorm (stareVec b (d t))) hal hga hep h1 ?_ (by positivity) h3 (by linarith) (by positivity) hk1 hk2 hk.le hx hy
    hy1 ha (by rw [mul_comm]; exact hQ) hZ (hzp.trans (mul_le_mul_of_nonneg_left hp hx))
    (hvp.trans (mul_le_mul_of_nonneg_left hp hy)) hW'
  have : nu * (ga + nu) ≤ nu * (17 / 16 * ga) := mul_le_mul_of_nonneg_left (by linarith) hn
  have := mul_le_mul_of_nonneg_right hn2 hga.le
  have : 0 ≤ nu * ga := by positivity
  linarith

/-- From an energy below that of the opposite direction, slow lines of sight and small disturbances: the half angle stays
below the bound and the energy decays. -/
theorem stare_abstract {al ga E : ℝ} (hal : 0 < al) (hga : 0 < ga) (hE0 : 0 ≤ E) (hE : E < 2 * al) :
    ∃ k C nu0 a0 : ℝ, 0 < k ∧ 0 ≤ C ∧ 0 < nu0 ∧ 0 < a0 ∧ ∀ (nu a : ℝ), 0 ≤ nu → nu ≤ nu0 → 0 ≤ a → a ≤ a0 →
      ∀ (b : V3) (d z : ℝ → V3) (T : ℝ), npNorm b = 1 → 0 ≤ T → (∀ t ∈ Set.Icc 0 T, npNorm (d t) = 1) →
      ContinuousOn d (Set.Icc 0 T) → ContinuousOn z (Set.Icc 0 T) →
      (∀ t ∈ Set.Ioo 0 T, HasDerivAt d (d t ⨯₃ z t) t) →
      (∀ t ∈ Set.Ioo 0 T, 0 < halfCos b (d t) → ∃ p : V3, npNorm p ≤ 2 * nu * (ga + nu) * npNorm (stareVec b (d t))
          + 2 * nu * (npNorm (stareVec b (d t)) * npNorm (z t)) + a ∧
        HasDerivAt z (-al • stareVec b (d t) - ga • z t + p) t) →
      z 0 ⬝ᵥ z 0 / 2 + 2 * al * (1 - halfCos b (d 0)) ≤ E →
      z T ⬝ᵥ z T / 2 + 2 * al * (1 - halfCos b (d T)) ≤
        4 * Real.exp (-k * T) * (z 0 ⬝ᵥ z 0 / 2 + 2 * al * (1 - halfCos b (d 0))) + C * a ^ 2 := by
  obtain ⟨c, eta, ep, k, nu0, a0, hc, heta, heta2, hep, hk, hnu0, ha0, k1, k2, k3, k4, k5, k6, k7, k8⟩ :=
    stare_constants hal hga hE0 hE
  refine ⟨k, 2 * ((1 / ga + ep / al) / k), nu0, a0, hk, by positivity, hnu0, ha0, ?_⟩
  intro nu a hn hn' ha ha' b d z T hb hT hdu hcd hcz hd hz hV
  have hD : (1 / ga + ep / al) * a ^ 2 / k ≤ (1 / ga + ep / al) * a0 ^ 2 / k := by gcongr
  have hD0 : 0 ≤ (1 / ga + ep / al) * a ^ 2 / k := by positivity
  have hstep : ∀ S, 0 ≤ S → S ≤ T → (∀ t ∈ Set.Icc 0 S, c ≤ halfCos b (d t)) →
      stareW al ep b (d S) (z S) ≤ Real.exp (-k * S) * stareW al ep b (d 0) (z 0)
        + (1 - Real.exp (-k * S)) * ((1 / ga + ep / al) * a ^ 2 / k) := by
    intro S hS hST hlo
    refine stare_flow hal hga hep hk hc ha hn heta.le heta2 k1 k2 k3 k4 k5 (by linarith) (by linarith) hb hS
      (fun t ht => hdu t ⟨ht.1, ht.2.trans hST⟩) (hcd.mono (Set.Icc_subset_Icc_right hST))
      (hcz.mono (Set.Icc_subset_Icc_right hST)) hlo (fun t ht => hd t ⟨ht.1, ht.2.trans_le hST⟩) fun t ht =>
        hz t ⟨ht.1, ht.2.trans_le hST⟩ (hc.trans_le (hlo t ⟨ht.1.le, ht.2.le⟩))
  have hu0 := hdu 0 ⟨le_rfl, hT⟩
  have hzz0 := dot_self_nonneg3 (z 0)
  -- the start
  have hc0 : c < halfCos b (d 0) := by
    by_contra hcon
    have hcon : halfCos b (d 0) ≤ c := not_lt.1 hcon
    have j1 : 2 * al * (1 - c) ≤ E := by
      have := mul_le_mul_of_nonneg_left (sub_le_sub_left hcon 1) (show 0 ≤ 2 * al by positivity)
      linarith
    have j2 : (1 - eta) * (2 * al * (1 - c)) ≤ (1 - eta) * E := mul_le_mul_of_nonneg_left j1 (by linarith)
    have j3 : (1 - eta) * E ≤ (1 + eta) * E := mul_le_mul_of_nonneg_right (by linarith) hE0
    linarith
  have hW0 := (stareW_bounds hal heta.le hep.le k1 hb hu0 (hc.trans hc0) (z 0)).2
  have hW0E : stareW al ep b (d 0) (z 0) ≤ (1 + eta) * E :=
    hW0.trans (mul_le_mul_of_nonneg_left hV (by linarith))
  have hexp : ∀ S, 0 ≤ S → 0 < Real.exp (-k * S) ∧ Real.exp (-k * S) ≤ 1 := fun S hS =>
    ⟨Real.exp_pos _, Real.exp_le_one_iff.2 (by nlinarith)⟩
  have hWn0 : 0 ≤ stareW al ep b (d 0) (z 0) := by
    refine le_trans (mul_nonneg (by linarith) ?_) (stareW_bounds hal heta.le hep.le k1 hb hu0 (hc.trans hc0) (z 0)).1
    have := halfCos_le hb hu0
    have : 0 ≤ 2 * al * (1 - halfCos b (d 0)) := mul_nonneg (by positivity) (by linarith)
    linarith
  have hall : ∀ t ∈ Set.Icc 0 T, c ≤ halfCos b (d t) := by
    by_contra hcon
    simp only [not_forall, not_le] at hcon
    obtain ⟨t2, ht2, hlt⟩ := hcon
    have hcomp : IsCompact (Set.Icc 0 T ∩ (fun t => halfCos b (d t)) ⁻¹' Set.Iic c) :=
      isCompact_Icc.of_isClosed_subset
        ((halfCos_continuousOn (b := b) hcd).preimage_isClosed_of_isClosed isClosed_Icc isClosed_Iic)
        Set.inter_subset_left
    obtain ⟨S, ⟨hSI, hSc⟩, hmin⟩ := hcomp.exists_isLeast ⟨t2, ht2, hlt.le⟩
    simp only [Set.mem_preimage, Set.mem_Iic] at hSc
    have hbefore : ∀ t ∈ Set.Ico 0 S, c < halfCos b (d t) := by
      intro t ht
      by_contra h
      exact absurd (hmin ⟨⟨ht.1, ht.2.le.trans hSI.2⟩, not_lt.1 h⟩) (not_le.2 ht.2)
    have hS0 : 0 < S := by
      rcases hSI.1.eq_or_lt with h | h
      · rw [← h] at hSc; linarith
      · exact h
    have hSge : c ≤ halfCos b (d S) := by
      have hcw : ContinuousWithinAt (fun t => halfCos b (d t)) (Set.Ico 0 S) S :=
        ((halfCos_continuousOn (b := b) hcd) S hSI).mono fun t ht => ⟨ht.1, ht.2.le.trans hSI.2⟩
      haveI : (𝓝[Set.Ico 0 S] S).NeBot := by
        rw [← mem_closure_iff_nhdsWithin_neBot, closure_Ico hS0.ne]
        exact ⟨hS0.le, le_rfl⟩
      refine ge_of_tendsto hcw ?_
      filter_upwards [self_mem_nhdsWithin] with t ht
      exact (hbefore t ht).le
    have hst := hstep S hSI.1 hSI.2 fun t ht => by
      rcases ht.2.eq_or_lt with h | h
      · rw [h]; exact hSge
      · exact (hbefore t ⟨ht.1, h⟩).le
    have huS := hdu S hSI
    have hlowS := (stareW_bounds hal heta.le hep.le k1 hb huS (hc.trans_le hSge) (z S)).1
    have hzzS := dot_self_nonneg3 (z S)
    have j1 : 2 * al * (1 - c) ≤ z S ⬝ᵥ z S / 2 + 2 * al * (1 - halfCos b (d S)) := by
      have := mul_le_mul_of_nonneg_left (sub_le_sub_left hSc 1) (show 0 ≤ 2 * al by positivity)
      linarith
    have j2 := mul_le_mul_of_nonneg_left j1 (show 0 ≤ 1 - eta by linarith)
    obtain ⟨x1, x2⟩ := hexp S hSI.1
    have j3 := mul_le_mul_of_nonneg_right x2 hWn0
    have j4 := mul_le_mul_of_nonneg_right (show 1 - Real.exp (-k * S) ≤ 1 by linarith) hD0
    linarith
  have hfin := hstep T hT le_rfl hall
  have huT := hdu T ⟨hT, le_rfl⟩
  have hlow := (stareW_bounds hal heta.le hep.le k1 hb huT (hc.trans_le (hall T ⟨hT, le_rfl⟩)) (z T)).1
  have hzzT := dot_self_nonneg3 (z T)
  obtain ⟨V, hVd⟩ : ∃ V, V = z T ⬝ᵥ z T / 2 + 2 * al * (1 - halfCos b (d T)) := ⟨_, rfl⟩
  obtain ⟨V0, hV0d⟩ : ∃ V0, V0 = z 0 ⬝ᵥ z 0 / 2 + 2 * al * (1 - halfCos b (d 0)) := ⟨_, rfl⟩
  have hVn : 0 ≤ V := by
    have := mul_nonneg (show 0 ≤ 2 * al by positivity) (sub_nonneg.2 (halfCos_le hb huT))
    rw [hVd]; linarith
  have hV0n : 0 ≤ V0 := by
    have := mul_nonneg (show 0 ≤ 2 * al by positivity) (sub_nonneg.2 (halfCos_le hb hu0))
    rw [hV0d]; linarith
  rw [← hVd] at hlow ⊢
  rw [← hV0d] at hW0 ⊢
  obtain ⟨x1, x2⟩ := hexp T hT
  have j1 : V / 2 ≤ (1 - eta) * V := by
    have := mul_le_mul_of_nonneg_right (show 1 / 2 ≤ 1 - eta by linarith) hVn
    linarith
  have j2 : (1 + eta) * V0 ≤ 2 * V0 := mul_le_mul_of_nonneg_right (by linarith) hV0n
  have j3 := mul_le_mul_of_nonneg_left (hW0.trans j2) x1.le
  have j4 := mul_le_mul_of_nonneg_right (show 1 - Real.exp (-k * T) ≤ 1 by linarith) hD0
  have j5 : 2 * ((1 / ga + ep / al) / k) * a ^ 2 = 2 * ((1 / ga + ep / al) * a ^ 2 / k) := by ring
  rw [j5]
  linarith

end Adcs
