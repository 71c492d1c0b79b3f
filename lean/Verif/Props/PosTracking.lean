import Verif.Proofs.PosTracking
import Verif.Props.Averaging
import Verif.Proofs.HeldTrack
import Mathlib.Analysis.Calculus.Deriv.MeanValue

set_option autoImplicit false

/-! # C208: the position filter with a fix each second -/

namespace Adcs

open Spec Vec Dyn JDay Fr Obs Obs.Pos Env
open scoped Matrix

/-! ## Specification -/

/-- A satellite flies at least 6500 km and at most 10000 km from the centre of the Earth, at a speed of at most 10 km/s;
its acceleration is that of the filter's model of the motion, `-1.28e-6` times the position, up to `D` m/s². -/
structure Spec.Flight (x v acc : ℝ → V3) (D : ℝ) : Prop where
  pos : ∀ t, 0 ≤ t → HasDerivAt x (v t) t
  vel : ∀ t, 0 ≤ t → HasDerivAt v (acc t) t
  model : ∀ t, 0 ≤ t → npNorm (acc t + (1.28e-6 : ℝ) • x t) ≤ D
  near : ∀ t, 0 ≤ t → 6.5e6 ≤ npNorm (x t)
  far : ∀ t, 0 ≤ t → npNorm (x t) ≤ 1e7
  speed : ∀ t, 0 ≤ t → npNorm (v t) ≤ 1e4

/-- The calls made in the first `N` seconds: each second a fix, then a prediction of the next second. -/
def Spec.fixEvents (y w : ℕ → V3) (N : ℕ) : List PosEvent :=
  (List.range N).flatMap fun i => [.update (y i) (w i), .propagate 1]

/-! ## One second of the motion -/

/-- A function that starts at zero is no longer than the integral of a bound on its derivative. -/
theorem npNorm_fence {f f' : ℝ → V3} {B B' : ℝ → ℝ} {lo hi : ℝ} (hlo : lo ≤ hi) (h0 : f lo = 0) (hB0 : B lo = 0)
    (hf : ∀ t ∈ Set.Icc lo hi, HasDerivAt f (f' t) t) (hB : ∀ t ∈ Set.Icc lo hi, HasDerivAt B (B' t) t)
    (h : ∀ t ∈ Set.Icc lo hi, npNorm (f' t) ≤ B' t) : npNorm (f hi) ≤ B hi := by
  obtain ⟨z, hz⟩ : ∃ z, z = f hi := ⟨_, rfl⟩
  have hd : ∀ t ∈ Set.Icc lo hi,
      HasDerivAt (fun t => npNorm z * B t - z ⬝ᵥ f t) (npNorm z * B' t - z ⬝ᵥ f' t) t := by
    intro t ht
    refine ((hB t ht).const_mul _).sub ?_
    have := hasDerivAt_pi.1 (hf t ht)
    have e : (fun t => z ⬝ᵥ f t) = fun t => ∑ i, z i * f t i := rfl
    rw [e]
    exact HasDerivAt.fun_sum fun i _ => (this i).const_mul (z i)
  have mono : MonotoneOn (fun t => npNorm z * B t - z ⬝ᵥ f t) (Set.Icc lo hi) := by
    refine monotoneOn_of_deriv_nonneg (convex_Icc lo hi) (fun t ht => (hd t ht).continuousAt.continuousWithinAt)
      (fun t ht => (hd t (interior_subset ht)).differentiableAt.differentiableWithinAt) fun t ht => ?_
    have ht' := interior_subset ht
    rw [(hd t ht').deriv]
    have h1 := (abs_le.1 (abs_dot_le z (f' t))).2
    have h2 := mul_le_mul_of_nonneg_left (h t ht') (npNorm_nonneg z)
    linarith
  have := mono (Set.left_mem_Icc.2 hlo) (Set.right_mem_Icc.2 hlo) hlo
  simp only [h0, hB0, ← hz, dotProduct_zero, mul_zero, sub_zero] at this
  have h2 := npNorm_sq_dot z
  rw [npDot_eq_dotProduct] at h2
  rw [← h2] at this
  rw [← hz]
  rcases (npNorm_nonneg z).eq_or_lt with h3 | h3
  · rw [← h3]
    have hnn : ∀ t ∈ Set.Icc lo hi, 0 ≤ B' t := fun t ht => (npNorm_nonneg _).trans (h t ht)
    have mB : MonotoneOn B (Set.Icc lo hi) :=
      monotoneOn_of_deriv_nonneg (convex_Icc lo hi) (fun t ht => (hB t ht).continuousAt.continuousWithinAt)
        (fun t ht => (hB t (interior_subset ht)).differentiableAt.differentiableWithinAt)
        fun t ht => by rw [(hB t (interior_subset ht)).deriv]; exact hnn t (interior_subset ht)
    rw [← hB0]
    exact mB (Set.left_mem_Icc.2 hlo) (Set.right_mem_Icc.2 hlo) hlo
  · refine le_of_mul_le_mul_left ?_ h3
    linarith [this, sq (npNorm z)]

/-- The motion of one second to first order. -/
theorem flight_first {x v acc : ℝ → V3} {D : ℝ} (hf : Spec.Flight x v acc D) (hD : D ≤ 5) {t0 : ℝ} (ht0 : 0 ≤ t0) :
    ∀ t ∈ Set.Icc t0 (t0 + 1), npNorm (x t - x t0 - (t - t0) • v t0) ≤ 9 * (t - t0) ^ 2 := by
  have hlin : ∀ t, HasDerivAt (fun t : ℝ => t - t0) 1 t := fun t => (hasDerivAt_id t).sub_const t0
  have hacc : ∀ t, 0 ≤ t → npNorm (acc t) ≤ 18 := by
    intro t ht
    have e : acc t = (acc t + (1.28e-6 : ℝ) • x t) - (1.28e-6 : ℝ) • x t := by abel
    rw [e]
    refine (npNorm_sub3 _ _).trans ?_
    rw [npNorm_smul, abs_of_pos (by norm_num)]
    have h1 := hf.model t ht
    have h2 := hf.far t ht
    norm_num at h1 h2 ⊢
    linarith
  have p1 : ∀ t ∈ Set.Icc t0 (t0 + 1), npNorm (v t - v t0) ≤ 18 * (t - t0) := by
    intro t ht
    refine npNorm_fence (f := fun t => v t - v t0) (B := fun t => 18 * (t - t0)) (f' := acc) (B' := fun _ => 18 * 1)
      ht.1 (by simp) (by simp)
      (fun r hr => (hf.vel r (ht0.trans hr.1)).sub_const _) (fun r _ => (hlin r).const_mul 18) fun r hr => ?_
    simpa using hacc r (ht0.trans hr.1)
  intro t ht
  refine npNorm_fence (f := fun t => x t - x t0 - (t - t0) • v t0) (B := fun t => 9 * (t - t0) ^ 2)
    (f' := fun t => v t - (1 : ℝ) • v t0) (B' := fun t => 9 * ((2 : ℕ) * (t - t0) ^ (2 - 1) * 1)) ht.1 (by simp) (by simp)
    (fun r hr => ((hf.pos r (ht0.trans hr.1)).sub_const _).sub ((hlin r).smul_const _))
    (fun r _ => ((hlin r).pow 2).const_mul 9) fun r hr => ?_
  rw [one_smul]
  refine (p1 r ⟨hr.1, hr.2.trans ht.2⟩).trans (le_of_eq ?_)
  norm_num; ring

/-- How far the motion of one second is from what the filter predicts from the true state. -/
theorem flight_second {x v acc : ℝ → V3} {D : ℝ} (hf : Spec.Flight x v acc D) (hD : D ≤ 5) {t0 : ℝ} (ht0 : 0 ≤ t0) :
    npNorm (x (t0 + 1) - predPos 1 (x t0) (v t0)) ≤ D / 2 + 1e-5 ∧
    npNorm (v (t0 + 1) - predVel 1 (x t0) (v t0)) ≤ D + 1.5e-5 := by
  have hle : t0 ≤ t0 + 1 := by linarith
  have hnn : ∀ t ∈ Set.Icc t0 (t0 + 1), 0 ≤ t := fun t ht => ht0.trans ht.1
  have hlin : ∀ t, HasDerivAt (fun t : ℝ => t - t0) 1 t := fun t => (hasDerivAt_id t).sub_const t0
  have p2 := flight_first hf hD ht0
  -- the velocity, to second order
  obtain ⟨E, hE⟩ : ∃ E, E = D + 1.2e-5 := ⟨_, rfl⟩
  have p3 : ∀ t ∈ Set.Icc t0 (t0 + 1), npNorm (v t - v t0 + ((1.28e-6 * (t - t0)) • x t0 +
      (0.64e-6 * (t - t0) ^ 2) • v t0)) ≤ E * (t - t0) := by
    intro t ht
    refine npNorm_fence (f := fun t => v t - v t0 + ((1.28e-6 * (t - t0)) • x t0 + (0.64e-6 * (t - t0) ^ 2) • v t0))
      (B := fun t => E * (t - t0))
      (f' := fun t => acc t + ((1.28e-6 * 1 : ℝ) • x t0 + (0.64e-6 * ((2 : ℕ) * (t - t0) ^ (2 - 1) * 1) : ℝ) • v t0))
      (B' := fun _ => E * 1) ht.1 (by simp) (by simp)
      (fun r hr => ((hf.vel r (ht0.trans hr.1)).sub_const _).add
        ((((hlin r).const_mul 1.28e-6).smul_const _).add ((((hlin r).pow 2).const_mul 0.64e-6).smul_const _)))
      (fun r _ => (hlin r).const_mul E) fun r hr => ?_
    have hr' : r ∈ Set.Icc t0 (t0 + 1) := ⟨hr.1, hr.2.trans ht.2⟩
    have e : acc r + ((1.28e-6 * 1 : ℝ) • x t0 + (0.64e-6 * ((2 : ℕ) * (r - t0) ^ (2 - 1) * 1) : ℝ) • v t0) =
        (acc r + (1.28e-6 : ℝ) • x r) - (1.28e-6 : ℝ) • (x r - x t0 - (r - t0) • v t0) := by
      funext i
      simp only [Pi.add_apply, Pi.sub_apply, Pi.smul_apply, smul_eq_mul]
      push_cast
      norm_num
      ring
    rw [e]
    refine (npNorm_sub3 _ _).trans ?_
    rw [npNorm_smul, abs_of_pos (by norm_num), hE]
    have h1 := hf.model r (hnn r hr')
    have h2 := p2 r hr'
    have h3 : (r - t0) ^ 2 ≤ 1 := by
      have : 0 ≤ r - t0 := by linarith [hr'.1]
      have : r - t0 ≤ 1 := by linarith [hr'.2]
      nlinarith
    norm_num at h1 h2 ⊢
    linarith
  have p4 : npNorm (x (t0 + 1) - x t0 - (t0 + 1 - t0) • v t0 + ((0.64e-6 * (t0 + 1 - t0) ^ 2) • x t0 +
      (0.64e-6 / 3 * (t0 + 1 - t0) ^ 3) • v t0)) ≤ E / 2 * (t0 + 1 - t0) ^ 2 := by
    refine npNorm_fence (f := fun t => x t - x t0 - (t - t0) • v t0 + ((0.64e-6 * (t - t0) ^ 2) • x t0 +
      (0.64e-6 / 3 * (t - t0) ^ 3) • v t0)) (B := fun t => E / 2 * (t - t0) ^ 2)
      (f' := fun t => v t - (1 : ℝ) • v t0 + ((0.64e-6 * ((2 : ℕ) * (t - t0) ^ (2 - 1) * 1) : ℝ) • x t0 +
        (0.64e-6 / 3 * ((3 : ℕ) * (t - t0) ^ (3 - 1) * 1) : ℝ) • v t0))
      (B' := fun t => E / 2 * ((2 : ℕ) * (t - t0) ^ (2 - 1) * 1)) hle (by simp) (by simp)
      (fun r hr => (((hf.pos r (hnn r hr)).sub_const _).sub ((hlin r).smul_const _)).add
        (((((hlin r).pow 2).const_mul 0.64e-6).smul_const _).add ((((hlin r).pow 3).const_mul (0.64e-6 / 3)).smul_const _)))
      (fun r _ => ((hlin r).pow 2).const_mul (E / 2)) fun r hr => ?_
    have e : v r - (1 : ℝ) • v t0 + ((0.64e-6 * ((2 : ℕ) * (r - t0) ^ (2 - 1) * 1) : ℝ) • x t0 +
        (0.64e-6 / 3 * ((3 : ℕ) * (r - t0) ^ (3 - 1) * 1) : ℝ) • v t0) =
        v r - v t0 + ((1.28e-6 * (r - t0)) • x t0 + (0.64e-6 * (r - t0) ^ 2) • v t0) := by
      funext i
      simp only [Pi.add_apply, Pi.sub_apply, Pi.smul_apply, smul_eq_mul]
      push_cast
      norm_num
      ring
    rw [e]
    refine (p3 r hr).trans (le_of_eq ?_)
    push_cast
    norm_num
    ring
  have p5 := p3 (t0 + 1) (Set.right_mem_Icc.2 hle)
  have e1 : t0 + 1 - t0 = 1 := by ring
  rw [e1] at p4 p5
  have hx := hf.far t0 ht0
  have hv := hf.speed t0 ht0
  constructor
  · have e : x (t0 + 1) - predPos 1 (x t0) (v t0) = (x (t0 + 1) - x t0 - (1 : ℝ) • v t0 +
        ((0.64e-6 * (1 : ℝ) ^ 2) • x t0 + (0.64e-6 / 3 * (1 : ℝ) ^ 3) • v t0)) +
        (0.5 * 1.618e-10 + 0.1666 * 1.28e-6 - 0.64e-6 / 3 : ℝ) • v t0 := by
      unfold predPos Pos.a Pos.b
      funext i
      simp only [Pi.add_apply, Pi.sub_apply, Pi.smul_apply, smul_eq_mul]
      ring
    rw [e]
    refine (npNorm_add3 _ _).trans ?_
    rw [npNorm_smul]
    have h1 : |(0.5 * 1.618e-10 + 0.1666 * 1.28e-6 - 0.64e-6 / 3 : ℝ)| ≤ 2e-10 := by
      rw [abs_le]; constructor <;> norm_num
    have h2 : |(0.5 * 1.618e-10 + 0.1666 * 1.28e-6 - 0.64e-6 / 3 : ℝ)| * npNorm (v t0) ≤ 2e-10 * 1e4 :=
      mul_le_mul h1 hv (npNorm_nonneg _) (by norm_num)
    rw [hE] at p4
    generalize |(0.5 * 1.618e-10 + 0.1666 * 1.28e-6 - 0.64e-6 / 3 : ℝ)| * npNorm (v t0) = z at h2 ⊢
    generalize npNorm (x (t0 + 1) - x t0 - (1 : ℝ) • v t0 +
        ((0.64e-6 * (1 : ℝ) ^ 2) • x t0 + (0.64e-6 / 3 * (1 : ℝ) ^ 3) • v t0)) = z' at p4 ⊢
    norm_num at p4 h2 ⊢
    linarith
  · have e : v (t0 + 1) - predVel 1 (x t0) (v t0) = (v (t0 + 1) - v t0 +
        ((1.28e-6 * (1 : ℝ)) • x t0 + (0.64e-6 * (1 : ℝ) ^ 2) • v t0)) + (1.618e-10 : ℝ) • v t0 := by
      unfold predVel Pos.a Pos.b
      funext i
      simp only [Pi.add_apply, Pi.sub_apply, Pi.smul_apply, smul_eq_mul]
      ring
    rw [e]
    refine (npNorm_add3 _ _).trans ?_
    rw [npNorm_smul, abs_of_pos (by norm_num)]
    rw [hE] at p5
    generalize npNorm (v (t0 + 1) - v t0 + ((1.28e-6 * (1 : ℝ)) • x t0 + (0.64e-6 * (1 : ℝ) ^ 2) • v t0)) = z' at p5 ⊢
    norm_num at p5 hv ⊢
    linarith

/-! ## One second of the filter -/

theorem sigmas_mono {P : M6} {e : I6 → ℝ} {c c' : ℝ} (h : Sigmas P e c) (hc : c ≤ c') : Sigmas P e c' :=
  fun w => (h w).trans (mul_le_mul_of_nonneg_right hc (Real.sqrt_nonneg _))

/-- The error of a fix in standard deviations. -/
theorem sigmas_fix {p q : V3} {ν : ℝ} (hν : 0 ≤ ν)
    (h : (npNorm p / 10.0598) ^ 2 + (npNorm q / 0.52038) ^ 2 ≤ ν ^ 2) : Sigmas Pos.R (Sum.elim p q) ν := by
  intro w
  obtain ⟨w1, w2, rfl⟩ := sum_elim_parts w
  rw [dot_elim, quad_R]
  have e1 : ((Sum.elim w1 w2 : I6 → ℝ) ∘ Sum.inl) = w1 := rfl
  have e2 : ((Sum.elim w1 w2 : I6 → ℝ) ∘ Sum.inr) = w2 := rfl
  rw [e1, e2]
  have h1 := abs_dot_le w1 p
  have h2 := abs_dot_le w2 q
  refine (abs_add_le _ _).trans ((add_le_add h1 h2).trans ?_)
  obtain ⟨a, ha⟩ : ∃ a, a = npNorm p / 10.0598 := ⟨_, rfl⟩
  obtain ⟨b, hb⟩ : ∃ b, b = npNorm q / 0.52038 := ⟨_, rfl⟩
  rw [← ha, ← hb] at h
  have hp : npNorm p = 10.0598 * a := by rw [ha]; field_simp
  have hq : npNorm q = 0.52038 * b := by rw [hb]; field_simp
  rw [hp, hq, ← mul_pow, ← mul_pow]
  obtain ⟨c, hc⟩ : ∃ c, c = 10.0598 * npNorm w1 := ⟨_, rfl⟩
  obtain ⟨d, hd⟩ : ∃ d, d = 0.52038 * npNorm w2 := ⟨_, rfl⟩
  have e : npNorm w1 * (10.0598 * a) + npNorm w2 * (0.52038 * b) = c * a + d * b := by rw [hc, hd]; ring
  rw [e, ← hc, ← hd]
  refine abs_le_of_sq_le_sq' ?_ (by positivity) |>.2
  rw [mul_pow, Real.sq_sqrt (by positivity)]
  calc (c * a + d * b) ^ 2 ≤ (a ^ 2 + b ^ 2) * (c ^ 2 + d ^ 2) := by nlinarith [sq_nonneg (c * b - d * a)]
    _ ≤ _ := by gcongr

theorem root_small : (1 : ℝ) / √(1 + 0.08 ^ 2) ≤ 0.99682 ∧ 0.996 ≤ (1 : ℝ) / √(1 + 0.08 ^ 2) := by
  have h0 : (0 : ℝ) < √(1 + 0.08 ^ 2) := Real.sqrt_pos.2 (by norm_num)
  constructor
  · rw [div_le_iff₀ h0]
    have : 1.003194 ≤ √(1 + (0.08 : ℝ) ^ 2) := Real.le_sqrt_of_sq_le (by norm_num)
    generalize √(1 + (0.08 : ℝ) ^ 2) = r at this ⊢
    norm_num at this ⊢
    linarith
  · rw [le_div_iff₀ h0]
    have : √(1 + 0.08 ^ 2) ≤ (1.004 : ℝ) := Real.sqrt_le_iff.2 ⟨by norm_num, by norm_num⟩
    generalize √(1 + (0.08 : ℝ) ^ 2) = r at this ⊢
    norm_num at this ⊢
    linarith

/-- A fix: no exception, and where it leaves the error. -/
theorem fix_step {n : ℕ} {k : Pos.Kalman n} (hP : Covariance k.P) (hL : Low k.P) (hc : k.state.clock ≠ none)
    {X V y w : V3} (hX : 6.5e6 ≤ npNorm X) {c ν : ℝ} (h0 : 0 ≤ c) (hν : 0 ≤ ν) (hcν : ν ≤ 0.08 * c)
    (hsm : c + 0.08 * ν ≤ 9920)
    (hy : (npNorm (y - X) / 10.0598) ^ 2 + (npNorm (w - V) / 0.52038) ^ 2 ≤ ν ^ 2)
    (he : Sigmas k.P (k.x - Sum.elim X V) c) :
    (k.update y w).1 = .ok () ∧ (k.update y w).2.mu = k.mu ∧ (k.update y w).2.state.clock ≠ none ∧
    (k.update y w).2.P = kpost k.P Pos.R 1 ∧
    Sigmas (k.update y w).2.P ((k.update y w).2.x - Sum.elim X V) ((c + 0.08 * ν) / √(1 + 0.08 ^ 2)) ∧
    npNorm ((k.update y w).2.output.1 - X) ≤ 10.0598 * ((c + 0.08 * ν) / √(1 + 0.08 ^ 2)) ∧
    npNorm ((k.update y w).2.output.2 - V) ≤ 0.52038 * ((c + 0.08 * ν) / √(1 + 0.08 ^ 2)) ∧
    6.4e6 ≤ npNorm (k.update y w).2.output.1 := by
  obtain ⟨e1, e2, e3, e4, -, -⟩ := posUpdate_eq hP y w
  have hf : Sigmas Pos.R (Sum.elim y w - Sum.elim X V) ν := by
    have := sigmas_fix hν hy
    have e : (Sum.elim y w - Sum.elim X V : I6 → ℝ) = Sum.elim (y - X) (w - V) := by
      funext i; rcases i with i | i <;> rfl
    rw [e]; exact this
  have hx : (k.update y w).2.x - Sum.elim X V = (k.x - Sum.elim X V) +
      kgain k.P Pos.R 1 *ᵥ ((Sum.elim y w - Sum.elim X V) - (k.x - Sum.elim X V)) := by
    rw [e3, pos_gain, sub_sub_sub_cancel_right]; abel
  have hs := sigmas_update (by norm_num : (0 : ℝ) < 0.08) hP (low_R hL) h0 hν hcν he hf
  rw [← hx, ← e2] at hs
  have hout : (k.update y w).2.x - Sum.elim X V =
      Sum.elim ((k.update y w).2.output.1 - X) ((k.update y w).2.output.2 - V) := by
    funext i; rcases i with i | i <;> rfl
  have hc1 : 0 ≤ (c + 0.08 * ν) / √(1 + 0.08 ^ 2) := by positivity
  have hn := sigmas_norms (C85_update k hP y w).2.2.1 hc1 (hout ▸ hs)
  have hsmall : (c + 0.08 * ν) / √(1 + 0.08 ^ 2) ≤ 9900 := by
    have h1 : (c + 0.08 * ν) / √(1 + 0.08 ^ 2) = (c + 0.08 * ν) * (1 / √(1 + 0.08 ^ 2)) := by ring
    rw [h1]
    have h2 := mul_le_mul hsm root_small.1 (by positivity) (by norm_num)
    refine h2.trans (by norm_num)
  have hbig : 6.4e6 ≤ npNorm (k.update y w).2.output.1 := by
    have h1 := npNorm_sub3 (k.update y w).2.output.1 ((k.update y w).2.output.1 - X)
    rw [sub_sub_cancel] at h1
    have h2 := hn.1
    norm_num at h1 h2 hX ⊢
    linarith
  have hw : (posWritten k y w).arr.pos = (k.update y w).2.output.1 := by
    simp only [Kalman.output, e3]; rfl
  obtain ⟨s', hs'⟩ := C127_update (posWritten k y w) hc (by rw [hw]; refine le_trans (by norm_num) hbig)
  refine ⟨by rw [e1, hs']; rfl, e4, ?_, e2, hs, hn.1, hn.2, hbig⟩
  rw [(C86_written k hP y w).2.2.2.2.1]; exact hc

/-- A prediction of one second. -/
theorem predict_step {n : ℕ} {k k1 : Pos.Kalman n} (hP : Covariance k.P) (hL : Low k.P)
    (hP1 : k1.P = kpost k.P Pos.R 1) (hmu0 : 0 ≤ k1.mu) (hmu : k1.mu ≤ 4e14) (hbig : 6.4e6 ≤ npNorm k1.output.1)
    {X V X' V' : V3} {c δx δv : ℝ} (h0 : 0 ≤ c) (hδ0 : 0 ≤ δv) (hcδ : δv ≤ 0.08 * c)
    (hx : 2 * npNorm (X' - predPos 1 X V) ≤ δx) (hv : npNorm (V' - predVel 1 X V) ≤ 0.018166 * δv)
    (he : Sigmas k1.P (k1.x - Sum.elim X V) c) :
    (k1.propagate 1).1 = .ok () ∧ (k1.propagate 1).2.mu = k1.mu ∧ (k1.propagate 1).2.state = k1.state ∧
    Covariance (k1.propagate 1).2.P ∧ Low (k1.propagate 1).2.P ∧
    Sigmas (k1.propagate 1).2.P ((k1.propagate 1).2.x - Sum.elim X' V') (1.00067 * c + 0.04 * δv + δx) := by
  have hpos : 0 < npNorm k1.output.1 := lt_of_lt_of_le (by norm_num) hbig
  have hne : k1.output.1 ≠ 0 := fun h => hpos.ne' (npNorm_eq_zero.2 h)
  obtain ⟨J, hJ, q1, q2, q3, q4, q5⟩ := propagate_one hne
  have hg : k1.mu / npNorm k1.output.1 ^ 3 ≤ 1.53e-6 := by
    rw [div_le_iff₀ (by positivity)]
    have : (6.4e6 : ℝ) ^ 3 ≤ npNorm k1.output.1 ^ 3 := pow_le_pow_left₀ (by norm_num) hbig 3
    norm_num at this hmu ⊢
    linarith
  have hcov := C85_propagate k1 (by rw [hP1]; exact kpost_cov hP posR_strict) 1
  have hlow : Low (k1.propagate 1).2.P := by
    rw [q2, hP1]
    exact low_step hP hL (gradA_form hJ 0).2 fun v => (gradA_norms hJ hmu0 hg v).1
  refine ⟨q1, q4, q5, hcov.1, hlow, ?_⟩
  have hR : ∀ w, w ⬝ᵥ (k1.P *ᵥ w) ≤ w ⬝ᵥ (Pos.R *ᵥ w) := by
    rw [hP1]
    have := kpost_noLarger_meas (H := (1 : M6)) hP posR_strict
    rw [Matrix.transpose_one, Matrix.one_mul, Matrix.mul_one] at this
    exact this
  rw [q2] at hlow ⊢
  have := sigmas_predict (hP1 ▸ kpost_cov hP posR_strict) hR (fun v => (gradA_norms hJ hmu0 hg v).1)
    (fun v => (gradA_norms hJ hmu0 hg v).2) hlow h0 he hδ0 hcδ hx hv
  have e : (k1.propagate 1).2.x - Sum.elim X' V' =
      aDiscrete 1 *ᵥ (k1.x - Sum.elim X V) - Sum.elim (X' - predPos 1 X V) (V' - predVel 1 X V) := by
    have ea : aDiscrete 1 *ᵥ (Sum.elim X V) = Sum.elim (predPos 1 X V) (predVel 1 X V) := by
      simp only [aDiscrete, Matrix.fromBlocks_mulVec, Sum.elim_comp_inl, Sum.elim_comp_inr, Matrix.smul_mulVec,
        Matrix.one_mulVec]
      rfl
    rw [q3, Matrix.mulVec_sub, ea]
    funext i
    rcases i with i | i <;> simp
  rw [e]
  exact this

/-! ## Any number of seconds -/

theorem posRun_snoc {n : ℕ} {k k' : Pos.Kalman n} {l : List PosEvent} (h : posRun k l = (.ok (), k')) (m : List PosEvent) :
    posRun k (l ++ m) = posRun k' m := by
  induction l generalizing k with
  | nil => simp only [posRun, Prod.mk.injEq, true_and] at h; rw [h]; rfl
  | cons e l ih =>
    rw [List.cons_append, posRun]
    rw [posRun] at h
    rcases hr : e.apply k with ⟨r, k1⟩
    rw [hr] at h
    cases r with
    | error x => simp at h
    | ok u => exact ih h

theorem fixEvents_succ (y w : ℕ → V3) (N : ℕ) :
    Spec.fixEvents y w (N + 1) = Spec.fixEvents y w N ++ [.update (y N) (w N), .propagate 1] := by
  simp [Spec.fixEvents, List.range_succ]

/-- What the errors settle to, in standard deviations: for fixes of `ν` standard deviations and a motion that is `D` m/s²
off the filter's model. -/
noncomputable def Spec.settled (ν D : ℝ) : ℝ := 32 * ν + 1300 * D + 0.03

theorem loop_inv {n : ℕ} {mu : ℝ} (hmu0 : 0 ≤ mu) (hmu : mu ≤ 4e14) (s : SatState n) (hc : s.clock ≠ none)
    {x v acc : ℝ → V3} {D : ℝ} (hf : Spec.Flight x v acc D) (hD : D ≤ 5) (y w : ℕ → V3) {ν : ℝ} (hν : 0 ≤ ν)
    (hy : ∀ i : ℕ, (npNorm (y i - x i) / 10.0598) ^ 2 + (npNorm (w i - v i) / 0.52038) ^ 2 ≤ ν ^ 2)
    {c0 : ℝ} (hc0 : 0 ≤ c0)
    (h0 : npNorm (s.attrs.position - x 0) ^ 2 + npNorm (s.attrs.velocity - v 0) ^ 2 ≤ c0 ^ 2)
    (hsm : c0 + Spec.settled ν D ≤ 9880) (N : ℕ) :
    ∃ k, posRun (Pos.init mu s) (Spec.fixEvents y w N) = (.ok (), k) ∧ k.mu = mu ∧ k.state.clock ≠ none ∧
      Covariance k.P ∧ Low k.P ∧
      Sigmas k.P (k.x - Sum.elim (x N) (v N)) (0.9975 ^ N * c0 + Spec.settled ν D) := by
  have hD0 : 0 ≤ D := (npNorm_nonneg _).trans (hf.model 0 le_rfl)
  obtain ⟨B, hB⟩ : ∃ B, B = Spec.settled ν D := ⟨_, rfl⟩
  have hBe : B = 32 * ν + 1300 * D + 0.03 := hB
  have hB0 : 0 ≤ B := by rw [hBe]; positivity
  rw [← hB] at hsm ⊢
  induction N with
  | zero =>
    refine ⟨Pos.init mu s, rfl, rfl, hc, init_cov mu s, low_one, ?_⟩
    have hq : Sigmas (1 : M6) ((Pos.init mu s).x - Sum.elim (x 0) (v 0)) c0 := by
      intro z
      obtain ⟨w1, w2, rfl⟩ := sum_elim_parts z
      have e : (Pos.init mu s).x - Sum.elim (x 0) (v 0) =
          Sum.elim (s.attrs.position - x 0) (s.attrs.velocity - v 0) := by
        funext i; rcases i with i | i <;> rfl
      rw [e, Matrix.one_mulVec, dot_elim, dot_elim, dot_self_norm, dot_self_norm]
      have h1 := abs_dot_le w1 (s.attrs.position - x 0)
      have h2 := abs_dot_le w2 (s.attrs.velocity - v 0)
      refine (abs_add_le _ _).trans ((add_le_add h1 h2).trans ?_)
      generalize npNorm (s.attrs.position - x 0) = a at h0 ⊢
      generalize npNorm (s.attrs.velocity - v 0) = b at h0 ⊢
      refine abs_le_of_sq_le_sq' ?_ (by positivity) |>.2
      rw [mul_pow, Real.sq_sqrt (by positivity)]
      calc (npNorm w1 * a + npNorm w2 * b) ^ 2 ≤ (a ^ 2 + b ^ 2) * (npNorm w1 ^ 2 + npNorm w2 ^ 2) := by
            nlinarith [sq_nonneg (npNorm w1 * b - npNorm w2 * a)]
        _ ≤ _ := by gcongr
    rw [Nat.cast_zero]
    exact sigmas_mono hq (by simp [hB0])
  | succ N ih =>
    obtain ⟨k, hk, kmu, kc, kP, kL, ks⟩ := ih
    have ht : (0 : ℝ) ≤ N := Nat.cast_nonneg N
    have hpw : (0.9975 : ℝ) ^ N ≤ 1 := pow_le_one₀ (by norm_num) (by norm_num)
    obtain ⟨c, hcd⟩ : ∃ c, c = (0.9975 : ℝ) ^ N * c0 + B := ⟨_, rfl⟩
    rw [← hcd] at ks
    have hcB : B ≤ c := by
      have : 0 ≤ (0.9975 : ℝ) ^ N * c0 := by positivity
      linarith
    have hcle : c ≤ 9880 := by
      have : (0.9975 : ℝ) ^ N * c0 ≤ 1 * c0 := mul_le_mul_of_nonneg_right hpw hc0
      linarith
    have hcp : 0 ≤ c := hB0.trans hcB
    have hνc : ν ≤ 0.08 * c := by norm_num; linarith
    have hνs : c + 0.08 * ν ≤ 9920 := by norm_num at hBe ⊢; linarith
    obtain ⟨f1, f2, f3, f4, f5, -, -, f8⟩ := fix_step kP kL kc (hf.near N ht) hcp hν hνc hνs (hy N) ks
    obtain ⟨g1, g2⟩ := flight_second hf hD ht
    obtain ⟨c1, hc1⟩ : ∃ c1, c1 = (c + 0.08 * ν) / √(1 + 0.08 ^ 2) := ⟨_, rfl⟩
    rw [← hc1] at f5
    have hc1e : c1 = (c + 0.08 * ν) * (1 / √(1 + 0.08 ^ 2)) := by rw [hc1]; ring
    have hup : c1 ≤ (c + 0.08 * ν) * 0.99682 := by
      rw [hc1e]; exact mul_le_mul_of_nonneg_left root_small.1 (by positivity)
    have hdn : (c + 0.08 * ν) * 0.996 ≤ c1 := by
      rw [hc1e]; exact mul_le_mul_of_nonneg_left root_small.2 (by positivity)
    have hc10 : 0 ≤ c1 := le_trans (by positivity) hdn
    obtain ⟨δ, hδ⟩ : ∃ δ, δ = (D + 1.5e-5) / 0.018166 := ⟨_, rfl⟩
    have hδm : 0.018166 * δ = D + 1.5e-5 := by rw [hδ]; field_simp
    have hδ0 : 0 ≤ δ := by rw [hδ]; positivity
    have hδc : δ ≤ 0.08 * c1 := by
      norm_num at hδm hdn hBe ⊢
      linarith
    have p := predict_step (X' := x (N + 1)) (V' := v (N + 1)) (δx := D + 2e-5) (δv := δ) kP kL f4 (f2 ▸ kmu ▸ hmu0)
      (f2 ▸ kmu ▸ hmu) f8 hc10 hδ0 hδc (by norm_num at g1 ⊢; linarith) (by rw [hδm]; exact g2) f5
    obtain ⟨p1, p2, p3, p4, p5, p6⟩ := p
    refine ⟨((k.update (y N) (w N)).2.propagate 1).2, ?_, p2.trans (f2.trans kmu), by rw [p3]; exact f3, p4, p5, ?_⟩
    · rw [fixEvents_succ, posRun_snoc hk]
      simp only [posRun, PosEvent.apply]
      rcases hu : k.update (y N) (w N) with ⟨r, k1⟩
      rw [hu] at f1 p1
      simp only at f1 p1 ⊢
      subst f1
      rcases hv : k1.propagate 1 with ⟨r, k2⟩
      rw [hv] at p1
      simp only at p1
      subst p1
      simp only [hv]
    · push_cast
      refine sigmas_mono p6 ?_
      have hs : (0.9975 : ℝ) ^ (N + 1) * c0 = 0.9975 * (c - B) := by rw [hcd, pow_succ]; ring
      rw [hs]
      norm_num at hup hδm hBe ⊢
      linarith

/-- C208: with a fix each second the filter forgets its initial error and stays near the truth for ever: after any
number of seconds no call has raised, and after the fix the error is at most a multiple of the standard deviations of
a fix, and of those that the filter reports in any direction.  The multiple is the initial error, times 0.9975 for each
second past, and what the errors of the fixes and of the motion's model add up to. -/
theorem C208_tracks {n : ℕ} {mu : ℝ} (hmu0 : 0 ≤ mu) (hmu : mu ≤ 4e14) (s : SatState n) (hc : s.clock ≠ none)
    {x v acc : ℝ → V3} {D : ℝ} (hf : Spec.Flight x v acc D) (hD : D ≤ 5) (y w : ℕ → V3) {ν : ℝ} (hν : 0 ≤ ν)
    (hy : ∀ i : ℕ, (npNorm (y i - x i) / 10.0598) ^ 2 + (npNorm (w i - v i) / 0.52038) ^ 2 ≤ ν ^ 2)
    {c0 : ℝ} (hc0 : 0 ≤ c0)
    (h0 : npNorm (s.attrs.position - x 0) ^ 2 + npNorm (s.attrs.velocity - v 0) ^ 2 ≤ c0 ^ 2)
    (hsm : c0 + (32 * ν + 1300 * D + 0.03) ≤ 9880) (N : ℕ) :
    ∃ k, posRun (Pos.init mu s) (Spec.fixEvents y w N ++ [.update (y N) (w N)]) = (.ok (), k) ∧
      npNorm (k.output.1 - x N) ≤ 10.0598 * (0.9975 ^ N * c0 + (32 * ν + 1300 * D + 0.03)) ∧
      npNorm (k.output.2 - v N) ≤ 0.52038 * (0.9975 ^ N * c0 + (32 * ν + 1300 * D + 0.03)) ∧
      ∀ p q : V3, |p ⬝ᵥ (k.output.1 - x N) + q ⬝ᵥ (k.output.2 - v N)| ≤
        (0.9975 ^ N * c0 + (32 * ν + 1300 * D + 0.03)) * √((Sum.elim p q : I6 → ℝ) ⬝ᵥ (k.P *ᵥ Sum.elim p q)) := by
  obtain ⟨k, hk, kmu, kc, kP, kL, ks⟩ := loop_inv hmu0 hmu s hc hf hD y w hν hy hc0 h0 hsm N
  have hD0 : 0 ≤ D := (npNorm_nonneg _).trans (hf.model 0 le_rfl)
  have ht : (0 : ℝ) ≤ N := Nat.cast_nonneg N
  have hpw : (0.9975 : ℝ) ^ N * c0 ≤ 1 * c0 :=
    mul_le_mul_of_nonneg_right (pow_le_one₀ (by norm_num) (by norm_num)) hc0
  have hpp : 0 ≤ (0.9975 : ℝ) ^ N * c0 := by positivity
  unfold Spec.settled at ks
  obtain ⟨c, hcd⟩ : ∃ c, c = (0.9975 : ℝ) ^ N * c0 + (32 * ν + 1300 * D + 0.03) := ⟨_, rfl⟩
  rw [← hcd] at ks ⊢
  have hcp : 0 ≤ c := by rw [hcd]; positivity
  have hνc : ν ≤ 0.08 * c := by norm_num at hcd ⊢; linarith
  have hνs : c + 0.08 * ν ≤ 9920 := by norm_num at hcd hsm ⊢; linarith
  obtain ⟨f1, f2, f3, f4, f5, f6, f7, f8⟩ := fix_step kP kL kc (hf.near N ht) hcp hν hνc hνs (hy N) ks
  have hle : (c + 0.08 * ν) / √(1 + 0.08 ^ 2) ≤ c := by
    have : (c + 0.08 * ν) / √(1 + 0.08 ^ 2) = (c + 0.08 * ν) * (1 / √(1 + 0.08 ^ 2)) := by ring
    rw [this]
    refine (mul_le_mul_of_nonneg_left root_small.1 (by positivity)).trans ?_
    norm_num at hcd ⊢
    linarith
  refine ⟨(k.update (y N) (w N)).2, ?_, f6.trans ?_, f7.trans ?_, fun p q => ?_⟩
  · rw [posRun_snoc hk]
    simp only [posRun, PosEvent.apply]
    rcases hu : k.update (y N) (w N) with ⟨r, k1⟩
    rw [hu] at f1
    simp only at f1
    subst f1
    rfl
  · gcongr
  · gcongr
  · have := sigmas_mono f5 hle (Sum.elim p q)
    have hout : (k.update (y N) (w N)).2.x - Sum.elim (x N) (v N) =
        Sum.elim ((k.update (y N) (w N)).2.output.1 - x N) ((k.update (y N) (w N)).2.output.2 - v N) := by
      funext i; rcases i with i | i <;> rfl
    rw [hout, dot_elim] at this
    exact this


/-! ## Circular orbits -/

/-- Uniform motion on a circle with angular velocity `w`. -/
noncomputable def circlePos (w : ℝ) (x0 v0 : V3) (t : ℝ) : V3 :=
  Real.cos (w * t) • x0 + (Real.sin (w * t) / w) • v0
noncomputable def circleVel (w : ℝ) (x0 v0 : V3) (t : ℝ) : V3 :=
  (-(w * Real.sin (w * t))) • x0 + Real.cos (w * t) • v0

theorem circle_norms {w : ℝ} (hw : 0 < w) {x0 v0 : V3} (hv : npNorm v0 = w * npNorm x0) (hxv : x0 ⬝ᵥ v0 = 0)
    (t : ℝ) : npNorm (circlePos w x0 v0 t) = npNorm x0 ∧ npNorm (circleVel w x0 v0 t) = w * npNorm x0 := by
  have hsc := Real.sin_sq_add_cos_sq (w * t)
  constructor
  · refine (sq_eq_sq₀ (npNorm_nonneg _) (npNorm_nonneg _)).1 ?_
    rw [npNorm_sq_dot, npDot_eq_dotProduct, circlePos]
    simp only [add_dotProduct, dotProduct_add, smul_dotProduct, dotProduct_smul, smul_eq_mul, dotProduct_comm v0 x0,
      dot_self_norm, hxv, hv]
    field_simp
    linear_combination w * npNorm x0 ^ 2 * hsc
  · refine (sq_eq_sq₀ (npNorm_nonneg _) (mul_nonneg hw.le (npNorm_nonneg _))).1 ?_
    rw [npNorm_sq_dot, npDot_eq_dotProduct, circleVel]
    simp only [add_dotProduct, dotProduct_add, smul_dotProduct, dotProduct_smul, smul_eq_mul, dotProduct_comm v0 x0,
      dot_self_norm, hxv, hv]
    linear_combination w ^ 2 * npNorm x0 ^ 2 * hsc

theorem circle_derivs {w : ℝ} (hw : 0 < w) (x0 v0 : V3) (t : ℝ) :
    HasDerivAt (circlePos w x0 v0) (circleVel w x0 v0 t) t ∧
    HasDerivAt (circleVel w x0 v0) ((-w ^ 2) • circlePos w x0 v0 t) t := by
  have hlin : HasDerivAt (fun t : ℝ => w * t) w t := by simpa using (hasDerivAt_id t).const_mul w
  have hs := hlin.sin
  have hc := hlin.cos
  constructor
  · refine ((hc.smul_const x0).add ((hs.div_const w).smul_const v0)).congr_deriv ?_
    have : Real.cos (w * t) * w / w = Real.cos (w * t) := by field_simp
    rw [this, circleVel]
    congr 2; ring
  · refine ((((hs.const_mul w).fun_neg).smul_const x0).add (hc.smul_const v0)).congr_deriv ?_
    funext i
    simp only [circlePos, Pi.add_apply, Pi.smul_apply, smul_eq_mul]
    field_simp
    ring

/-- A satellite on a circular orbit flies off the filter's model by a constant acceleration. -/
theorem circle_flight {w : ℝ} (hw : 0 < w) {x0 v0 : V3} (hv : npNorm v0 = w * npNorm x0)
    (hxv : x0 ⬝ᵥ v0 = 0) (h1 : 6.5e6 ≤ npNorm x0) (h2 : npNorm x0 ≤ 1e7) (h3 : npNorm v0 ≤ 1e4) :
    Spec.Flight (circlePos w x0 v0) (circleVel w x0 v0) (fun t => (-w ^ 2) • circlePos w x0 v0 t)
      (|1.28e-6 - w ^ 2| * npNorm x0) where
  pos t _ := (circle_derivs hw x0 v0 t).1
  vel t _ := (circle_derivs hw x0 v0 t).2
  model t _ := by
    rw [← add_smul, npNorm_smul, (circle_norms hw hv hxv t).1, neg_add_eq_sub]
  near t _ := by rw [(circle_norms hw hv hxv t).1]; exact h1
  far t _ := by rw [(circle_norms hw hv hxv t).1]; exact h2
  speed t _ := by rw [(circle_norms hw hv hxv t).2, ← hv]; exact h3

/-- The hypotheses are met by a satellite on a circular orbit of 6778 km radius, fixes that are 7 m and 0.3 m/s off
and a filter that starts 1 km and 10 m/s off: it is within 11 km for ever, and within 1.2 km after 20 minutes. -/
example {n : ℕ} (s : SatState n) (hc : s.clock ≠ none) (hp : s.attrs.position = ![6779000, 0, 0])
    (hv : s.attrs.velocity = ![0, 0.00113 * 6778000, 10]) (N : ℕ) :
    ∃ k, posRun (Pos.init Spec.mu s) (Spec.fixEvents
        (fun i => circlePos 0.00113 ![6778000, 0, 0] ![0, 0.00113 * 6778000, 0] i + ![0, 0, 7])
        (fun i => circleVel 0.00113 ![6778000, 0, 0] ![0, 0.00113 * 6778000, 0] i + ![0, 0.3, 0]) N ++
        [.update (circlePos 0.00113 ![6778000, 0, 0] ![0, 0.00113 * 6778000, 0] N + ![0, 0, 7])
          (circleVel 0.00113 ![6778000, 0, 0] ![0, 0.00113 * 6778000, 0] N + ![0, 0.3, 0])]) = (.ok (), k) ∧
      npNorm (k.output.1 - circlePos 0.00113 ![6778000, 0, 0] ![0, 0.00113 * 6778000, 0] N) ≤
        10.0598 * (0.9975 ^ N * 1001 + 60) := by
  have nx : ∀ a : ℝ, 0 ≤ a → npNorm (![a, 0, 0] : V3) = a := fun a ha => by
    have := npNorm3_sq ![a, 0, 0]
    simp only [Matrix.cons_val_zero, Matrix.cons_val_one, Matrix.cons_val] at this
    exact (sq_eq_sq₀ (npNorm_nonneg _) ha).1 (by rw [this]; ring)
  have ny : ∀ a : ℝ, 0 ≤ a → npNorm (![0, a, 0] : V3) = a := fun a ha => by
    have := npNorm3_sq ![0, a, 0]
    simp only [Matrix.cons_val_zero, Matrix.cons_val_one, Matrix.cons_val] at this
    exact (sq_eq_sq₀ (npNorm_nonneg _) ha).1 (by rw [this]; ring)
  have nz : ∀ a : ℝ, 0 ≤ a → npNorm (![0, 0, a] : V3) = a := fun a ha => by
    have := npNorm3_sq ![0, 0, a]
    simp only [Matrix.cons_val_zero, Matrix.cons_val_one, Matrix.cons_val] at this
    exact (sq_eq_sq₀ (npNorm_nonneg _) ha).1 (by rw [this]; ring)
  have hfl := circle_flight (w := 0.00113) (x0 := ![6778000, 0, 0]) (v0 := ![0, 0.00113 * 6778000, 0]) (by norm_num)
    (by rw [nx _ (by norm_num), ny _ (by norm_num)]) (by simp [dotProduct, Fin.sum_univ_three])
    (by rw [nx _ (by norm_num)]; norm_num) (by rw [nx _ (by norm_num)]; norm_num)
    (by rw [ny _ (by norm_num)]; norm_num)
  have hDv : |1.28e-6 - (0.00113 : ℝ) ^ 2| * npNorm (![6778000, 0, 0] : V3) ≤ 0.0211 ∧
      0 ≤ |1.28e-6 - (0.00113 : ℝ) ^ 2| * npNorm (![6778000, 0, 0] : V3) := by
    rw [nx _ (by norm_num)]
    constructor
    · rw [abs_of_pos (by norm_num)]; norm_num
    · positivity
  obtain ⟨D, hD⟩ : ∃ D, D = |1.28e-6 - (0.00113 : ℝ) ^ 2| * npNorm (![6778000, 0, 0] : V3) := ⟨_, rfl⟩
  rw [← hD] at hfl hDv
  norm_num at hDv
  obtain ⟨k, h1, h2, -, -⟩ := C208_tracks (mu := Spec.mu) (by unfold Spec.mu; norm_num) (by unfold Spec.mu; norm_num) s
    hc hfl (by linarith)
    (fun i => circlePos 0.00113 ![6778000, 0, 0] ![0, 0.00113 * 6778000, 0] i + ![0, 0, 7])
    (fun i => circleVel 0.00113 ![6778000, 0, 0] ![0, 0.00113 * 6778000, 0] i + ![0, 0.3, 0]) (ν := 1)
    (by norm_num) (fun i => by
      simp only [add_sub_cancel_left]
      rw [nz _ (by norm_num), ny _ (by norm_num)]
      norm_num) (c0 := 1001) (by norm_num) (by
      have e1 : s.attrs.position - circlePos 0.00113 ![6778000, 0, 0] ![0, 0.00113 * 6778000, 0] 0 = ![1000, 0, 0] := by
        rw [hp]; funext i; fin_cases i <;> simp [circlePos]; norm_num
      have e2 : s.attrs.velocity - circleVel 0.00113 ![6778000, 0, 0] ![0, 0.00113 * 6778000, 0] 0 = ![0, 0, 10] := by
        rw [hv]; funext i; fin_cases i <;> simp [circleVel]
      rw [e1, e2, nx _ (by norm_num), nz _ (by norm_num)]
      norm_num) (by norm_num; linarith) N
  refine ⟨k, h1, h2.trans ?_⟩
  have : 32 * (1 : ℝ) + 1300 * D + 0.03 ≤ 60 := by norm_num; linarith
  linarith

end Adcs
