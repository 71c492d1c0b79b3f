import Mathlib.Analysis.Analytic.Basic
import Mathlib.Analysis.Analytic.Constructions
import Mathlib.Analysis.Normed.Module.Multilinear.Curry
import Mathlib.Analysis.Calculus.MeanValue
import Mathlib.Analysis.Calculus.Deriv.Pow
import Mathlib.Tactic.Module

set_option autoImplicit false
set_option linter.unusedSectionVars false

/-! # The fourth-order Runge-Kutta step for an analytic field: error of one step

Helper lemmas for C135 and C153. -/

namespace Adcs.Rk

open scoped Topology
open Filter Asymptotics

variable {E : Type} [NormedAddCommGroup E] [NormedSpace ℝ E]

/-- `u` is of the order of the `n`-th power of its argument. -/
def Z (n : ℕ) (u : ℝ → E) : Prop := u =O[𝓝 (0 : ℝ)] fun h => h ^ n

namespace Z

variable {n i k : ℕ} {u v : ℝ → E}

theorem add (hu : Z n u) (hv : Z n v) : Z n fun h => u h + v h := IsBigO.add hu hv
theorem sub (hu : Z n u) (hv : Z n v) : Z n fun h => u h - v h := IsBigO.sub hu hv
theorem smul (c : ℝ) (hu : Z n u) : Z n fun h => c • u h := IsBigO.const_smul_left hu c
theorem map {F : Type} [NormedAddCommGroup F] [NormedSpace ℝ F] (L : E →L[ℝ] F) (hu : Z n u) :
    Z n fun h => L (u h) := (L.isBigO_comp u _).trans hu
theorem mono (hki : k ≤ i) (hu : Z i u) : Z k u := by
  refine IsBigO.trans hu (IsBigO.of_bound 1 ?_)
  filter_upwards [Metric.ball_mem_nhds (0 : ℝ) one_pos] with h hh
  rw [Metric.mem_ball, dist_zero_right, Real.norm_eq_abs] at hh
  rw [norm_pow, norm_pow, Real.norm_eq_abs, one_mul]
  exact pow_le_pow_of_le_one (abs_nonneg h) hh.le hki
theorem bil {F : Type} [NormedAddCommGroup F] [NormedSpace ℝ F] (B : E →L[ℝ] E →L[ℝ] F) (hu : Z i u)
    (hv : Z k v) : Z (i + k) fun h => B (u h) (v h) := by
  have h1 : (fun h => B (u h) (v h)) =O[𝓝 (0 : ℝ)] fun h => ‖u h‖ * ‖v h‖ := by
    refine IsBigO.of_bound ‖B‖ (Eventually.of_forall fun h => ?_)
    rw [norm_mul, norm_norm, norm_norm, ← mul_assoc]
    exact B.le_opNorm₂ _ _
  refine h1.trans ?_
  have := (IsBigO.norm_left hu).mul (IsBigO.norm_left hv)
  simpa only [pow_add] using this
theorem hsmul (hu : Z n u) : Z (n + 1) fun h => h • u h := by
  have : (fun h : ℝ => h • u h) =O[𝓝 0] fun h => h • h ^ n := (isBigO_refl _ _).smul hu
  refine this.congr_right fun h => ?_
  rw [smul_eq_mul, pow_succ, mul_comm]
theorem const (c : E) : Z 0 fun _ => c := by
  simp only [Z, pow_zero]
  exact isBigO_const_const c one_ne_zero _
theorem pow (n : ℕ) (c : E) : Z n fun h => h ^ n • c := by
  have : (fun h : ℝ => h ^ n • c) =O[𝓝 0] fun h => (h ^ n) • (1 : ℝ) :=
    (isBigO_refl _ _).smul (isBigO_const_const c one_ne_zero _)
  simpa [Z] using this
theorem congr (hu : Z n u) (h : ∀ t, u t = v t) : Z n v := by
  have : u = v := funext h
  rwa [← this]

end Z

/-- A function that starts at zero with a derivative of order `n` is of order `n + 1`. -/
theorem Z.integrate {n : ℕ} {g g' : ℝ → E} (h0 : g 0 = 0) (hg : ∀ᶠ t in 𝓝 (0 : ℝ), HasDerivAt g (g' t) t)
    (hz : Z n g') : Z (n + 1) g := by
  obtain ⟨C, hC⟩ := hz.bound
  obtain ⟨r, hr, hb⟩ := Metric.eventually_nhds_iff_ball.1 (hg.and hC)
  refine IsBigO.of_bound C ?_
  filter_upwards [Metric.ball_mem_nhds (0 : ℝ) hr] with h hh
  rw [Metric.mem_ball, dist_zero_right, Real.norm_eq_abs] at hh
  have key : ∀ t ∈ Set.Icc (-|h|) |h|, HasDerivWithinAt g (g' t) (Set.Icc (-|h|) |h|) t ∧
      ‖g' t‖ ≤ C * |h| ^ n := by
    intro t ht
    have ha : |t| ≤ |h| := abs_le.2 ht
    have hm := hb t (by rw [Metric.mem_ball, dist_zero_right, Real.norm_eq_abs]; linarith)
    refine ⟨hm.1.hasDerivWithinAt, hm.2.trans ?_⟩
    rw [norm_pow, Real.norm_eq_abs]
    have hC0 : 0 ≤ C * |t| ^ n := by
      have := hm.2; rw [norm_pow, Real.norm_eq_abs] at this; exact (norm_nonneg _).trans this
    by_cases hC1 : 0 ≤ C
    · exact mul_le_mul_of_nonneg_left (pow_le_pow_left₀ (abs_nonneg t) ha n) hC1
    · rw [not_le] at hC1
      have h1 : C * |t| ^ n = 0 := le_antisymm (mul_nonpos_of_nonpos_of_nonneg hC1.le (by positivity)) hC0
      have h3 := (hb h (by rwa [Metric.mem_ball, dist_zero_right, Real.norm_eq_abs])).2
      rw [norm_pow, Real.norm_eq_abs] at h3
      rw [h1]; exact (norm_nonneg _).trans h3
  have := Convex.norm_image_sub_le_of_norm_hasDerivWithin_le (fun t ht => (key t ht).1) (fun t ht => (key t ht).2)
    (convex_Icc (-|h|) |h|) (x := 0) (y := h) ⟨by simp, abs_nonneg h⟩ ⟨neg_abs_le h, le_abs_self h⟩
  rw [h0, sub_zero, sub_zero] at this
  rw [norm_pow, Real.norm_eq_abs, pow_succ, ← mul_assoc]
  rwa [Real.norm_eq_abs] at this

/-- The terms of a field near a point that matter for a step of fourth order. -/
structure Jet (f : E → E) (x : E) where
  a : E
  L : E →L[ℝ] E
  B : E →L[ℝ] E →L[ℝ] E
  T : E → E
  hT : ∀ (c : ℝ) v, T (c • v) = c ^ 3 • T v
  bT : ∀ {u : ℝ → E}, Z 1 u → Z 3 fun h => T (u h)
  dT : ∀ {u v : ℝ → E}, Z 1 u → Z 1 v → (Z 2 fun h => u h - v h) → Z 4 fun h => T (u h) - T (v h)
  master : ∀ {u : ℝ → E}, Z 1 u → Z 4 fun h => f (x + u h) - (a + L (u h) + B (u h) (u h) + T (u h))

theorem Z.tendsto {n : ℕ} (hn : n ≠ 0) {u : ℝ → E} (h : Z n u) : Tendsto u (𝓝 0) (𝓝 0) := by
  refine IsBigO.trans_tendsto h ?_
  have : Tendsto (fun h : ℝ => h ^ n) (𝓝 0) (𝓝 (0 ^ n)) := (continuous_pow n).tendsto 0
  rwa [zero_pow hn] at this

theorem exists_jet {f : E → E} {x : E} (hf : AnalyticAt ℝ f x) : ∃ j : Jet f x, j.a = f x := by
  obtain ⟨p, hp⟩ := hf
  have ha : p 0 0 = f x := by
    have := hp.coeff_zero (fun _ => 0); rw [← this]; congr 1
  refine ⟨⟨f x, continuousMultilinearCurryFin1 ℝ E E (p 1),
    ((continuousMultilinearCurryFin1 ℝ E E).toContinuousLinearEquiv : (E [×1]→L[ℝ] E) →L[ℝ] E →L[ℝ] E).comp
      (p 2).curryLeft, fun v => p 3 fun _ => v, ?_, ?_, ?_, ?_⟩, rfl⟩
  · intro c v
    have := (p 3).map_smul_univ (fun _ => c) (fun _ => v)
    simpa using this
  · intro u hu
    have h1 : (fun h => p 3 fun _ => u h) =O[𝓝 (0 : ℝ)] fun h => ‖u h‖ ^ 3 := by
      refine IsBigO.of_bound ‖p 3‖ (Eventually.of_forall fun h => ?_)
      have := (p 3).le_opNorm fun _ => u h
      simpa using this
    refine h1.trans ?_
    have := (IsBigO.norm_left hu).pow 3
    simpa only [pow_one] using this
  · intro u v hu hv huv
    have h1 : (fun h => (p 3 fun _ => u h) - p 3 fun _ => v h) =O[𝓝 (0 : ℝ)]
        fun h => max ‖u h‖ ‖v h‖ ^ 2 * ‖u h - v h‖ := by
      refine IsBigO.of_bound (‖p 3‖ * 3) (Eventually.of_forall fun h => ?_)
      have := (p 3).norm_image_sub_le (fun _ => u h) (fun _ => v h)
      simp only [Fintype.card_fin, pi_norm_const] at this
      have e : ((fun _ => u h) - fun _ => v h : Fin 3 → E) = fun _ => u h - v h := rfl
      rw [e, pi_norm_const] at this
      rw [Real.norm_of_nonneg (by positivity)]
      calc _ ≤ _ := this
        _ = _ := by push_cast; ring
    have h2 : (fun h => max ‖u h‖ ‖v h‖) =O[𝓝 (0 : ℝ)] fun h => h ^ 1 := by
      have h3 : (fun h => max ‖u h‖ ‖v h‖) =O[𝓝 (0 : ℝ)] fun h => ‖u h‖ + ‖v h‖ := by
        refine IsBigO.of_bound 1 (Eventually.of_forall fun h => ?_)
        rw [Real.norm_of_nonneg (by positivity), Real.norm_of_nonneg (by positivity), one_mul]
        exact max_le (le_add_of_nonneg_right (norm_nonneg _)) (le_add_of_nonneg_left (norm_nonneg _))
      exact h3.trans ((IsBigO.norm_left hu).add (IsBigO.norm_left hv))
    refine h1.trans (((h2.pow 2).mul (IsBigO.norm_left huv)).congr_right fun h => ?_)
    ring
  · intro u hu
    have h1 := hp.isBigO_sub_partialSum_pow 4
    have h2 := h1.comp_tendsto (hu.tendsto one_ne_zero)
    have h3 : (fun h => ‖u h‖ ^ 4) =O[𝓝 (0 : ℝ)] fun h => h ^ 4 := by
      have := (IsBigO.norm_left hu).pow 4
      simpa only [pow_one] using this
    refine (h2.trans h3).congr_left fun h => ?_
    simp only [Function.comp, FormalMultilinearSeries.partialSum, Finset.sum_range_succ, Finset.sum_range_zero, zero_add]
    congr 1
    congr 1
    congr 1
    congr 1
    · rw [← ha]; congr 1; funext i; exact i.elim0
    · have e : ∀ (q : E [×2]→L[ℝ] E) (v : E),
          (((continuousMultilinearCurryFin1 ℝ E E).toContinuousLinearEquiv : (E [×1]→L[ℝ] E) →L[ℝ] E →L[ℝ] E).comp
            q.curryLeft) v v = q fun _ => v := by
        intro q v
        rw [ContinuousLinearMap.comp_apply]
        show continuousMultilinearCurryFin1 ℝ E E (q.curryLeft v) v = _
        rw [continuousMultilinearCurryFin1_apply, ContinuousMultilinearMap.curryLeft_apply]
        congr 1; funext i; fin_cases i <;> rfl
      exact (e (p 2) (u h)).symm

namespace Jet

variable {f : E → E} {x : E} (j : Jet f x)

theorem e4 {u : ℝ → E} (c1 c2 c3 : E) (hu : Z 4 fun h => u h - (h • c1 + h ^ 2 • c2 + h ^ 3 • c3)) :
    Z 4 fun h => f (x + u h) - (j.a + h • j.L c1 + h ^ 2 • (j.L c2 + j.B c1 c1) +
      h ^ 3 • (j.L c3 + j.B c1 c2 + j.B c2 c1 + j.T c1)) := by
  have p1 : Z 1 fun h : ℝ => h • c1 := (Z.pow 1 c1).congr fun h => by rw [pow_one]
  have p2 : Z 2 fun h : ℝ => h ^ 2 • c2 + h ^ 3 • c3 := (Z.pow 2 c2).add ((Z.pow 3 c3).mono (by norm_num))
  have hP : Z 1 fun h : ℝ => h • c1 + h ^ 2 • c2 + h ^ 3 • c3 :=
    (p1.add (p2.mono (by norm_num))).congr fun h => by module
  have hu1 : Z 1 u := ((hu.mono (by norm_num)).add hP).congr fun h => by module
  have hT := j.dT hu1 p1 (((hu.mono (by norm_num)).add p2).congr fun h => by module)
  have hL := hu.map j.L
  have hB1 := (Z.bil j.B hu hu1).mono (show 4 ≤ 4 + 1 by norm_num)
  have hB2 := (Z.bil j.B hP hu).mono (show 4 ≤ 1 + 4 by norm_num)
  have hR : Z 4 fun h : ℝ => h ^ 4 • (j.B c1 c3 + j.B c2 c2 + j.B c3 c1) + h ^ 5 • (j.B c2 c3 + j.B c3 c2) +
      h ^ 6 • j.B c3 c3 :=
    ((Z.pow 4 _).add ((Z.pow 5 _).mono (by norm_num))).add ((Z.pow 6 _).mono (by norm_num))
  refine (((((j.master hu1).add hT).add hL).add (hB1.add hB2)).add hR).congr fun h => ?_
  rw [j.hT]
  simp only [map_add, map_sub, map_smul, add_apply, sub_apply,
    smul_apply]
  module

theorem e3 {u : ℝ → E} (c1 c2 : E) (hu : Z 3 fun h => u h - (h • c1 + h ^ 2 • c2)) :
    Z 3 fun h => f (x + u h) - (j.a + h • j.L c1 + h ^ 2 • (j.L c2 + j.B c1 c1)) := by
  have p1 : Z 1 fun h : ℝ => h • c1 := (Z.pow 1 c1).congr fun h => by rw [pow_one]
  have hP : Z 1 fun h : ℝ => h • c1 + h ^ 2 • c2 := p1.add ((Z.pow 2 c2).mono (by norm_num))
  have hu1 : Z 1 u := ((hu.mono (by norm_num)).add hP).congr fun h => by module
  have hL := hu.map j.L
  have hB1 := (Z.bil j.B hu hu1).mono (show 3 ≤ 3 + 1 by norm_num)
  have hB2 := (Z.bil j.B hP hu).mono (show 3 ≤ 1 + 3 by norm_num)
  have hR : Z 3 fun h : ℝ => h ^ 3 • (j.B c1 c2 + j.B c2 c1) + h ^ 4 • j.B c2 c2 :=
    (Z.pow 3 _).add ((Z.pow 4 _).mono (by norm_num))
  refine ((((((j.master hu1).mono (by norm_num)).add (j.bT hu1)).add hL).add (hB1.add hB2)).add hR).congr fun h => ?_
  simp only [map_add, map_sub, map_smul, add_apply, sub_apply,
    smul_apply]
  module

theorem e2 {u : ℝ → E} (c1 : E) (hu : Z 2 fun h => u h - h • c1) :
    Z 2 fun h => f (x + u h) - (j.a + h • j.L c1) := by
  have p1 : Z 1 fun h : ℝ => h • c1 := (Z.pow 1 c1).congr fun h => by rw [pow_one]
  have hu1 : Z 1 u := ((hu.mono (by norm_num)).add p1).congr fun h => by module
  have hB := Z.bil j.B hu1 hu1
  refine (((((j.master hu1).mono (by norm_num)).add ((j.bT hu1).mono (by norm_num))).add (hu.map j.L)).add hB).congr
    fun h => ?_
  simp only [map_sub, map_smul]
  module

theorem e1 {u : ℝ → E} (hu : Z 1 u) : Z 1 fun h => f (x + u h) - j.a := by
  have hB := (Z.bil j.B hu hu).mono (show 1 ≤ 1 + 1 by norm_num)
  refine (((((j.master hu).mono (by norm_num)).add ((j.bT hu).mono (by norm_num))).add (hu.map j.L)).add hB).congr
    fun h => ?_
  module

end Jet

/-- One step of the fourth-order Runge-Kutta method. -/
noncomputable def step (f : E → E) (h : ℝ) (x : E) : E :=
  let k1 := f x
  let k2 := f (x + (h / 2) • k1)
  let k3 := f (x + (h / 2) • k2)
  let k4 := f (x + h • k3)
  x + h • ((1 / 6 : ℝ) • (k1 + (2 : ℝ) • k2 + (2 : ℝ) • k3 + k4))

/-- The expansion of a step. -/
theorem step_expansion {f : E → E} {x : E} (j : Jet f x) (ha : j.a = f x) :
    Z 5 fun h => step f h x - (x + h • j.a + h ^ 2 • ((1 / 2 : ℝ) • j.L j.a) +
      h ^ 3 • ((1 / 6 : ℝ) • (j.L (j.L j.a) + (2 : ℝ) • j.B j.a j.a)) +
      h ^ 4 • ((1 / 24 : ℝ) • (j.L (j.L (j.L j.a)) + (2 : ℝ) • j.L (j.B j.a j.a) +
        (3 : ℝ) • (j.B j.a (j.L j.a) + j.B (j.L j.a) j.a) + (6 : ℝ) • j.T j.a))) := by
  have t2 : j.T ((1 / 2 : ℝ) • j.a) = (1 / 8 : ℝ) • j.T j.a := by rw [j.hT]; norm_num
  have h2 := j.e4 (u := fun h => (h / 2) • j.a) ((1 / 2 : ℝ) • j.a) 0 0
    ((Z.pow 4 (0 : E)).congr fun h => by module)
  have h3 := j.e4 (u := fun h => (h / 2) • f (x + (h / 2) • j.a)) ((1 / 2 : ℝ) • j.a) ((1 / 4 : ℝ) • j.L j.a)
    ((1 / 8 : ℝ) • j.B j.a j.a) ?_
  have h4 := j.e4 (u := fun h => h • f (x + (h / 2) • f (x + (h / 2) • j.a))) j.a ((1 / 2 : ℝ) • j.L j.a)
    ((1 / 4 : ℝ) • (j.L (j.L j.a) + j.B j.a j.a)) ?_
  · refine ((((h2.smul (1 / 3)).add (h3.smul (1 / 3))).add (h4.smul (1 / 6))).hsmul).congr fun h => ?_
    simp only [step, ← ha, t2]
    simp only [map_add, map_smul, map_zero, smul_apply, zero_apply]
    module
  · refine (((h3.hsmul).mono (show 4 ≤ 4 + 1 by norm_num)).add (Z.pow 4 ((j.L ((1 / 8 : ℝ) • j.B j.a j.a) +
      j.B ((1 / 2 : ℝ) • j.a) ((1 / 4 : ℝ) • j.L j.a) + j.B ((1 / 4 : ℝ) • j.L j.a) ((1 / 2 : ℝ) • j.a) +
      j.T ((1 / 2 : ℝ) • j.a))))).congr fun h => ?_
    simp only [map_smul, smul_apply]
    module
  · refine (((h2.hsmul.smul (1 / 2)).mono (show 4 ≤ 4 + 1 by norm_num)).add (Z.pow 4 ((1 / 2 : ℝ) • (j.L 0 +
      j.B ((1 / 2 : ℝ) • j.a) 0 + j.B 0 ((1 / 2 : ℝ) • j.a) + j.T ((1 / 2 : ℝ) • j.a))))).congr fun h => ?_
    simp only [map_smul, map_zero, smul_apply, zero_apply]
    module

/-- The expansion of the exact solution. -/
theorem solution_expansion {f : E → E} {x : E} (j : Jet f x) {y : ℝ → E} (h0 : y 0 = x)
    (hy : ∀ᶠ t in 𝓝 (0 : ℝ), HasDerivAt y (f (y t)) t) :
    Z 5 fun h => y h - (x + h • j.a + h ^ 2 • ((1 / 2 : ℝ) • j.L j.a) +
      h ^ 3 • ((1 / 6 : ℝ) • (j.L (j.L j.a) + (2 : ℝ) • j.B j.a j.a)) +
      h ^ 4 • ((1 / 24 : ℝ) • (j.L (j.L (j.L j.a)) + (2 : ℝ) • j.L (j.B j.a j.a) +
        (3 : ℝ) • (j.B j.a (j.L j.a) + j.B (j.L j.a) j.a) + (6 : ℝ) • j.T j.a))) := by
  have hx : ∀ t, x + (y t - x) = y t := fun t => by abel
  -- first order
  have hd0 : HasDerivAt y (f x) 0 := by have := hy.self_of_nhds; rwa [h0] at this
  have z1 : Z 1 fun t => y t - x := by
    have := hd0.differentiableAt.isBigO_sub
    rw [h0] at this
    simpa [Z] using this
  have z2 : Z 2 fun t => (y t - x) - t • j.a := by
    have d := j.e1 z1
    simp only [hx] at d
    refine d.integrate (by simp [h0]) (hy.mono fun t ht => ?_)
    refine ((ht.sub_const x).sub ((hasDerivAt_id t).smul_const j.a)).congr_deriv (by simp)
  have hp : ∀ (n : ℕ) (t : ℝ) (c : E), HasDerivAt (fun t : ℝ => t ^ n • c) ((n * t ^ (n - 1)) • c) t := fun n t c =>
    (hasDerivAt_pow n t).smul_const c
  have z3 : Z 3 fun t => (y t - x) - (t • j.a + t ^ 2 • ((1 / 2 : ℝ) • j.L j.a)) := by
    have d := j.e2 j.a z2
    simp only [hx] at d
    refine d.integrate (by simp [h0]) (hy.mono fun t ht => ?_)
    refine ((ht.sub_const x).sub (((hasDerivAt_id t).smul_const j.a).add (hp 2 t _))).congr_deriv ?_
    norm_num
    module
  have z4 : Z 4 fun t => (y t - x) - (t • j.a + t ^ 2 • ((1 / 2 : ℝ) • j.L j.a) +
      t ^ 3 • ((1 / 6 : ℝ) • (j.L (j.L j.a) + (2 : ℝ) • j.B j.a j.a))) := by
    have d := j.e3 j.a _ z3
    simp only [hx] at d
    refine d.integrate (by simp [h0]) (hy.mono fun t ht => ?_)
    refine ((ht.sub_const x).sub ((((hasDerivAt_id t).smul_const j.a).add (hp 2 t _)).add (hp 3 t _))).congr_deriv ?_
    simp only [map_smul]
    norm_num
    module
  have d := j.e4 j.a _ _ z4
  simp only [hx] at d
  refine d.integrate (by simp [h0]) (hy.mono fun t ht => ?_)
  refine (ht.sub (((((hasDerivAt_id t).smul_const j.a).const_add x |>.add (hp 2 t _)).add (hp 3 t _)).add
    (hp 4 t _))).congr_deriv ?_
  simp only [map_smul, map_add, smul_apply]
  norm_num
  module

/-- The error of one step is of fifth order. -/
theorem step_order {f : E → E} {x : E} (hf : AnalyticAt ℝ f x) {y : ℝ → E} (h0 : y 0 = x)
    (hy : ∀ᶠ t in 𝓝 (0 : ℝ), HasDerivAt y (f (y t)) t) : Z 5 fun h => step f h x - y h := by
  obtain ⟨j, ha⟩ := exists_jet hf
  exact ((step_expansion j ha).sub (solution_expansion j h0 hy)).congr fun h => by abel

end Adcs.Rk
