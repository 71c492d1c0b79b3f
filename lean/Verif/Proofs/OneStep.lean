import Verif.Proofs.Rk4Order
import Mathlib.Analysis.Calculus.ContDiff.RCLike
import Mathlib.Analysis.Calculus.ContDiff.Operations
import Mathlib.Analysis.SpecialFunctions.Exp
import Mathlib.Topology.MetricSpace.Pseudo.Lemmas

set_option autoImplicit false
set_option linter.unusedSectionVars false

/-! # Convergence of one-step methods

Helper lemmas for C153: from an error of order `n + 1` in every single step to an error of order `n` over a whole
interval of time. -/

namespace Adcs.Rk

open scoped Topology
open Filter Asymptotics

variable {E : Type} [NormedAddCommGroup E] [NormedSpace ℝ E]

theorem poly_zero (n : ℕ) (c : ℕ → E)
    (h : (fun t : ℝ => ∑ k ∈ Finset.range n, t ^ k • c k) =O[𝓝[≠] (0 : ℝ)] fun t => t ^ n) : ∀ k < n, c k = 0 := by
  induction n generalizing c with
  | zero => intro k hk; omega
  | succ n ih =>
    have e : ∀ t : ℝ, ∑ k ∈ Finset.range (n + 1), t ^ k • c k =
        t • (∑ k ∈ Finset.range n, t ^ k • c (k + 1)) + c 0 := by
      intro t
      rw [Finset.sum_range_succ', pow_zero, one_smul, Finset.smul_sum]
      congr 1
      refine Finset.sum_congr rfl fun k _ => ?_
      rw [smul_smul, pow_succ']
    have hc0 : c 0 = 0 := by
      have t1 : Tendsto (fun t : ℝ => t ^ (n + 1)) (𝓝[≠] 0) (𝓝 0) := by
        have : Tendsto (fun t : ℝ => t ^ (n + 1)) (𝓝 0) (𝓝 (0 ^ (n + 1))) := (continuous_pow (n + 1)).tendsto 0
        rw [zero_pow (Nat.succ_ne_zero n)] at this
        exact this.mono_left nhdsWithin_le_nhds
      have t2 := h.trans_tendsto t1
      have t3 : Tendsto (fun t : ℝ => ∑ k ∈ Finset.range (n + 1), t ^ k • c k) (𝓝[≠] 0) (𝓝 (c 0)) := by
        have hc : Continuous fun t : ℝ => ∑ k ∈ Finset.range (n + 1), t ^ k • c k :=
          continuous_finsetSum _ fun k _ => (continuous_pow k).smul continuous_const
        have := hc.tendsto 0
        have e0 := e 0
        rw [zero_smul, zero_add] at e0
        rw [e0] at this
        exact this.mono_left nhdsWithin_le_nhds
      exact tendsto_nhds_unique t3 t2
    have h' : (fun t : ℝ => ∑ k ∈ Finset.range n, t ^ k • c (k + 1)) =O[𝓝[≠] (0 : ℝ)] fun t => t ^ n := by
      obtain ⟨C, hC⟩ := h.bound
      refine IsBigO.of_bound C ?_
      filter_upwards [hC, self_mem_nhdsWithin] with t ht h0
      rw [e t, hc0, add_zero, norm_smul, pow_succ, norm_mul] at ht
      have hp : 0 < ‖t‖ := norm_pos_iff.2 h0
      refine le_of_mul_le_mul_left ?_ hp
      calc _ ≤ _ := ht
        _ = _ := by ring
    intro k hk
    cases k with
    | zero => exact hc0
    | succ k => exact ih (fun k => c (k + 1)) h' k (by omega)

theorem symm_mvt {g g' : ℝ → E} {K h : ℝ} (H : ∀ s, |s| ≤ |h| → HasDerivAt g (g' s) s ∧ ‖g' s‖ ≤ K) :
    ‖g h - g 0‖ ≤ K * |h| := by
  have := Convex.norm_image_sub_le_of_norm_hasDerivWithin_le
    (fun t ht => (H t (abs_le.2 ht)).1.hasDerivWithinAt) (fun t ht => (H t (abs_le.2 ht)).2)
    (convex_Icc (-|h|) |h|) (x := 0) (y := h) ⟨by simp, abs_nonneg h⟩ ⟨neg_abs_le h, le_abs_self h⟩
  rwa [sub_zero, Real.norm_eq_abs] at this

theorem box {P : ℝ × ℝ → Prop} {t0 : ℝ} (h : ∀ᶠ p in 𝓝 (t0, (0 : ℝ)), P p) :
    ∃ r > 0, ∀ t, |t - t0| < r → ∀ s, |s| < r → P (t, s) := by
  obtain ⟨r, hr, hb⟩ := Metric.eventually_nhds_iff_ball.1 h
  refine ⟨r, hr, fun t ht s hs => hb _ ?_⟩
  rw [Metric.mem_ball, Prod.dist_eq, max_lt_iff, Real.dist_eq, Real.dist_eq, sub_zero]
  exact ⟨ht, hs⟩

/-- Taylor's theorem in the second variable, with a remainder that is uniform in the first. -/
theorem taylor_unif (n : ℕ) {G : ℝ × ℝ → E} {t0 : ℝ} (hG : ContDiffAt ℝ n G (t0, 0)) :
    ∃ C r : ℝ, 0 < r ∧ ∃ c : ℕ → ℝ → E, ∀ t, |t - t0| < r → ∀ h, |h| < r →
      ‖G (t, h) - ∑ k ∈ Finset.range n, h ^ k • c k t‖ ≤ C * |h| ^ n := by
  induction n generalizing G with
  | zero =>
    have hc : ContinuousAt G (t0, 0) := hG.continuousAt
    have : ∀ᶠ p in 𝓝 (t0, (0 : ℝ)), ‖G p‖ < ‖G (t0, 0)‖ + 1 :=
      hc.norm.eventually (gt_mem_nhds (by linarith))
    obtain ⟨r, hr, hb⟩ := box this
    exact ⟨‖G (t0, 0)‖ + 1, r, hr, fun _ _ => 0, fun t ht h hh => by simpa using (hb t ht h hh).le⟩
  | succ n ih =>
    set D : ℝ × ℝ → E := fun p => fderiv ℝ G p (0, 1) with hD
    have hDc : ContDiffAt ℝ n D (t0, 0) := by
      have h1 : ContDiffAt ℝ n (fderiv ℝ G) (t0, 0) := hG.fderiv_right (by norm_num)
      exact h1.clm_apply contDiffAt_const
    obtain ⟨C, r1, hr1, c, hc⟩ := ih hDc
    have hdiff : ∀ᶠ p in 𝓝 (t0, (0 : ℝ)), DifferentiableAt ℝ G p := by
      have h1 : ∀ᶠ p in 𝓝 (t0, (0 : ℝ)), ContDiffAt ℝ (n + 1 : ℕ) G p := hG.eventually (by simp)
      exact h1.mono fun p hp => hp.differentiableAt (by simp)
    obtain ⟨r2, hr2, hd⟩ := box hdiff
    refine ⟨|C|, min r1 r2, lt_min hr1 hr2,
      fun k t => match k with
        | 0 => G (t, 0)
        | k + 1 => (1 / ((k : ℝ) + 1)) • c k t, fun t ht h hh => ?_⟩
    have hr1' : min r1 r2 ≤ r1 := min_le_left _ _
    have hr2' : min r1 r2 ≤ r2 := min_le_right _ _
    have key := symm_mvt (g := fun s => G (t, s) - ∑ k ∈ Finset.range n, s ^ (k + 1) • ((1 / ((k : ℝ) + 1)) • c k t))
      (g' := fun s => D (t, s) - ∑ k ∈ Finset.range n, s ^ k • c k t) (K := |C| * |h| ^ n) (h := h) ?_
    · rw [Finset.sum_range_succ']
      simp only [pow_zero, one_smul]
      have e0 : ∑ k ∈ Finset.range n, (0 : ℝ) ^ (k + 1) • ((1 / ((k : ℝ) + 1)) • c k t) = 0 :=
        Finset.sum_eq_zero fun k _ => by rw [zero_pow (Nat.succ_ne_zero k), zero_smul]
      simp only [e0, sub_zero] at key
      rw [pow_succ, ← mul_assoc]
      refine le_trans (le_of_eq ?_) key
      congr 1; abel
    · intro s hs
      have hsr : |s| < min r1 r2 := lt_of_le_of_lt hs hh
      constructor
      · have hdG := (hd t (lt_of_lt_of_le ht hr2') s (lt_of_lt_of_le hsr hr2')).hasFDerivAt
        have hline : HasDerivAt (fun s : ℝ => (t, s)) ((0 : ℝ), (1 : ℝ)) s :=
          (hasDerivAt_const s t).prodMk (hasDerivAt_id s)
        have h1 : HasDerivAt (fun s => G (t, s)) (D (t, s)) s := hdG.comp_hasDerivAt s hline
        have h2 : HasDerivAt (fun s : ℝ => ∑ k ∈ Finset.range n, s ^ (k + 1) • ((1 / ((k : ℝ) + 1)) • c k t))
            (∑ k ∈ Finset.range n, s ^ k • c k t) s := by
          refine HasDerivAt.fun_sum fun k _ => ?_
          refine ((hasDerivAt_pow (k + 1) s).smul_const _).congr_deriv ?_
          rw [smul_smul]
          congr 1
          push_cast
          field_simp
        exact h1.sub h2
      · refine (hc t (lt_of_lt_of_le ht hr1') s (lt_of_lt_of_le hsr hr1')).trans ?_
        have h1 : C * |s| ^ n ≤ |C| * |s| ^ n := mul_le_mul_of_nonneg_right (le_abs_self C) (by positivity)
        exact h1.trans (mul_le_mul_of_nonneg_left (pow_le_pow_left₀ (abs_nonneg s) hs n) (abs_nonneg C))

/-- A function that is of order `n` in the second variable for every value of the first is so uniformly. -/
theorem order_unif {n : ℕ} {G : ℝ × ℝ → E} {A : Set ℝ} (hA : IsCompact A) (hG : ∀ t ∈ A, ContDiffAt ℝ n G (t, 0))
    (hz : ∀ t ∈ A, Z n fun h => G (t, h)) :
    ∃ C r : ℝ, 0 ≤ C ∧ 0 < r ∧ ∀ t ∈ A, ∀ h, |h| < r → ‖G (t, h)‖ ≤ C * |h| ^ n := by
  suffices H : ∃ C r : ℝ, 0 ≤ C ∧ 0 < r ∧ ∀ t ∈ A ∩ A, ∀ h, |h| < r → ‖G (t, h)‖ ≤ C * |h| ^ n by
    simpa using H
  refine hA.induction_on (p := fun s => ∃ C r : ℝ, 0 ≤ C ∧ 0 < r ∧ ∀ t ∈ s ∩ A, ∀ h, |h| < r →
    ‖G (t, h)‖ ≤ C * |h| ^ n) ?_ ?_ ?_ ?_
  · exact ⟨0, 1, le_rfl, one_pos, by simp⟩
  · rintro s t hst ⟨C, r, hC, hr, h⟩
    exact ⟨C, r, hC, hr, fun x hx => h x ⟨hst hx.1, hx.2⟩⟩
  · rintro s t ⟨C, r, hC, hr, h⟩ ⟨C', r', hC', hr', h'⟩
    refine ⟨max C C', min r r', hC.trans (le_max_left _ _), lt_min hr hr', ?_⟩
    rintro x ⟨hx | hx, hxA⟩ k hk
    · exact (h x ⟨hx, hxA⟩ k (lt_of_lt_of_le hk (min_le_left _ _))).trans
        (mul_le_mul_of_nonneg_right (le_max_left _ _) (by positivity))
    · exact (h' x ⟨hx, hxA⟩ k (lt_of_lt_of_le hk (min_le_right _ _))).trans
        (mul_le_mul_of_nonneg_right (le_max_right _ _) (by positivity))
  · intro t0 ht0
    obtain ⟨C, r, hr, c, hc⟩ := taylor_unif n (hG t0 ht0)
    refine ⟨Metric.ball t0 r, mem_nhdsWithin_of_mem_nhds (Metric.ball_mem_nhds t0 hr), |C|, r, abs_nonneg C, hr, ?_⟩
    rintro t ⟨htb, htA⟩ h hh
    rw [Metric.mem_ball, Real.dist_eq] at htb
    have hb : (fun h => G (t, h) - ∑ k ∈ Finset.range n, h ^ k • c k t) =O[𝓝 (0 : ℝ)] fun h => h ^ n := by
      refine IsBigO.of_bound C ?_
      filter_upwards [Metric.ball_mem_nhds (0 : ℝ) hr] with s hs
      rw [Metric.mem_ball, dist_zero_right, Real.norm_eq_abs] at hs
      rw [norm_pow, Real.norm_eq_abs]
      exact hc t htb s hs
    have hp : (fun h : ℝ => ∑ k ∈ Finset.range n, h ^ k • c k t) =O[𝓝[≠] (0 : ℝ)] fun h => h ^ n := by
      have : (fun h : ℝ => ∑ k ∈ Finset.range n, h ^ k • c k t) =O[𝓝 (0 : ℝ)] fun h => h ^ n :=
        (IsBigO.sub (hz t htA) hb).congr_left fun h => by abel
      exact this.mono nhdsWithin_le_nhds
    have h0 := poly_zero n (fun k => c k t) hp
    have e0 : ∑ k ∈ Finset.range n, h ^ k • c k t = 0 :=
      Finset.sum_eq_zero fun k hk => by rw [h0 k (Finset.mem_range.1 hk), smul_zero]
    have := hc t htb h hh
    rw [e0, sub_zero] at this
    exact this.trans (mul_le_mul_of_nonneg_right (le_abs_self C) (by positivity))

/-- The change in one step depends on the state in a Lipschitz way, with a constant of the order of the step. -/
theorem lip_local {S : ℝ × E → E} {x0 : E} (hS : ContDiffAt ℝ 2 S (0, x0)) :
    ∃ L r : ℝ, 0 ≤ L ∧ 0 < r ∧ ∀ x x', dist x x0 < r → dist x' x0 < r → ∀ h, |h| < r →
      ‖(S (h, x) - S (0, x)) - (S (h, x') - S (0, x'))‖ ≤ L * |h| * ‖x - x'‖ := by
  set D : ℝ × E → E := fun p => fderiv ℝ S p (1, 0) with hD
  have hDc : ContDiffAt ℝ 1 D (0, x0) := by
    have h1 : ContDiffAt ℝ 1 (fderiv ℝ S) (0, x0) := hS.fderiv_right (by norm_num)
    exact h1.clm_apply contDiffAt_const
  obtain ⟨K, U, hU, hlip⟩ := hDc.exists_lipschitzOnWith
  have hdiff : ∀ᶠ p in 𝓝 ((0 : ℝ), x0), DifferentiableAt ℝ S p := by
    have h1 : ∀ᶠ p in 𝓝 ((0 : ℝ), x0), ContDiffAt ℝ 2 S p := hS.eventually (by simp)
    exact h1.mono fun p hp => hp.differentiableAt (by simp)
  obtain ⟨r, hr, hb⟩ := Metric.eventually_nhds_iff_ball.1 (hdiff.and hU)
  refine ⟨K, r, K.2, hr, fun x x' hx hx' h hh => ?_⟩
  have hmem : ∀ (s : ℝ) (z : E), |s| < r → dist z x0 < r → (s, z) ∈ Metric.ball ((0 : ℝ), x0) r := by
    intro s z hs hz
    rw [Metric.mem_ball, Prod.dist_eq, max_lt_iff, Real.dist_eq, sub_zero]
    exact ⟨hs, hz⟩
  have hder : ∀ (s : ℝ) (z : E), |s| < r → dist z x0 < r → HasDerivAt (fun s => S (s, z)) (D (s, z)) s := by
    intro s z hs hz
    have hdS := (hb _ (hmem s z hs hz)).1.hasFDerivAt
    have hline : HasDerivAt (fun s : ℝ => (s, z)) ((1 : ℝ), (0 : E)) s :=
      (hasDerivAt_id s).prodMk (hasDerivAt_const s z)
    exact hdS.comp_hasDerivAt s hline
  have key := symm_mvt (g := fun s => S (s, x) - S (s, x')) (g' := fun s => D (s, x) - D (s, x'))
    (K := K * ‖x - x'‖) (h := h) ?_
  · calc _ = ‖(S (h, x) - S (h, x')) - (S (0, x) - S (0, x'))‖ := by congr 1; abel
      _ ≤ _ := key
      _ = _ := by ring
  · intro s hs
    have hsr := lt_of_le_of_lt hs hh
    refine ⟨(hder s x hsr hx).sub (hder s x' hsr hx'), ?_⟩
    have := hlip.norm_sub_le (hb _ (hmem s x hsr hx)).2 (hb _ (hmem s x' hsr hx')).2
    refine this.trans (le_of_eq ?_)
    rw [Prod.mk_sub_mk, sub_self, Prod.norm_mk, norm_zero, max_eq_right (norm_nonneg _)]

theorem lip_unif {S : ℝ × E → E} {y : ℝ → E} {A : Set ℝ} (hA : IsCompact A) (hy : ∀ t ∈ A, ContinuousAt y t)
    (hS : ∀ t ∈ A, ContDiffAt ℝ 2 S (0, y t)) :
    ∃ L r : ℝ, 0 ≤ L ∧ 0 < r ∧ ∀ t ∈ A, ∀ x, dist x (y t) < r → ∀ h, |h| < r →
      ‖(S (h, x) - S (0, x)) - (S (h, y t) - S (0, y t))‖ ≤ L * |h| * ‖x - y t‖ := by
  refine hA.induction_on (p := fun s => ∃ L r : ℝ, 0 ≤ L ∧ 0 < r ∧ ∀ t ∈ s, ∀ x, dist x (y t) < r → ∀ h, |h| < r →
      ‖(S (h, x) - S (0, x)) - (S (h, y t) - S (0, y t))‖ ≤ L * |h| * ‖x - y t‖) ?_ ?_ ?_ ?_
  · exact ⟨0, 1, le_rfl, one_pos, by simp⟩
  · rintro s t hst ⟨C, r, hC, hr, h⟩
    exact ⟨C, r, hC, hr, fun x hx => h x (hst hx)⟩
  · rintro s t ⟨C, r, hC, hr, h⟩ ⟨C', r', hC', hr', h'⟩
    refine ⟨max C C', min r r', hC.trans (le_max_left _ _), lt_min hr hr', ?_⟩
    rintro u (hx | hx) x hxu k hk
    · refine (h u hx x (lt_of_lt_of_le hxu (min_le_left _ _)) k (lt_of_lt_of_le hk (min_le_left _ _))).trans ?_
      gcongr; exact le_max_left _ _
    · refine (h' u hx x (lt_of_lt_of_le hxu (min_le_right _ _)) k (lt_of_lt_of_le hk (min_le_right _ _))).trans ?_
      gcongr; exact le_max_right _ _
  · intro t0 ht0
    obtain ⟨L, r, hL, hr, hl⟩ := lip_local (hS t0 ht0)
    have hev : ∀ᶠ t in 𝓝 t0, dist (y t) (y t0) < r / 2 :=
      (hy t0 ht0).eventually (Metric.ball_mem_nhds _ (by linarith))
    refine ⟨_, mem_nhdsWithin_of_mem_nhds hev, L, r / 2, hL, by linarith, ?_⟩
    intro t ht x hx h hh
    have ht' : dist (y t) (y t0) < r / 2 := ht
    refine hl x (y t) ?_ (by linarith) h (by linarith)
    linarith [dist_triangle x (y t) (y t0)]

/-- A one-step method whose error in a step is of order `n + 1` has an error of order `n` after any number of steps
that fit into an interval. `M` is the set of states that the method keeps to, unless it is off by `ρ`. -/
theorem one_step {n : ℕ} (hn : 1 ≤ n) {S : ℝ × E → E} {y : ℝ → E} {T ρ : ℝ} {M : Set E} (hρ : 0 < ρ)
    (hS : ∀ t ∈ Set.Icc 0 T, ContDiffAt ℝ (n + 1 : ℕ) S (0, y t))
    (hy : ∀ t ∈ Set.Icc 0 T, ContDiffAt ℝ (n + 1 : ℕ) y t)
    (hz : ∀ t ∈ Set.Icc 0 T, Z (n + 1) fun h => S (h, y t) - y (t + h))
    (hM : ∀ x ∈ M, S (0, x) = x) (hyM : ∀ t ∈ Set.Icc 0 T, y t ∈ M) :
    ∃ C h0 : ℝ, 0 < h0 ∧ ∀ h, 0 < h → h < h0 → ∀ (x : ℕ → E) (N : ℕ), x 0 = y 0 → N * h ≤ T →
      (∀ k < N, (x k ∈ M ∨ ρ ≤ ‖x k - y (k * h)‖) ∧ x (k + 1) = S (h, x k)) → ∀ k ≤ N, ‖x k - y (k * h)‖ ≤ C * h ^ n := by
  have hGc : ∀ t ∈ Set.Icc 0 T, ContDiffAt ℝ (n + 1 : ℕ) (fun p : ℝ × ℝ => S (p.2, y p.1) - y (p.1 + p.2)) (t, 0) := by
    intro t ht
    have h1 : ContDiffAt ℝ (n + 1 : ℕ) (fun p : ℝ × ℝ => (p.2, y p.1)) (t, 0) := by
      refine contDiffAt_snd.prodMk ?_
      exact ContDiffAt.comp (t, (0 : ℝ)) (f := Prod.fst) (g := y) (hy t ht) contDiffAt_fst
    have h2 : ContDiffAt ℝ (n + 1 : ℕ) (fun p : ℝ × ℝ => S (p.2, y p.1)) (t, 0) :=
      ContDiffAt.comp (t, (0 : ℝ)) (g := S) (hS t ht) h1
    have h3 : ContDiffAt ℝ (n + 1 : ℕ) (fun p : ℝ × ℝ => y (p.1 + p.2)) (t, 0) := by
      refine ContDiffAt.comp (t, (0 : ℝ)) (f := fun p : ℝ × ℝ => p.1 + p.2) (g := y) ?_
        (contDiffAt_fst.add contDiffAt_snd)
      simpa using hy t ht
    exact h2.sub h3
  obtain ⟨C1, r1, hC1, hr1, hloc⟩ := order_unif isCompact_Icc hGc hz
  have hS2 : ∀ t ∈ Set.Icc 0 T, ContDiffAt ℝ 2 S (0, y t) := fun t ht => (hS t ht).of_le (by
    have : (2 : ℕ) ≤ n + 1 := by omega
    exact (Nat.cast_le (α := WithTop ℕ∞)).2 this)
  obtain ⟨L, r2, hL, hr2, hlip⟩ := lip_unif isCompact_Icc (fun t ht => (hy t ht).continuousAt) hS2
  by_cases hT : 0 ≤ T
  swap
  · refine ⟨0, 1, one_pos, fun h hh _ x N _ hN => ?_⟩
    exfalso
    have : (0 : ℝ) ≤ N * h := by positivity
    linarith
  set Cg := C1 * T * Real.exp (L * T) with hCg
  have hCg0 : 0 ≤ Cg := by positivity
  refine ⟨Cg, min (min r1 r2) (min 1 (min r2 ρ / (Cg + 1))), by positivity, ?_⟩
  intro h hh hlt x N hx0 hN hx
  have hh1 : h < r1 := lt_of_lt_of_le hlt ((min_le_left _ _).trans (min_le_left _ _))
  have hh2 : h < r2 := lt_of_lt_of_le hlt ((min_le_left _ _).trans (min_le_right _ _))
  have hh3 : h < 1 := lt_of_lt_of_le hlt ((min_le_right _ _).trans (min_le_left _ _))
  have hh4 : h < min r2 ρ / (Cg + 1) := lt_of_lt_of_le hlt ((min_le_right _ _).trans (min_le_right _ _))
  have habs : |h| = h := abs_of_pos hh
  have hbound : ∀ k : ℕ, k ≤ N → C1 * h ^ (n + 1) * k * (1 + L * h) ^ k ≤ Cg * h ^ n := by
    intro k hk
    have hkT : k * h ≤ T := le_trans (by gcongr) hN
    have e1 : (1 + L * h) ^ k ≤ Real.exp (L * T) := by
      have : (1 + L * h) ^ k ≤ Real.exp (L * h) ^ k :=
        pow_le_pow_left₀ (by positivity) (by linarith [Real.add_one_le_exp (L * h)]) k
      refine this.trans ?_
      rw [← Real.exp_nat_mul]
      apply Real.exp_le_exp.2
      calc k * (L * h) = L * (k * h) := by ring
        _ ≤ L * T := by gcongr
    calc C1 * h ^ (n + 1) * k * (1 + L * h) ^ k = C1 * (k * h) * (1 + L * h) ^ k * h ^ n := by ring
      _ ≤ C1 * T * Real.exp (L * T) * h ^ n := by gcongr
  have hsmall : Cg * h ^ n < min r2 ρ := by
    have h1 : h ^ n ≤ h := by
      calc h ^ n ≤ h ^ 1 := pow_le_pow_of_le_one hh.le hh3.le hn
        _ = h := pow_one h
    have h2 : h * (Cg + 1) < min r2 ρ := (lt_div_iff₀ (by positivity)).1 hh4
    nlinarith
  have hind : ∀ k : ℕ, k ≤ N → ‖x k - y (k * h)‖ ≤ C1 * h ^ (n + 1) * k * (1 + L * h) ^ k := by
    intro k
    induction k with
    | zero => intro _; simp [hx0]
    | succ k ih =>
      intro hk
      have hk' : k ≤ N := by omega
      have hi := ih hk'
      obtain ⟨hxM', hxs⟩ := hx k (by omega)
      have hlt' := lt_of_le_of_lt (hi.trans (hbound k hk')) hsmall
      have hxM : x k ∈ M := hxM'.resolve_right (not_le.2 (hlt'.trans_le (min_le_right _ _)))
      have hkT : (k : ℝ) * h ∈ Set.Icc 0 T :=
        ⟨by positivity, le_trans (by gcongr) hN⟩
      have hd : dist (x k) (y (k * h)) < r2 := by
        rw [dist_eq_norm]; exact hlt'.trans_le (min_le_left _ _)
      have e1 := hlip _ hkT _ hd h (by rwa [habs])
      have e2 := hloc _ hkT h (by rwa [habs])
      dsimp only at e2
      rw [hM _ hxM, hM _ (hyM _ hkT), habs] at e1
      rw [habs] at e2
      have ek : ((k + 1 : ℕ) : ℝ) * h = k * h + h := by push_cast; ring
      rw [ek, hxs]
      have e3 : ‖S (h, x k) - y (k * h + h)‖ ≤ ‖x k - y (k * h)‖ + L * h * ‖x k - y (k * h)‖ + C1 * h ^ (n + 1) := by
        calc ‖S (h, x k) - y (k * h + h)‖
            = ‖(x k - y (k * h)) + ((S (h, x k) - x k) - (S (h, y (k * h)) - y (k * h))) +
              (S (h, y (k * h)) - y (k * h + h))‖ := by congr 1; abel
          _ ≤ _ := norm_add₃_le
          _ ≤ _ := by gcongr
      refine e3.trans ?_
      have hp : 1 ≤ (1 + L * h) ^ (k + 1) := one_le_pow₀ (by nlinarith)
      have hA : 0 ≤ C1 * h ^ (n + 1) := by positivity
      calc ‖x k - y (k * h)‖ + L * h * ‖x k - y (k * h)‖ + C1 * h ^ (n + 1)
          = (1 + L * h) * ‖x k - y (k * h)‖ + C1 * h ^ (n + 1) := by ring
        _ ≤ (1 + L * h) * (C1 * h ^ (n + 1) * k * (1 + L * h) ^ k) + C1 * h ^ (n + 1) * (1 + L * h) ^ (k + 1) := by
            have : 0 ≤ 1 + L * h := by positivity
            have h1 : C1 * h ^ (n + 1) ≤ C1 * h ^ (n + 1) * (1 + L * h) ^ (k + 1) := le_mul_of_one_le_right hA hp
            gcongr
        _ = C1 * h ^ (n + 1) * ((k + 1 : ℕ) : ℝ) * (1 + L * h) ^ (k + 1) := by push_cast; ring
  exact fun k hk => (hind k hk).trans (hbound k hk)

/-- A map that moves nothing along a curve at time zero moves little near the curve in a short time. -/
theorem tube {F : ℝ × E → E} {y : ℝ → E} {A : Set ℝ} (hA : IsCompact A) (hy : ∀ t ∈ A, ContinuousAt y t)
    (hF : ∀ t ∈ A, ContinuousAt F (0, y t)) (hF0 : ∀ t ∈ A, F (0, y t) = y t) {δ : ℝ} (hδ : 0 < δ) :
    ∃ r > 0, ∀ t ∈ A, ∀ x, dist x (y t) < r → ∀ h, |h| < r → dist (F (h, x)) (y t) < δ := by
  suffices H : ∃ r > 0, ∀ t ∈ A ∩ A, ∀ x, dist x (y t) < r → ∀ h, |h| < r → dist (F (h, x)) (y t) < δ by
    simpa using H
  refine hA.induction_on (p := fun s => ∃ r > 0, ∀ t ∈ s ∩ A, ∀ x, dist x (y t) < r → ∀ h, |h| < r →
    dist (F (h, x)) (y t) < δ) ?_ ?_ ?_ ?_
  · exact ⟨1, one_pos, by simp⟩
  · rintro s t hst ⟨r, hr, h⟩
    exact ⟨r, hr, fun x hx => h x ⟨hst hx.1, hx.2⟩⟩
  · rintro s t ⟨r, hr, h⟩ ⟨r', hr', h'⟩
    refine ⟨min r r', lt_min hr hr', ?_⟩
    rintro u ⟨hx | hx, hA⟩ x hxu k hk
    · exact h u ⟨hx, hA⟩ x (lt_of_lt_of_le hxu (min_le_left _ _)) k (lt_of_lt_of_le hk (min_le_left _ _))
    · exact h' u ⟨hx, hA⟩ x (lt_of_lt_of_le hxu (min_le_right _ _)) k (lt_of_lt_of_le hk (min_le_right _ _))
  · intro t0 ht0
    have h1 : ∀ᶠ p in 𝓝 ((0 : ℝ), y t0), dist (F p) (y t0) < δ / 2 := by
      have := (hF t0 ht0).tendsto
      rw [hF0 t0 ht0] at this
      exact this.eventually (Metric.ball_mem_nhds _ (by linarith))
    obtain ⟨r, hr, hb⟩ := Metric.eventually_nhds_iff_ball.1 h1
    have hev : ∀ᶠ t in 𝓝 t0, dist (y t) (y t0) < min (r / 2) (δ / 2) :=
      (hy t0 ht0).eventually (Metric.ball_mem_nhds _ (by positivity))
    refine ⟨_, mem_nhdsWithin_of_mem_nhds hev, r / 2, by linarith, ?_⟩
    rintro t ⟨ht, -⟩ x hx h hh
    have ht' : dist (y t) (y t0) < min (r / 2) (δ / 2) := ht
    have ht1 := ht'.trans_le (min_le_left _ _)
    have ht2 := ht'.trans_le (min_le_right _ _)
    have h2 := hb (h, x) (by
      rw [Metric.mem_ball, Prod.dist_eq, max_lt_iff, Real.dist_eq, sub_zero]
      exact ⟨by linarith, by linarith [dist_triangle x (y t) (y t0)]⟩)
    have h3 := dist_triangle (F (h, x)) (y t0) (y t)
    rw [dist_comm (y t0) (y t)] at h3
    linarith

end Adcs.Rk
