import Verif.Props.Readings
import Verif.Props.SampledTrack
import Verif.Proofs.HeldTrack

set_option autoImplicit false

/-! # C219: as the readings become exact, so does tracking -/

namespace Adcs

open Str Ctl Sens JDay Quat Vec Dyn
open scoped Matrix Topology

/-- Runs one after the other are a run, and smaller errors are errors. -/
theorem readRun_trans {c : RwController} {qc : V4} {δ δ' η η' H : ℝ} (hδ : δ' ≤ δ) (hη : η' ≤ η) {tr0 tr1 tr2 : Trigger}
    {st0 st1 st2 : SatState c.sat.rw.n} {t1 t2 : ℝ} {n1 n2 : ℕ} (h1 : Spec.ReadRun c qc δ η H tr0 st0 t1 tr1 st1 n1)
    (h2 : Spec.ReadRun c qc δ' η' H tr1 st1 t2 tr2 st2 n2) :
    Spec.ReadRun c qc δ η H tr0 st0 (t1 + t2) tr2 st2 (n1 + n2) := by
  have hi : ∀ {tr tr' : Trigger} {st : SatState c.sat.rw.n} {d : Raw c.sat.rw.n},
      Spec.ReadInstant c qc δ' η' H tr tr' st d → Spec.ReadInstant c qc δ η H tr tr' st d := by
    rintro tr tr' st d ⟨s, objs, law, c', a, F, T, ⟨e1, e2, e3⟩, e4, e5, e6, e7, e8, e9, e10, e11⟩
    exact ⟨s, objs, law, c', a, F, T, ⟨e1.trans hη, e2.trans hη, fun i => (e3 i).trans hη⟩, e4, e5, e6, e7, e8, e9,
      e10.trans hδ, e11⟩
  induction h2 with
  | start => rw [add_zero, add_zero]; exact h1
  | flow st T hT _ hc1 hc2 hd ih =>
    rw [← add_assoc]
    exact .flow st T hT ih hc1 hc2 fun τ hτ => by
      obtain ⟨d, e1, e2⟩ := hd τ hτ
      exact ⟨d, hi e1, e2⟩
  | switch _ hs hne ih => exact .switch ih (hi hs) hne

/-- A chain of runs, from one of its members to another. -/
theorem readRun_chain {c : RwController} {qc : V4} {δ η : ℕ → ℝ} {H a b : ℝ} {tr : ℕ → Trigger}
    {st : ℕ → SatState c.sat.rw.n} {t : ℕ → ℝ} {n : ℕ → ℕ} {K : ℕ} (hδ : ∀ k, K ≤ k → δ k ≤ a) (hη : ∀ k, K ≤ k → η k ≤ b)
    (hrun : ∀ k, Spec.ReadRun c qc (δ k) (η k) H (tr k) (st k) (t k) (tr (k + 1)) (st (k + 1)) (n k)) (m : ℕ) :
    Spec.ReadRun c qc a b H (tr K) (st K) (∑ i ∈ Finset.range m, t (K + i)) (tr (K + m)) (st (K + m))
      (∑ i ∈ Finset.range m, n (K + i)) := by
  induction m with
  | zero => exact .start
  | succ m ih =>
    rw [Finset.sum_range_succ, Finset.sum_range_succ]
    exact readRun_trans (hδ _ (by omega)) (hη _ (by omega)) ih (hrun (K + m))

/-- Bounds on the rate and on the error go together. -/
theorem trackError_rate {alpha E : ℝ} (ha : 0 ≤ alpha) {sgn : ℝ} {qc : V4} {n : ℕ} {st : SatState n}
    (h : Spec.trackError alpha sgn qc st ≤ E) : npNorm st.attrs.bodyAngVel ≤ √(2 * E) := by
  refine Real.le_sqrt_of_sq_le ?_
  unfold Spec.trackError at h
  have : 0 ≤ alpha * npNorm (st.attrs.attitude - sgn • qc) ^ 2 := by positivity
  rw [← dot_self3]
  linarith

/-- **C219**. For each controller there is a tolerance such that, when the errors of the readings stay within it and fade
away, as the estimate of a filter that converges does, and the disturbances fade away too, then the satellite comes to rest
in the commanded attitude, and the sign of the feedback does not switch any more after some time. -/
theorem C219_vanish (c : RwController) (ha : 0 < c.alpha) (hg : 0 < c.gamma) {mass : ℝ} {dims : V3} {ab cd : ℝ}
    (hb : Built c.sat mass dims ab cd) (hm : mass ≠ 0) (hw : UnlimitedWheels c.sat) {h : ℝ} (h0 : 0 < h) (h1 : h < 1)
    (M Δ H : ℝ) : ∃ η0 > 0, ∀ (qc : V4), npNorm qc = 1 → ∀ (δ η : ℕ → ℝ) (tr : ℕ → Trigger) (st : ℕ → SatState c.sat.rw.n)
      (t : ℕ → ℝ) (n : ℕ → ℕ), (∀ k, 0 ≤ δ k ∧ δ k ≤ Δ ∧ 0 ≤ η k ∧ η k ≤ η0) →
      Filter.Tendsto δ Filter.atTop (𝓝 0) → Filter.Tendsto η Filter.atTop (𝓝 0) → (tr 0).halfWidth = h →
      ((tr 0).memory = 1 ∨ (tr 0).memory = -1) → npNorm (st 0).attrs.attitude = 1 → npNorm (st 0).attrs.bodyAngVel ≤ M →
      (∀ k, Spec.ReadRun c qc (δ k) (η k) H (tr k) (st k) (t k) (tr (k + 1)) (st (k + 1)) (n k)) →
      Filter.Tendsto (fun k => ∑ i ∈ Finset.range k, t i) Filter.atTop Filter.atTop →
      Filter.Tendsto (fun k => Spec.trackError c.alpha (tr k).memory qc (st k)) Filter.atTop (𝓝 0) ∧
      ∃ K, ∀ k, K ≤ k → n k = 0 := by
  obtain ⟨η0, κ0, C0, hη0, hκ0, hC0, H0⟩ := C211_converges c ha hg hb hm hw h0 h1 M Δ H
  refine ⟨η0, hη0, fun qc hqc δ η tr st t n hse hδ hη hh hm0 hu hM hrun hT => ?_⟩
  have hc0 := fun k => H0 qc hqc Δ η0 ((hse 0).1.trans (hse 0).2.1) le_rfl hη0.le le_rfl _ _ _ _ _ _ hh hm0 hu hM
    (readRun_chain (K := 0) (fun k _ => (hse k).2.1) (fun k _ => (hse k).2.2.2) hrun k)
  simp only [zero_add] at hc0
  obtain ⟨E0, hE0⟩ : ∃ E, E = 3 * Spec.trackError c.alpha (tr 0).memory qc (st 0) + C0 * (Δ + η0) ^ 2 := ⟨_, rfl⟩
  have hnn : ∀ k, 0 ≤ Spec.trackError c.alpha (tr k).memory qc (st k) := fun k => by
    unfold Spec.trackError
    have := dot_self_nonneg3 (st k).attrs.bodyAngVel
    positivity
  have hbd : ∀ k, Spec.trackError c.alpha (tr k).memory qc (st k) ≤ E0 := fun k => by
    obtain ⟨e0, -, -, -, e4, -⟩ := hc0 k
    have hx := mul_le_of_le_one_right (hnn 0) (exp_le_one_of hκ0 e0)
    rw [hE0]
    unfold Spec.trackError at hx ⊢
    linarith
  obtain ⟨η1, κ, C, hη1, hκ, hC, H1⟩ := C211_converges c ha hg hb hm hw h0 h1 (√(2 * E0)) Δ H
  have hΔ : 0 ≤ Δ := (hse 0).1.trans (hse 0).2.1
  -- what holds from some member of the chain on
  have htail : ∀ ε, 0 < ε → ∃ K, ∀ L, K ≤ L → ∀ m, 0 ≤ ∑ i ∈ Finset.range m, t (L + i) ∧
      Spec.trackError c.alpha (tr (L + m)).memory qc (st (L + m)) ≤
        3 * Real.exp (-κ * ∑ i ∈ Finset.range m, t (L + i)) * Spec.trackError c.alpha (tr L).memory qc (st L)
          + C * (2 * ε) ^ 2 ∧
      (C * (2 * ε) ^ 2 ≤ c.alpha → c.alpha * min h (1 / 2) * (∑ i ∈ Finset.range m, n (L + i) : ℕ) ≤
        3 / 2 * Spec.trackError c.alpha (tr L).memory qc (st L) + C * (2 * ε) ^ 2) := by
    intro ε hε
    obtain ⟨K1, hK1⟩ := Filter.eventually_atTop.1 (hδ.eventually (Iio_mem_nhds hε))
    obtain ⟨K2, hK2⟩ := Filter.eventually_atTop.1 (hη.eventually (Iio_mem_nhds (lt_min hε hη1)))
    refine ⟨max K1 K2, fun L hL m => ?_⟩
    have hr := readRun_chain (K := L) (a := min ε Δ) (b := min ε η1)
      (fun k hk => le_min (hK1 k ((le_max_left _ _).trans (hL.trans hk))).le (hse k).2.1)
      (fun k hk => (hK2 k ((le_max_right _ _).trans (hL.trans hk))).le) hrun m
    obtain ⟨-, f1, f2, f3, -, -⟩ := hc0 L
    obtain ⟨g0, -, -, -, g4, g5⟩ := H1 qc hqc _ _ (le_min hε.le hΔ) (min_le_right _ _) (le_min hε.le hη1.le) (min_le_right _ _) _ _
      _ _ _ _ f2 f1 f3 (trackError_rate ha.le (hbd L)) hr
    have hle : C * (min ε Δ + min ε η1) ^ 2 ≤ C * (2 * ε) ^ 2 := by
      refine mul_le_mul_of_nonneg_left (pow_le_pow_left₀ (add_nonneg (le_min hε.le hΔ) (le_min hε.le hη1.le)) ?_ 2) hC
      linarith [min_le_left ε Δ, min_le_left ε η1]
    exact ⟨g0, g4.trans (by unfold Spec.trackError; linarith), fun hx => (g5 (hle.trans hx)).trans (by
      unfold Spec.trackError; linarith)⟩
  have hsmall : ∀ r, 0 < r → ∃ ε > 0, C * (2 * ε) ^ 2 < r := fun r hr => by
    refine ⟨√(r / (C + 1)) / 4, by positivity, ?_⟩
    have e : (2 * (√(r / (C + 1)) / 4)) ^ 2 = r / (C + 1) / 4 := by
      rw [mul_pow, div_pow, Real.sq_sqrt (by positivity)]; ring
    rw [e, div_div, mul_div_assoc', div_lt_iff₀ (by positivity)]
    nlinarith
  have hlim : Filter.Tendsto (fun k => Spec.trackError c.alpha (tr k).memory qc (st k)) Filter.atTop (𝓝 0) := by
    rw [Metric.tendsto_atTop]
    intro r hr
    obtain ⟨ε, hε, hεr⟩ := hsmall (r / 2) (by positivity)
    obtain ⟨K, hK⟩ := htail ε hε
    have hdec : Filter.Tendsto (fun k => 3 * Real.exp (-κ * (∑ i ∈ Finset.range k, t i - ∑ i ∈ Finset.range K, t i)) * E0)
        Filter.atTop (𝓝 (3 * 0 * E0)) := by
      refine (Filter.Tendsto.const_mul 3 (Real.tendsto_exp_atBot.comp ?_)).mul_const E0
      exact (Filter.tendsto_atTop_add_const_right _ (-∑ i ∈ Finset.range K, t i) hT).const_mul_atTop_of_neg (by linarith)
    rw [mul_zero, zero_mul] at hdec
    obtain ⟨N, hN⟩ := Filter.eventually_atTop.1 (hdec.eventually (Iio_mem_nhds (half_pos hr)))
    refine ⟨max K N, fun k hk => ?_⟩
    obtain ⟨m, rfl⟩ := Nat.exists_eq_add_of_le ((le_max_left K N).trans hk)
    obtain ⟨-, g, -⟩ := hK K le_rfl m
    have hx := hN _ ((le_max_right K N).trans hk)
    rw [Finset.sum_range_add, add_sub_cancel_left] at hx
    have hy : 3 * Real.exp (-κ * ∑ i ∈ Finset.range m, t (K + i)) * Spec.trackError c.alpha (tr K).memory qc (st K) ≤
        3 * Real.exp (-κ * ∑ i ∈ Finset.range m, t (K + i)) * E0 := mul_le_mul_of_nonneg_left (hbd K) (by positivity)
    rw [Real.dist_eq, sub_zero, abs_of_nonneg (hnn _)]
    linarith
  refine ⟨hlim, ?_⟩
  obtain ⟨μ, hμ⟩ : ∃ μ, μ = c.alpha * min h (1 / 2) := ⟨_, rfl⟩
  have hμ0 : 0 < μ := by rw [hμ]; exact mul_pos ha (lt_min h0 (by norm_num))
  have hμ1 : μ ≤ c.alpha := by
    rw [hμ]; exact mul_le_of_le_one_right ha.le ((min_le_right _ _).trans (by norm_num))
  obtain ⟨ε, hε, hεr⟩ := hsmall (μ / 2) (by positivity)
  obtain ⟨K, hK⟩ := htail ε hε
  obtain ⟨N, hN⟩ := Filter.eventually_atTop.1 (hlim.eventually (Iio_mem_nhds (by positivity : 0 < μ / 3)))
  refine ⟨max K N, fun k hk => ?_⟩
  obtain ⟨-, -, g⟩ := hK k ((le_max_left K N).trans hk) 1
  have hx := hN k ((le_max_right K N).trans hk)
  have g := g (by linarith)
  rw [← hμ, Finset.sum_range_one, add_zero] at g
  by_contra hne
  have h2 : (1 : ℝ) ≤ n k := by exact_mod_cast Nat.one_le_iff_ne_zero.2 hne
  have h3 := mul_le_mul_of_nonneg_left h2 hμ0.le
  linarith

/-- Such chains exist: from every state, for all constant errors of the gyro in each member within a tolerance. -/
theorem C219_exists (c : RwController) (ha : 0 < c.alpha) (hg : 0 < c.gamma) {mass : ℝ} {dims : V3} {ab cd : ℝ}
    (hb : Built c.sat mass dims ab cd) (hm : mass ≠ 0) (hw : UnlimitedWheels c.sat) (hav : c.objAvoidance = false)
    (s0 : Measurements c.sat.rw.n) (objs0 : List V3) (hobj : c.objects s0 = .ok objs0) {h : ℝ} (h0 : 0 < h) (h1 : h < 1)
    (M H : ℝ) : ∃ η0 > 0, ∀ (qc : V4), npNorm qc = 1 → ∀ (η t : ℕ → ℝ) (b : ℕ → V3),
      (∀ k, npNorm (b k) ≤ η k ∧ η k ≤ η0 ∧ 0 ≤ t k) →
      ∀ (tr0 : Trigger) (st0 : SatState c.sat.rw.n), tr0.halfWidth = h →
      (tr0.memory = 1 ∨ tr0.memory = -1) → npNorm st0.attrs.attitude = 1 → npNorm st0.attrs.bodyAngVel ≤ M →
      npNorm (c.sat.rw.momentum st0.attrs.wheelVel) ≤ H →
      ∃ (tr : ℕ → Trigger) (st : ℕ → SatState c.sat.rw.n) (n : ℕ → ℕ), tr 0 = tr0 ∧ st 0 = st0 ∧
        ∀ k, Spec.ReadRun c qc 0 (η k) H (tr k) (st k) (t k) (tr (k + 1)) (st (k + 1)) (n k) := by
  obtain ⟨η1, κ, C, hη1, hκ, hC, H1⟩ := C211_converges c ha hg hb hm hw h0 h1 M 0 H
  obtain ⟨E, hE⟩ : ∃ E, E = 3 * (M ^ 2 / 2 + c.alpha * 4) + C * (0 + η1) ^ 2 := ⟨_, rfl⟩
  obtain ⟨η2, hη2, H2⟩ := readRun_exists c ha hg hb hm hw hav s0 objs0 hobj h0 h1 (√(2 * E)) H
  refine ⟨min η1 η2, lt_min hη1 hη2, fun qc hqc η t b hs tr0 st0 hh hm0 hu hM hH => ?_⟩
  let P : Trigger × SatState c.sat.rw.n → Prop := fun x =>
    ∃ T n, Spec.ReadRun c qc 0 η1 H tr0 st0 T x.1 x.2 n ∧ x.2.attrs.wheelVel = st0.attrs.wheelVel
  have step : ∀ (k : ℕ) (x : { x // P x }), ∃ y : { x // P x } × ℕ,
      Spec.ReadRun c qc 0 (η k) H x.1.1 x.1.2 (t k) y.1.1.1 y.1.1.2 y.2 := by
    rintro k ⟨⟨tr, st⟩, T, m, hr, hwv⟩
    obtain ⟨hb1, hb2, ht⟩ := hs k
    obtain ⟨e0, e1, e2, e3, e4, -⟩ := H1 qc hqc 0 η1 le_rfl le_rfl hη1.le le_rfl _ _ _ _ _ _ hh hm0 hu hM hr
    have hrate : npNorm st.attrs.bodyAngVel ≤ √(2 * E) := by
      refine trackError_rate (alpha := c.alpha) (sgn := tr.memory) (qc := qc) ha.le (e4.trans ?_)
      have hM2 : st0.attrs.bodyAngVel ⬝ᵥ st0.attrs.bodyAngVel ≤ M ^ 2 := by
        rw [dot_self3]; exact pow_le_pow_left₀ (npNorm_nonneg _) hM 2
      have hq : npNorm (st0.attrs.attitude - tr0.memory • qc) ^ 2 ≤ 4 := by
        rw [quat_dist hm0 hu hqc]
        have hue := errorQuat_unit ((isUnit4_iff _).2 hu) ((isUnit4_iff _).2 hqc)
        have h4 := dot_self_nonneg3 (vecPart (errorQuat st0.attrs.attitude qc))
        rw [vecPart_unit hue] at h4
        have hs2 : tr0.memory ^ 2 = 1 := by rcases hm0 with h | h <;> rw [h] <;> norm_num
        have : (tr0.memory * errorQuat st0.attrs.attitude qc 0) ^ 2 ≤ 1 := by rw [mul_pow, hs2]; linarith
        linarith [(abs_le.1 ((sq_le_one_iff_abs_le_one _).1 this)).1]
      have hq' := mul_le_mul_of_nonneg_left hq ha.le
      have h00 : 0 ≤ st0.attrs.bodyAngVel ⬝ᵥ st0.attrs.bodyAngVel / 2
          + c.alpha * npNorm (st0.attrs.attitude - tr0.memory • qc) ^ 2 := by
        have := dot_self_nonneg3 st0.attrs.bodyAngVel
        positivity
      have hx := mul_le_of_le_one_right h00 (exp_le_one_of hκ e0)
      rw [hE]
      linarith
    obtain ⟨tr', st', n', hr', hwv'⟩ := H2 (η k) (b k) (hb2.trans (min_le_right _ _)) hb1 qc hqc tr st e2 e1 e3 hrate
      (by rw [hwv]; exact hH) (t k) ht
    exact ⟨⟨⟨(tr', st'), _, _, readRun_trans le_rfl (hb2.trans (min_le_left _ _)) hr hr', hwv'.trans hwv⟩, n'⟩, hr'⟩
  choose f hf using step
  let x : ℕ → { x // P x } := fun k => Nat.rec ⟨(tr0, st0), 0, 0, .start, rfl⟩ (fun k x => (f k x).1) k
  exact ⟨fun k => (x k).1.1, fun k => (x k).1.2, fun k => (f k (x k)).2, rfl, rfl, fun k => hf k (x k)⟩

/-- The hypotheses are met by a controller of the constructor with a gyro whose error is halved, divided by three and so on
from second to second: a tumble of 0.37 rad/s comes to rest in the commanded attitude. -/
example : ∃ (c : RwController) (η0 H : ℝ) (tr : ℕ → Trigger) (st : ℕ → SatState c.sat.rw.n) (n : ℕ → ℕ), 0 < η0 ∧
    (tr 0).halfWidth = 0.3 ∧ (st 0).attrs.bodyAngVel = ![0.1, 0.2, 0.3] ∧
    (∀ k : ℕ, Spec.ReadRun c ![0, 1, 0, 0] 0 (η0 / (k + 1)) H (tr k) (st k) 1 (tr (k + 1)) (st (k + 1)) (n k)) ∧
    Filter.Tendsto (fun k => Spec.trackError c.alpha (tr k).memory ![0, 1, 0, 0] (st k)) Filter.atTop (𝓝 0) := by
  obtain ⟨model, c, st, s, objs, hc, hb, hw, hav, hs, hobj, hn, hrate, -, -, -, hwh⟩ := exLoop ![0.1, 0.2, 0.3] 0 []
  obtain ⟨ha, hal, hga, hhw, hmem, -⟩ := C69_gains model 1 1 c hc
  have hM : npNorm st.attrs.bodyAngVel ≤ 1 := by
    rw [← hs.2.1, hrate]
    refine abs_le_of_sq_le_sq' ?_ zero_le_one |>.2
    rw [npNorm3_sq]
    norm_num
  have hu : npNorm st.attrs.attitude = 1 := by rw [← hs.1, hn]
  have hqc : npNorm (![0, 1, 0, 0] : V4) = 1 := npNorm_vec4 (by norm_num)
  have hg : 0 < c.gamma := by rw [hga]; norm_num
  obtain ⟨η1, hη1, h1⟩ := C219_exists { c with objAvoidance := false } ha hg hb (by norm_num) hw rfl s
    objs hobj (h := 0.3) (by norm_num) (by norm_num) 1 (npNorm (c.sat.rw.momentum st.attrs.wheelVel))
  obtain ⟨η2, hη2, h2⟩ := C219_vanish { c with objAvoidance := false } ha hg hb (by norm_num) hw
    (h := 0.3) (by norm_num) (by norm_num) 1 0 (npNorm (c.sat.rw.momentum st.attrs.wheelVel))
  obtain ⟨η, hη⟩ : ∃ η, η = min η1 η2 := ⟨_, rfl⟩
  have hη0 : 0 < η := by rw [hη]; exact lt_min hη1 hη2
  have hpos : ∀ k : ℕ, 0 < η / (k + 1) := fun k => by positivity
  have hle : ∀ k : ℕ, η / (k + 1) ≤ η := fun k =>
    div_le_self hη0.le (by have : (0 : ℝ) ≤ k := Nat.cast_nonneg k; linarith)
  obtain ⟨tr, st', n, e1, e2, e3⟩ := h1 _ hqc (fun k => η / (k + 1)) (fun _ => 1) (fun k => ![η / (k + 1), 0, 0])
    (fun k => ⟨by simp [npNorm, Fin.sum_univ_three, Real.sqrt_sq (hpos k).le],
      (hle k).trans (hη ▸ min_le_left _ _), zero_le_one⟩) c.trigger st hhw (.inl hmem) hu hM le_rfl
  refine ⟨{ c with objAvoidance := false }, η, npNorm (c.sat.rw.momentum st.attrs.wheelVel), tr, st', n, hη0, by rw [e1, hhw],
    by rw [e2, ← hs.2.1, hrate], e3, ?_⟩
  refine (h2 _ hqc (fun _ => 0) (fun k => η / (k + 1)) tr st' (fun _ => 1) n
    (fun k => ⟨le_rfl, le_rfl, (hpos k).le, (hle k).trans (hη ▸ min_le_right _ _)⟩) tendsto_const_nhds ?_ (by rw [e1, hhw])
    (.inl (by rw [e1, hmem])) (by rw [e2, hu]) (by rw [e2]; exact hM) e3 ?_).1
  · have := (tendsto_one_div_add_atTop_nhds_zero_nat (𝕜 := ℝ)).const_mul η
    simpa [div_eq_mul_inv] using this
  · simpa using tendsto_natCast_atTop_atTop (R := ℝ)

end Adcs
