import Verif.Proofs.Slew
import Mathlib.MeasureTheory.Integral.IntervalIntegral.FundThmCalculus
import Mathlib.Analysis.ODE.PicardLindelof

set_option autoImplicit false

/-! # Turns about one axis with a limited torque

`x` and `a` are the cosine and the sine of half the angle, `b` is the rate; the acceleration is `-sat m (alpha a + gamma b)`. -/

namespace Adcs

open Quat Vec
open scoped Matrix

/-- `u`, cut off at `m` and `-m`. -/
noncomputable def sat (m u : ℝ) : ℝ := max (-m) (min m u)

theorem sat_of_le {m u : ℝ} (h : |u| ≤ m) : sat m u = u := by
  obtain ⟨h1, h2⟩ := abs_le.1 h
  rw [sat, min_eq_right h2, max_eq_right h1]

theorem sat_of_ge {m u : ℝ} (hm : 0 ≤ m) (h : m ≤ u) : sat m u = m := by
  rw [sat, min_eq_left h, max_eq_right (by linarith)]

theorem sat_of_neg {m u : ℝ} (hm : 0 ≤ m) (h : u ≤ -m) : sat m u = -m := by
  rw [sat, min_eq_right (by linarith), max_eq_left h]

theorem sat_cases {m : ℝ} (hm : 0 ≤ m) (u : ℝ) :
    (|u| ≤ m ∧ sat m u = u) ∨ (m ≤ u ∧ sat m u = m) ∨ (u ≤ -m ∧ sat m u = -m) := by
  rcases le_or_gt |u| m with h | h
  · exact .inl ⟨h, sat_of_le h⟩
  · rcases lt_abs.1 h with h | h
    · exact .inr (.inl ⟨h.le, sat_of_ge hm h.le⟩)
    · exact .inr (.inr ⟨by linarith, sat_of_neg hm (by linarith)⟩)

theorem sat_neg {m : ℝ} (hm : 0 ≤ m) (u : ℝ) : sat m (-u) = -sat m u := by
  rcases sat_cases hm u with ⟨h, e⟩ | ⟨h, e⟩ | ⟨h, e⟩
  · rw [e, sat_of_le (by rwa [abs_neg])]
  · rw [e, sat_of_neg hm (by linarith)]
  · rw [e, sat_of_ge hm (by linarith), neg_neg]

theorem sat_mono (m : ℝ) : Monotone (sat m) := fun _ _ h => max_le_max le_rfl (min_le_min le_rfl h)

theorem sat_lip (m u v : ℝ) : |sat m u - sat m v| ≤ |u - v| := by
  unfold sat
  refine (abs_max_sub_max_le_max _ _ _ _).trans ?_
  rw [sub_self, abs_zero]
  refine max_le (abs_nonneg _) ((abs_min_sub_min_le_max _ _ _ _).trans ?_)
  rw [sub_self, abs_zero]
  exact max_le (abs_nonneg _) le_rfl

theorem sat_continuous (m : ℝ) : Continuous (sat m) := by unfold sat; fun_prop

theorem sat_abs {m : ℝ} (hm : 0 ≤ m) (u : ℝ) : |sat m u| ≤ m := by
  rcases sat_cases hm u with ⟨h, e⟩ | ⟨h, e⟩ | ⟨h, e⟩ <;> rw [e]
  · exact h
  · rw [abs_of_nonneg hm]
  · rw [abs_neg, abs_of_nonneg hm]

theorem abs_sat {m : ℝ} (hm : 0 ≤ m) (u : ℝ) : |sat m u| = min m |u| := by
  rcases sat_cases hm u with ⟨h, e⟩ | ⟨h, e⟩ | ⟨h, e⟩ <;> rw [e]
  · rw [min_eq_right h]
  · rw [abs_of_nonneg hm, min_eq_left (h.trans (le_abs_self _))]
  · rw [abs_neg, abs_of_nonneg hm, min_eq_left]
    have := neg_le_abs u
    linarith

/-- What the damping takes away. -/
theorem damp_facts {m gamma y b : ℝ} (hg : 0 ≤ gamma) :
    0 ≤ b * (sat m (y + gamma * b) - sat m y) ∧
    (sat m (y + gamma * b) - sat m y) ^ 2 ≤ gamma * (b * (sat m (y + gamma * b) - sat m y)) := by
  set d := sat m (y + gamma * b) - sat m y with hd
  have hl : |d| ≤ gamma * |b| := by
    have := sat_lip m (y + gamma * b) y
    rwa [add_sub_cancel_left, abs_mul, abs_of_nonneg hg] at this
  rcases le_total 0 b with hb | hb
  · have h0 : 0 ≤ d := sub_nonneg.2 (sat_mono m (by nlinarith))
    rw [abs_of_nonneg h0, abs_of_nonneg hb] at hl
    exact ⟨mul_nonneg hb h0, by nlinarith⟩
  · have h0 : d ≤ 0 := sub_nonpos.2 (sat_mono m (by nlinarith))
    rw [abs_of_nonpos h0, abs_of_nonpos hb] at hl
    exact ⟨mul_nonneg_of_nonpos_of_nonpos hb h0, by nlinarith⟩

theorem damp_near {m gamma B y b : ℝ} (hm : 0 < m) (hg : 0 ≤ gamma) (hB : 0 < B) (hy : |y| ≤ m / 2) (hb : |b| ≤ B) :
    min gamma (m / (2 * B)) * b ^ 2 ≤ b * (sat m (y + gamma * b) - sat m y) := by
  have key : ∀ y b : ℝ, |y| ≤ m / 2 → 0 ≤ b → b ≤ B →
      min gamma (m / (2 * B)) * b ^ 2 ≤ b * (sat m (y + gamma * b) - sat m y) := by
    intro y b hy h0 hb
    obtain ⟨y1, y2⟩ := abs_le.1 hy
    have hgb : 0 ≤ gamma * b := mul_nonneg hg h0
    rw [sat_of_le (u := y) (by linarith), pow_two, mul_left_comm]
    refine mul_le_mul_of_nonneg_left ?_ h0
    rcases le_total (y + gamma * b) m with h | h
    · rw [sat_of_le (abs_le.2 ⟨by linarith, h⟩), add_sub_cancel_left]
      exact mul_le_mul_of_nonneg_right (min_le_left _ _) h0
    · rw [sat_of_ge hm.le h]
      calc min gamma (m / (2 * B)) * b ≤ m / (2 * B) * B :=
            mul_le_mul (min_le_right _ _) hb h0 (by positivity)
        _ = m / 2 := by field_simp
        _ ≤ _ := by linarith
  rcases le_total 0 b with h | h
  · exact key y b hy h (by rwa [abs_of_nonneg h] at hb)
  · have := key (-y) (-b) (by rwa [abs_neg]) (by linarith) (by rwa [abs_of_nonpos h] at hb)
    rw [show -y + gamma * -b = -(y + gamma * b) by ring, sat_neg hm.le, sat_neg hm.le] at this
    linarith

/-! ## The cross term -/

theorem hasDerivAt_pos_sq (z : ℝ) : HasDerivAt (fun z : ℝ => (max 0 z) ^ 2) (2 * max 0 z) z := by
  rcases lt_trichotomy z 0 with h | h | h
  · rw [max_eq_left h.le, mul_zero]
    refine (hasDerivAt_const z (0 : ℝ)).congr_of_eventuallyEq ?_
    filter_upwards [Iio_mem_nhds h] with w hw
    rw [max_eq_left (le_of_lt hw)]; ring
  · subst h
    rw [max_self, mul_zero, hasDerivAt_iff_isLittleO]
    simp only [max_self, sub_zero, smul_zero, ne_eq, OfNat.ofNat_ne_zero, not_false_eq_true, zero_pow]
    have h1 : (fun z : ℝ => (max 0 z) ^ 2) =O[nhds 0] fun z => z ^ 2 := by
      refine Asymptotics.IsBigO.of_bound 1 (Filter.Eventually.of_forall fun z => ?_)
      rw [one_mul, Real.norm_eq_abs, Real.norm_eq_abs, abs_of_nonneg (sq_nonneg _), abs_of_nonneg (sq_nonneg _)]
      rcases le_total 0 z with h | h
      · rw [max_eq_right h]
      · rw [max_eq_left h]; nlinarith [sq_nonneg z]
    exact h1.trans_isLittleO (Asymptotics.isLittleO_pow_id (by norm_num))
  · rw [max_eq_right h.le]
    refine (((hasDerivAt_id z).pow 2).congr_deriv (by simp)).congr_of_eventuallyEq ?_
    filter_upwards [Ioi_mem_nhds h] with w hw
    rw [max_eq_right (le_of_lt hw)]; rfl

/-- `s - s^3 / (3 r^2)` with `s = sat r y`, written so that it can be differentiated. -/
noncomputable def bend (r y : ℝ) : ℝ :=
  y - y ^ 3 / (3 * r ^ 2) + (max 0 (y - r)) ^ 2 * (y + 2 * r) / (3 * r ^ 2)
    - (max 0 (-y - r)) ^ 2 * (-y + 2 * r) / (3 * r ^ 2)

theorem bend_eq {r : ℝ} (hr : 0 < r) (y : ℝ) : bend r y = sat r y - sat r y ^ 3 / (3 * r ^ 2) := by
  unfold bend
  rcases sat_cases hr.le y with ⟨h, e⟩ | ⟨h, e⟩ | ⟨h, e⟩ <;> rw [e]
  · obtain ⟨h1, h2⟩ := abs_le.1 h
    rw [max_eq_left (by linarith), max_eq_left (by linarith)]
    ring
  · rw [max_eq_right (by linarith), max_eq_left (by linarith)]
    field_simp
    ring
  · rw [max_eq_left (by linarith), max_eq_right (by linarith)]
    field_simp
    ring

theorem bend_deriv {r : ℝ} (hr : 0 < r) (y : ℝ) : HasDerivAt (bend r) (max 0 (1 - y ^ 2 / r ^ 2)) y := by
  have d0 : HasDerivAt (fun y : ℝ => y) 1 y := hasDerivAt_id y
  have dp : HasDerivAt (fun y : ℝ => (max 0 (y - r)) ^ 2) (2 * max 0 (y - r)) y := by
    have := (hasDerivAt_pos_sq (y - r)).comp y (d0.sub_const r)
    simpa [Function.comp_def] using this
  have dn : HasDerivAt (fun y : ℝ => (max 0 (-y - r)) ^ 2) (-(2 * max 0 (-y - r))) y := by
    have := (hasDerivAt_pos_sq (-y - r)).comp y (d0.fun_neg.sub_const r)
    simpa [Function.comp_def] using this
  have := ((d0.fun_sub ((d0.fun_pow 3).div_const (3 * r ^ 2))).fun_add
    ((dp.fun_mul (d0.add_const (2 * r))).div_const (3 * r ^ 2))).fun_sub
    ((dn.fun_mul (d0.fun_neg.add_const (2 * r))).div_const (3 * r ^ 2))
  refine this.congr_deriv ?_
  have hr2 : 0 < r ^ 2 := by positivity
  rcases le_total |y| r with h | h
  · obtain ⟨h1, h2⟩ := abs_le.1 h
    rw [max_eq_left (a := (0 : ℝ)) (b := y - r) (by linarith), max_eq_left (a := (0 : ℝ)) (b := -y - r) (by linarith), max_eq_right]
    · field_simp
      norm_num
      ring
    · rw [sub_nonneg, div_le_one hr2]; exact sq_le_sq' h1 h2
  · have h0 : max 0 (1 - y ^ 2 / r ^ 2) = 0 := by
      refine max_eq_left ?_
      rw [sub_nonpos, one_le_div hr2]
      rw [← sq_abs y]; exact pow_le_pow_left₀ hr.le h 2
    rw [h0]
    rcases le_abs.1 h with h | h
    · rw [max_eq_right (a := (0 : ℝ)) (b := y - r) (by linarith), max_eq_left (a := (0 : ℝ)) (b := -y - r) (by linarith)]
      field_simp
      norm_num
      ring
    · rw [max_eq_left (a := (0 : ℝ)) (b := y - r) (by linarith), max_eq_right (a := (0 : ℝ)) (b := -y - r) (by linarith)]
      field_simp
      norm_num
      ring

/-- Its size and its sign. -/
theorem bend_facts {r : ℝ} (hr : 0 < r) (y : ℝ) :
    ∃ k : ℝ, 2 / 3 ≤ k ∧ k ≤ 1 ∧ bend r y = k * sat r y := by
  have h := sat_abs hr.le y
  have h2 : sat r y ^ 2 ≤ r ^ 2 := by rw [← sq_abs]; exact pow_le_pow_left₀ (abs_nonneg _) h 2
  refine ⟨1 - sat r y ^ 2 / (3 * r ^ 2), ?_, ?_, ?_⟩
  · have : sat r y ^ 2 / (3 * r ^ 2) ≤ 1 / 3 := by
      rw [div_le_div_iff₀ (by positivity) (by norm_num)]; linarith
    linarith
  · have : 0 ≤ sat r y ^ 2 / (3 * r ^ 2) := by positivity
    linarith
  · rw [bend_eq hr]; ring

/-! ## The potential -/

/-- The slope of the potential over the cosine. -/
noncomputable def potSlope (alpha m v : ℝ) : ℝ := 2 * alpha * m / max m (alpha * √(1 - v ^ 2))

/-- The work to be done against the limited torque. -/
noncomputable def pot (alpha m x : ℝ) : ℝ := ∫ v in x..1, potSlope alpha m v

section
variable {alpha gamma m : ℝ}

theorem potSlope_cont (hm : 0 < m) : Continuous (potSlope alpha m) := by
  unfold potSlope
  refine continuous_const.div (by fun_prop) fun v => ?_
  exact (lt_of_lt_of_le hm (le_max_left _ _)).ne'

theorem potSlope_bounds (ha : 0 < alpha) (hm : 0 < m) (v : ℝ) :
    2 * alpha * m / max m alpha ≤ potSlope alpha m v ∧ potSlope alpha m v ≤ 2 * alpha := by
  unfold potSlope
  have hs : √(1 - v ^ 2) ≤ 1 := by
    rw [Real.sqrt_le_one]; linarith [sq_nonneg v]
  constructor
  · have h1 : max m (alpha * √(1 - v ^ 2)) ≤ max m alpha := max_le_max le_rfl (by nlinarith)
    exact div_le_div_of_nonneg_left (by positivity) (lt_of_lt_of_le hm (le_max_left _ _)) h1
  · rw [div_le_iff₀ (lt_of_lt_of_le hm (le_max_left _ _))]
    exact mul_le_mul_of_nonneg_left (le_max_left _ _) (by positivity)

theorem pot_deriv (hm : 0 < m) (x : ℝ) : HasDerivAt (pot alpha m) (-potSlope alpha m x) x := by
  have hc := potSlope_cont (alpha := alpha) hm
  exact intervalIntegral.integral_hasDerivAt_left (hc.intervalIntegrable _ _) (hc.stronglyMeasurableAtFilter _ _)
    hc.continuousAt

theorem pot_bounds (ha : 0 < alpha) (hm : 0 < m) {x : ℝ} (hx : x ≤ 1) :
    2 * alpha * m / max m alpha * (1 - x) ≤ pot alpha m x ∧ pot alpha m x ≤ 2 * alpha * (1 - x) := by
  have hc := potSlope_cont (alpha := alpha) hm
  constructor
  · have := intervalIntegral.integral_mono_on (μ := MeasureTheory.volume) hx (f := fun _ => 2 * alpha * m / max m alpha)
      (continuous_const.intervalIntegrable _ _) (hc.intervalIntegrable _ _) fun v _ => (potSlope_bounds ha hm v).1
    rw [intervalIntegral.integral_const, smul_eq_mul, mul_comm] at this
    exact this
  · have := intervalIntegral.integral_mono_on (μ := MeasureTheory.volume) hx (g := fun _ => 2 * alpha)
      (hc.intervalIntegrable _ _) (continuous_const.intervalIntegrable _ _) fun v _ => (potSlope_bounds ha hm v).2
    rw [intervalIntegral.integral_const, smul_eq_mul, mul_comm] at this
    exact this

theorem pot_anti (ha : 0 < alpha) (hm : 0 < m) : StrictAnti (pot alpha m) := by
  refine strictAnti_of_deriv_neg fun x => ?_
  rw [(pot_deriv hm x).deriv, neg_lt_zero]
  exact lt_of_lt_of_le (div_pos (by positivity) (lt_of_lt_of_le hm (le_max_left _ _))) (potSlope_bounds ha hm x).1

theorem pot_slope_sine (ha : 0 < alpha) (hm : 0 < m) {x a : ℝ} (h : x ^ 2 + a ^ 2 = 1) :
    potSlope alpha m x * (0.5 * a) = sat m (alpha * a) := by
  unfold potSlope
  rw [show 1 - x ^ 2 = a ^ 2 by linarith, Real.sqrt_sq_eq_abs]
  rcases sat_cases hm.le (alpha * a) with ⟨h, e⟩ | ⟨h, e⟩ | ⟨h, e⟩ <;> rw [e]
  · rw [abs_mul, abs_of_pos ha] at h
    rw [max_eq_left h]
    field_simp
    norm_num
  · have ha0 : 0 < a := by
      by_contra hn
      have := mul_nonneg_of_nonpos_of_nonpos (neg_nonpos.2 ha.le) (not_lt.1 hn)
      linarith
    rw [abs_of_pos ha0, max_eq_right h]
    field_simp
    norm_num
  · have ha0 : a < 0 := by
      by_contra hn
      have := mul_nonneg ha.le (not_lt.1 hn)
      linarith
    rw [abs_of_neg ha0, max_eq_right (by linarith)]
    have : a ≠ 0 := ha0.ne
    field_simp
    norm_num

/-- A turn about one axis with a limited torque. -/
structure SatFlow (alpha gamma m : ℝ) (x a b : ℝ → ℝ) (T : ℝ) : Prop where
  contX : ContinuousOn x (Set.Icc 0 T)
  contA : ContinuousOn a (Set.Icc 0 T)
  contB : ContinuousOn b (Set.Icc 0 T)
  unit : ∀ t ∈ Set.Icc 0 T, x t ^ 2 + a t ^ 2 = 1
  derivX : ∀ t ∈ Set.Ico 0 T, HasDerivAt x (-0.5 * (a t * b t)) t
  derivA : ∀ t ∈ Set.Ico 0 T, HasDerivAt a (0.5 * (x t * b t)) t
  derivB : ∀ t ∈ Set.Ico 0 T, HasDerivAt b (-sat m (alpha * a t + gamma * b t)) t

/-- The energy of the turn. -/
noncomputable def slewV (alpha m x b : ℝ) : ℝ := b ^ 2 / 2 + pot alpha m x

/-- The energy with the cross term. -/
noncomputable def slewW (alpha m d x a b : ℝ) : ℝ := slewV alpha m x b + d * (b * bend (m / 2) (alpha * a))

theorem SatFlow.derivV (ha : 0 < alpha) (hm : 0 < m) {x a b : ℝ → ℝ} {T : ℝ}
    (h : SatFlow alpha gamma m x a b T) {t : ℝ} (ht : t ∈ Set.Ico 0 T) :
    HasDerivAt (fun t => slewV alpha m (x t) (b t))
      (-(b t * (sat m (alpha * a t + gamma * b t) - sat m (alpha * a t)))) t := by
  have h1 := ((h.derivB t ht).fun_pow 2).div_const 2
  have h2 := (pot_deriv (alpha := alpha) hm (x t)).comp t (h.derivX t ht)
  refine (h1.fun_add h2).congr_deriv ?_
  rw [← pot_slope_sine ha hm (h.unit t ⟨ht.1, ht.2.le⟩)]
  push_cast
  ring

theorem SatFlow.derivCross (hm : 0 < m) {x a b : ℝ → ℝ} {T : ℝ}
    (h : SatFlow alpha gamma m x a b T) {t : ℝ} (ht : t ∈ Set.Ico 0 T) :
    HasDerivAt (fun t => b t * bend (m / 2) (alpha * a t))
      (-sat m (alpha * a t + gamma * b t) * bend (m / 2) (alpha * a t)
        + 0.5 * alpha * x t * max 0 (1 - (alpha * a t) ^ 2 / (m / 2) ^ 2) * b t ^ 2) t := by
  have h2 := (bend_deriv (r := m / 2) (by positivity) (alpha * a t)).comp t ((h.derivA t ht).const_mul alpha)
  refine ((h.derivB t ht).fun_mul h2).congr_deriv ?_
  simp only [Function.comp]
  ring

/-- The cross term gives what the damping lacks. -/
theorem cross_rate (ha : 0 < alpha) (hg : 0 < gamma) (hm : 0 < m) {B : ℝ} (hB : 0 < B) {x a b : ℝ} (hx : x ≤ 1)
    (hb : |b| ≤ B) :
    -sat m (alpha * a + gamma * b) * bend (m / 2) (alpha * a)
        + 0.5 * alpha * x * max 0 (1 - (alpha * a) ^ 2 / (m / 2) ^ 2) * b ^ 2
      ≤ -(bend (m / 2) (alpha * a) ^ 2 / 2) + (gamma / 2 + alpha / (2 * min gamma (m / (2 * B)))) *
        (b * (sat m (alpha * a + gamma * b) - sat m (alpha * a))) := by
  set y := alpha * a with hy
  obtain ⟨d0, d1⟩ := damp_facts (m := m) (y := y) (b := b) hg.le
  set d := sat m (y + gamma * b) - sat m y with hd
  have hc : 0 < min gamma (m / (2 * B)) := lt_min hg (by positivity)
  obtain ⟨k, k1, k2, hk⟩ := bend_facts (r := m / 2) (by positivity) y
  set sg := bend (m / 2) y with hsg
  -- `sat y` and `sg` have the same sign, and `sat y` is the larger
  have h1 : sg ^ 2 ≤ sat m y * sg := by
    have hs : 0 ≤ sat (m / 2) y * (sat m y - sat (m / 2) y) := by
      rcases sat_cases (m := m / 2) (by positivity) y with ⟨h, e⟩ | ⟨h, e⟩ | ⟨h, e⟩ <;> rw [e]
      · rw [sat_of_le (by linarith), sub_self, mul_zero]
      · have := sat_mono m h
        rw [sat_of_le (u := m / 2) (by rw [abs_of_pos (by positivity)]; linarith)] at this
        exact mul_nonneg (by positivity) (by linarith)
      · have := sat_mono m h
        rw [sat_of_le (u := -(m / 2)) (by rw [abs_neg, abs_of_pos (by positivity)]; linarith)] at this
        exact mul_nonneg_of_nonpos_of_nonpos (by linarith) (by linarith)
    rw [hk]
    have e : sat m y * (k * sat (m / 2) y) - (k * sat (m / 2) y) ^ 2 =
        k * (sat (m / 2) y * (sat m y - sat (m / 2) y)) + k * (1 - k) * sat (m / 2) y ^ 2 := by ring
    have : 0 ≤ k * (sat (m / 2) y * (sat m y - sat (m / 2) y)) + k * (1 - k) * sat (m / 2) y ^ 2 :=
      add_nonneg (mul_nonneg (by linarith) hs) (mul_nonneg (mul_nonneg (by linarith) (by linarith)) (sq_nonneg _))
    linarith
  have h2 : -(d * sg) ≤ sg ^ 2 / 2 + gamma / 2 * (b * d) := by nlinarith [sq_nonneg (d + sg)]
  have h3 : -sat m (y + gamma * b) * sg = -(sat m y * sg) - d * sg := by rw [hd]; ring
  -- the other part
  have h4 : 0.5 * alpha * x * max 0 (1 - y ^ 2 / (m / 2) ^ 2) * b ^ 2 ≤ alpha / (2 * min gamma (m / (2 * B))) * (b * d) := by
    rcases le_total |y| (m / 2) with h | h
    · have hn := damp_near hm hg.le hB h hb
      set q := max 0 (1 - y ^ 2 / (m / 2) ^ 2) with hq
      have q0 : 0 ≤ q := le_max_left _ _
      have q1 : q ≤ 1 := max_le zero_le_one (by have : 0 ≤ y ^ 2 / (m / 2) ^ 2 := by positivity
                                                linarith)
      have hxq : x * q ≤ 1 := by nlinarith
      calc 0.5 * alpha * x * q * b ^ 2 = 0.5 * alpha * (x * q) * b ^ 2 := by ring
        _ ≤ 0.5 * alpha * 1 * b ^ 2 := by gcongr
        _ = alpha / (2 * min gamma (m / (2 * B))) * (min gamma (m / (2 * B)) * b ^ 2) := by field_simp; norm_num; ring
        _ ≤ _ := mul_le_mul_of_nonneg_left hn (by positivity)
    · have : max 0 (1 - y ^ 2 / (m / 2) ^ 2) = 0 := by
        refine max_eq_left ?_
        rw [sub_nonpos, one_le_div (by positivity), ← sq_abs y]
        exact pow_le_pow_left₀ (by positivity) h 2
      rw [this, mul_zero, zero_mul]
      positivity
  rw [h3]
  linarith

theorem bend_size (ha : 0 < alpha) (hm : 0 < m) (a : ℝ) :
    ∃ k : ℝ, 2 / 3 ≤ k ∧ k ≤ 1 ∧ |bend (m / 2) (alpha * a)| = k * min (m / 2) (alpha * |a|) := by
  obtain ⟨k, k1, k2, hk⟩ := bend_facts (r := m / 2) (by positivity) (alpha * a)
  refine ⟨k, k1, k2, ?_⟩
  rw [hk, abs_mul, abs_of_nonneg (by linarith), abs_sat (by positivity), abs_mul, abs_of_pos ha]

theorem bend_sizes (ha : 0 < alpha) (hm : 0 < m) {a : ℝ} (ha1 : |a| ≤ 1) :
    bend (m / 2) (alpha * a) ^ 2 ≤ alpha ^ 2 * a ^ 2 ∧
    (2 / 3 * min 1 (m / (2 * alpha)) * alpha) ^ 2 * a ^ 2 ≤ bend (m / 2) (alpha * a) ^ 2 := by
  obtain ⟨k, k1, k2, hsz⟩ := bend_size ha hm a
  obtain ⟨s, hs⟩ : ∃ s, s = bend (m / 2) (alpha * a) := ⟨_, rfl⟩
  rw [← hs] at hsz ⊢
  have hm0 : 0 ≤ min (m / 2) (alpha * |a|) := le_min (by positivity) (by positivity)
  have h0 : 0 < min 1 (m / (2 * alpha)) := lt_min one_pos (by positivity)
  have s_up : |s| ≤ alpha * |a| := by
    rw [hsz]
    calc k * min (m / 2) (alpha * |a|) ≤ 1 * (alpha * |a|) := mul_le_mul k2 (min_le_right _ _) hm0 zero_le_one
      _ = _ := one_mul _
  have s_low : 2 / 3 * min 1 (m / (2 * alpha)) * alpha * |a| ≤ |s| := by
    rw [hsz]
    have h1 : min 1 (m / (2 * alpha)) * (alpha * |a|) ≤ min (m / 2) (alpha * |a|) := by
      refine le_min ?_ ?_
      · calc min 1 (m / (2 * alpha)) * (alpha * |a|) ≤ m / (2 * alpha) * (alpha * 1) :=
              mul_le_mul (min_le_right _ _) (by gcongr) (by positivity) (by positivity)
          _ = m / 2 := by field_simp
      · calc min 1 (m / (2 * alpha)) * (alpha * |a|) ≤ 1 * (alpha * |a|) :=
              mul_le_mul_of_nonneg_right (min_le_left _ _) (by positivity)
          _ = _ := one_mul _
    calc 2 / 3 * min 1 (m / (2 * alpha)) * alpha * |a| = 2 / 3 * (min 1 (m / (2 * alpha)) * (alpha * |a|)) := by ring
      _ ≤ k * min (m / 2) (alpha * |a|) := mul_le_mul k1 h1 (by positivity) (by linarith)
  constructor
  · rw [← sq_abs s, ← sq_abs a, ← mul_pow]; exact pow_le_pow_left₀ (abs_nonneg _) s_up 2
  · rw [← sq_abs s, ← sq_abs a, ← mul_pow]; exact pow_le_pow_left₀ (by positivity) s_low 2

theorem rate_size (ha : 0 < alpha) (hg : 0 < gamma) (hm : 0 < m) {B : ℝ} (hB : 0 < B) {a b : ℝ} (hb : |b| ≤ B) :
    b ^ 2 ≤ (1 / min gamma (m / (2 * B)) + 9 * B ^ 2 / m ^ 2) *
      (b * (sat m (alpha * a + gamma * b) - sat m (alpha * a)) + bend (m / 2) (alpha * a) ^ 2) := by
  obtain ⟨k, k1, k2, hsz⟩ := bend_size ha hm a
  have hnear := fun h => damp_near (m := m) (y := alpha * a) hm hg.le hB h hb
  have D0 := (damp_facts (m := m) (y := alpha * a) (b := b) hg.le).1
  have hc0 : 0 < min gamma (m / (2 * B)) := lt_min hg (by positivity)
  obtain ⟨s, hs⟩ : ∃ s, s = bend (m / 2) (alpha * a) := ⟨_, rfl⟩
  obtain ⟨D, hD⟩ : ∃ D, D = b * (sat m (alpha * a + gamma * b) - sat m (alpha * a)) := ⟨_, rfl⟩
  obtain ⟨c, hc⟩ : ∃ c, c = min gamma (m / (2 * B)) := ⟨_, rfl⟩
  rw [← hc] at hc0 hnear
  rw [← hs] at hsz
  rw [← hD] at D0 hnear
  rw [← hs, ← hD, ← hc]
  have e : (1 / c + 9 * B ^ 2 / m ^ 2) * (D + s ^ 2) =
      D / c + s ^ 2 / c + 9 * B ^ 2 / m ^ 2 * D + 9 * B ^ 2 / m ^ 2 * s ^ 2 := by ring
  have t1 : 0 ≤ D / c := by positivity
  have t2 : 0 ≤ s ^ 2 / c := by positivity
  have t3 : 0 ≤ 9 * B ^ 2 / m ^ 2 * D := by positivity
  have t4 : 0 ≤ 9 * B ^ 2 / m ^ 2 * s ^ 2 := by positivity
  rw [e]
  rcases le_total |alpha * a| (m / 2) with h | h
  · have : b ^ 2 ≤ D / c := by rw [le_div_iff₀ hc0]; linarith [hnear h]
    linarith
  · have h1 : m / 3 ≤ |s| := by
      rw [abs_mul, abs_of_pos ha] at h
      rw [hsz, min_eq_left h]
      nlinarith
    have h2 : (m / 3) ^ 2 ≤ s ^ 2 := by rw [← sq_abs s]; exact pow_le_pow_left₀ (by positivity) h1 2
    have h3 : b ^ 2 ≤ B ^ 2 := by rw [← sq_abs b]; exact pow_le_pow_left₀ (abs_nonneg _) hb 2
    have h4 : B ^ 2 ≤ 9 * B ^ 2 / m ^ 2 * s ^ 2 := by
      calc B ^ 2 = 9 * B ^ 2 / m ^ 2 * (m / 3) ^ 2 := by field_simp; norm_num
        _ ≤ _ := mul_le_mul_of_nonneg_left h2 (by positivity)
    linarith

theorem cos_sine {x a : ℝ} (hu : x ^ 2 + a ^ 2 = 1) (hx : -0.3 ≤ x) : 0.7 * (1 - x) ≤ a ^ 2 ∧ a ^ 2 ≤ 2 * (1 - x) := by
  have h1 : x ≤ 1 := by nlinarith [sq_nonneg a]
  constructor
  · norm_num at hx ⊢; nlinarith
  · nlinarith

theorem pot_sizes {P x a s c g K3 K4 : ℝ} (ha : 0 < alpha) (hc : 0 < c) (hg : 0 < g) (h3 : K3 = 3 * alpha / c ^ 2)
    (h4 : K4 = 2 * alpha ^ 2 / g) (hx1 : x ≤ 1) (hxa : 0.7 * (1 - x) ≤ a ^ 2) (h1 : a ^ 2 ≤ 2 * (1 - x))
    (p1 : g * (1 - x) ≤ P) (p2 : P ≤ 2 * alpha * (1 - x)) (up : s ^ 2 ≤ alpha ^ 2 * a ^ 2) (low : c ^ 2 * a ^ 2 ≤ s ^ 2) :
    P ≤ K3 * s ^ 2 ∧ s ^ 2 ≤ K4 * P ∧ 0 ≤ P := by
  refine ⟨?_, ?_, le_trans (mul_nonneg hg.le (by linarith)) p1⟩
  · have h1 : P ≤ 3 * alpha * a ^ 2 := by
      have := mul_le_mul_of_nonneg_left hxa ha.le
      have := mul_nonneg ha.le (sq_nonneg a)
      linarith
    calc P ≤ 3 * alpha * a ^ 2 := h1
      _ = K3 * (c ^ 2 * a ^ 2) := by rw [h3]; field_simp
      _ ≤ _ := mul_le_mul_of_nonneg_left low (by rw [h3]; positivity)
  · calc s ^ 2 ≤ alpha ^ 2 * a ^ 2 := up
      _ ≤ alpha ^ 2 * (2 * (1 - x)) := by gcongr
      _ = K4 * (g * (1 - x)) := by rw [h4]; field_simp
      _ ≤ _ := mul_le_mul_of_nonneg_left p1 (by rw [h4]; positivity)

theorem slew_algebra {d K K2 K3 K4 K5 D X' P s b : ℝ} (hd0 : 0 < d) (hdK : d * K ≤ 1 / 2) (hd2 : d ≤ 1 / 2)
    (hdK4 : d * K4 ≤ 1) (hK50 : 0 < K5) (hK5 : K5 = K2 + K3 + 1) (hK30 : 0 ≤ K3) (D0 : 0 ≤ D)
    (hb2 : b ^ 2 ≤ K2 * (D + s ^ 2)) (hP3 : P ≤ K3 * s ^ 2) (hs4 : s ^ 2 ≤ K4 * P) (hP0 : 0 ≤ P)
    (hcr : X' ≤ -(s ^ 2 / 2) + K * D) :
    -D + d * X' ≤ -(d / (2 * K5)) * (b ^ 2 / 2 + P + d * (b * s)) ∧
      (b ^ 2 / 2 + P) / 2 ≤ b ^ 2 / 2 + P + d * (b * s) := by
  have hbs1 : b * s ≤ (b ^ 2 + s ^ 2) / 2 := by nlinarith [sq_nonneg (b - s)]
  have hbs2 : -(b * s) ≤ (b ^ 2 + s ^ 2) / 2 := by nlinarith [sq_nonneg (b + s)]
  constructor
  · have hW : b ^ 2 / 2 + P + d * (b * s) ≤ K5 * (D + s ^ 2) := by
      have h1 : d * (b * s) ≤ d * ((b ^ 2 + s ^ 2) / 2) := mul_le_mul_of_nonneg_left hbs1 hd0.le
      have h2 : d * ((b ^ 2 + s ^ 2) / 2) ≤ 1 / 2 * ((b ^ 2 + s ^ 2) / 2) :=
        mul_le_mul_of_nonneg_right hd2 (by positivity)
      have h3 : K5 * (D + s ^ 2) = K2 * (D + s ^ 2) + K3 * s ^ 2 + K3 * D + D + s ^ 2 := by rw [hK5]; ring
      have h4 : 0 ≤ K3 * D := mul_nonneg hK30 D0
      have h5 := sq_nonneg s
      have h6 := sq_nonneg b
      linarith
    have h1 : d * X' ≤ d * (-(s ^ 2 / 2) + K * D) := mul_le_mul_of_nonneg_left hcr hd0.le
    have h2 : d * K * D ≤ 1 / 2 * D := mul_le_mul_of_nonneg_right hdK D0
    have h3 : -D + d * X' ≤ -(D / 2) - d * s ^ 2 / 2 := by linarith
    have h4 : d / (2 * K5) * (b ^ 2 / 2 + P + d * (b * s)) ≤ d / (2 * K5) * (K5 * (D + s ^ 2)) :=
      mul_le_mul_of_nonneg_left hW (by positivity)
    have h5 : d / (2 * K5) * (K5 * (D + s ^ 2)) = d / 2 * D + d * s ^ 2 / 2 := by field_simp
    have h6 : d / 2 * D ≤ D / 2 := by nlinarith
    linarith
  · have h1 : d * (-(b * s)) ≤ d * ((b ^ 2 + s ^ 2) / 2) := mul_le_mul_of_nonneg_left hbs2 hd0.le
    have h2 : d * b ^ 2 ≤ 1 / 2 * b ^ 2 := mul_le_mul_of_nonneg_right hd2 (sq_nonneg _)
    have h3 : d * s ^ 2 ≤ d * (K4 * P) := mul_le_mul_of_nonneg_left hs4 hd0.le
    have h4 : d * K4 * P ≤ 1 * P := mul_le_mul_of_nonneg_right hdK4 hP0
    linarith

/-- The energy with the cross term falls at a rate proportional to itself. -/
theorem slew_rate (ha : 0 < alpha) (hg : 0 < gamma) (hm : 0 < m) {B : ℝ} (hB : 0 < B) :
    ∃ d > 0, ∃ κ > 0, ∀ x a b : ℝ, x ^ 2 + a ^ 2 = 1 → -0.3 ≤ x → |b| ≤ B →
      -(b * (sat m (alpha * a + gamma * b) - sat m (alpha * a))) +
        d * (-sat m (alpha * a + gamma * b) * bend (m / 2) (alpha * a)
          + 0.5 * alpha * x * max 0 (1 - (alpha * a) ^ 2 / (m / 2) ^ 2) * b ^ 2) ≤ -κ * slewW alpha m d x a b ∧
      slewV alpha m x b / 2 ≤ slewW alpha m d x a b := by
  obtain ⟨c, hc⟩ : ∃ c, c = min gamma (m / (2 * B)) := ⟨_, rfl⟩
  have hc0 : 0 < c := by rw [hc]; exact lt_min hg (by positivity)
  obtain ⟨K, hK⟩ : ∃ K, K = gamma / 2 + alpha / (2 * c) := ⟨_, rfl⟩
  have hK0 : 0 < K := by rw [hK]; positivity
  obtain ⟨K2, hK2⟩ : ∃ K, K = 1 / c + 9 * B ^ 2 / m ^ 2 := ⟨_, rfl⟩
  have hK20 : 0 < K2 := by rw [hK2]; positivity
  obtain ⟨c1, hc1⟩ : ∃ c, c = 2 / 3 * min 1 (m / (2 * alpha)) := ⟨_, rfl⟩
  have hc10 : 0 < c1 := by
    rw [hc1]
    have : 0 < min 1 (m / (2 * alpha)) := lt_min one_pos (by positivity)
    positivity
  obtain ⟨K3, hK3⟩ : ∃ K, K = 3 * alpha / (c1 * alpha) ^ 2 := ⟨_, rfl⟩
  have hK30 : 0 < K3 := by rw [hK3]; positivity
  obtain ⟨g, hgm⟩ : ∃ g, g = 2 * alpha * m / max m alpha := ⟨_, rfl⟩
  have hg0 : 0 < g := by rw [hgm]; exact div_pos (by positivity) (lt_of_lt_of_le hm (le_max_left _ _))
  obtain ⟨K4, hK4⟩ : ∃ K, K = 2 * alpha ^ 2 / g := ⟨_, rfl⟩
  have hK40 : 0 < K4 := by rw [hK4]; positivity
  obtain ⟨d, hd⟩ : ∃ d, d = min (1 / (2 * K)) (min (1 / 2) (1 / K4)) := ⟨_, rfl⟩
  have hd0 : 0 < d := by rw [hd]; exact lt_min (by positivity) (lt_min (by norm_num) (by positivity))
  have hdK : d * K ≤ 1 / 2 := by
    have : d ≤ 1 / (2 * K) := by rw [hd]; exact min_le_left _ _
    calc d * K ≤ 1 / (2 * K) * K := mul_le_mul_of_nonneg_right this hK0.le
      _ = 1 / 2 := by field_simp
  have hd2 : d ≤ 1 / 2 := by rw [hd]; exact (min_le_right _ _).trans (min_le_left _ _)
  have hdK4 : d * K4 ≤ 1 := by
    have : d ≤ 1 / K4 := by rw [hd]; exact (min_le_right _ _).trans (min_le_right _ _)
    calc d * K4 ≤ 1 / K4 * K4 := mul_le_mul_of_nonneg_right this hK40.le
      _ = 1 := by field_simp
  obtain ⟨K5, hK5⟩ : ∃ K, K = K2 + K3 + 1 := ⟨_, rfl⟩
  have hK50 : 0 < K5 := by rw [hK5]; positivity
  refine ⟨d, hd0, d / (2 * K5), by positivity, fun x a b hu hx hb => ?_⟩
  have hx1 : x ≤ 1 := by nlinarith [sq_nonneg a]
  have hcr := cross_rate (a := a) ha hg hm hB hx1 hb
  rw [← hc, ← hK] at hcr
  obtain ⟨D0, -⟩ := damp_facts (m := m) (y := alpha * a) (b := b) hg.le
  obtain ⟨p1, p2⟩ := pot_bounds ha hm hx1
  rw [← hgm] at p1
  unfold slewW slewV
  obtain ⟨D, hD⟩ : ∃ D, D = b * (sat m (alpha * a + gamma * b) - sat m (alpha * a)) := ⟨_, rfl⟩
  obtain ⟨X', hX'⟩ : ∃ D, D = -sat m (alpha * a + gamma * b) * bend (m / 2) (alpha * a)
        + 0.5 * alpha * x * max 0 (1 - (alpha * a) ^ 2 / (m / 2) ^ 2) * b ^ 2 := ⟨_, rfl⟩
  obtain ⟨P, hP⟩ : ∃ P, P = pot alpha m x := ⟨_, rfl⟩
  rw [← hX', ← hD] at hcr
  rw [← hD] at D0
  rw [← hP] at p1 p2
  rw [← hX', ← hD, ← hP]
  have ha1 : |a| ≤ 1 := by rw [← sq_le_one_iff_abs_le_one]; linarith [sq_nonneg x]
  obtain ⟨s2_up, s2_low⟩ := bend_sizes ha hm ha1
  rw [← hc1] at s2_low
  have hb2 := rate_size (gamma := gamma) (a := a) ha hg hm hB hb
  rw [← hc, ← hK2, ← hD] at hb2
  obtain ⟨s, hs⟩ : ∃ s, s = bend (m / 2) (alpha * a) := ⟨_, rfl⟩
  rw [← hs] at hcr hb2 s2_up s2_low
  rw [← hs]
  have hxa := cos_sine hu hx
  obtain ⟨hP3, hs4, hP0⟩ := pot_sizes (K3 := K3) (K4 := K4) ha (mul_pos hc10 ha) hg0 hK3 hK4 hx1 hxa.1 hxa.2 p1 p2 s2_up s2_low
  exact slew_algebra hd0 hdK hd2 hdK4 hK50 hK5 hK30.le D0 hb2 hP3 hs4 hP0 hcr

theorem SatFlow.mono {x a b : ℝ → ℝ} {T S : ℝ} (h : SatFlow alpha gamma m x a b T) (hS : S ≤ T) :
    SatFlow alpha gamma m x a b S where
  contX := h.contX.mono (Set.Icc_subset_Icc_right hS)
  contA := h.contA.mono (Set.Icc_subset_Icc_right hS)
  contB := h.contB.mono (Set.Icc_subset_Icc_right hS)
  unit t ht := h.unit t ⟨ht.1, ht.2.trans hS⟩
  derivX t ht := h.derivX t ⟨ht.1, ht.2.trans_le hS⟩
  derivA t ht := h.derivA t ⟨ht.1, ht.2.trans_le hS⟩
  derivB t ht := h.derivB t ⟨ht.1, ht.2.trans_le hS⟩

theorem SatFlow.contV (hm : 0 < m) {x a b : ℝ → ℝ} {T : ℝ} (h : SatFlow alpha gamma m x a b T) :
    ContinuousOn (fun t => slewV alpha m (x t) (b t)) (Set.Icc 0 T) := by
  have hc : Continuous (pot alpha m) := continuous_iff_continuousAt.2 fun x => (pot_deriv hm x).continuousAt
  exact ((h.contB.pow 2).div_const 2).add (hc.comp_continuousOn h.contX)

/-- The energy does not grow. -/
theorem SatFlow.falls (ha : 0 < alpha) (hg : 0 < gamma) (hm : 0 < m) {x a b : ℝ → ℝ} {T : ℝ} (hT : 0 ≤ T)
    (h : SatFlow alpha gamma m x a b T) : slewV alpha m (x T) (b T) ≤ slewV alpha m (x 0) (b 0) := by
  refine anti_flow (f := fun t => slewV alpha m (x t) (b t)) (h.contV hm) (fun t ht => ?_) ⟨le_rfl, hT⟩ ⟨hT, le_rfl⟩ hT
  refine ⟨_, h.derivV ha hm ⟨ht.1.le, ht.2⟩, ?_⟩
  linarith [(damp_facts (m := m) (y := alpha * a t) (b := b t) hg.le).1]

theorem slewV_low (ha : 0 < alpha) (hm : 0 < m) {x b : ℝ} (hx : x ≤ 1) :
    b ^ 2 / 2 + 2 * alpha * m / max m alpha * (1 - x) ≤ slewV alpha m x b := by
  have := (pot_bounds ha hm hx).1
  unfold slewV; linarith

/-- Where the energy is below the one of a state of rest. -/
theorem slewV_region (ha : 0 < alpha) (hm : 0 < m) {x x0 b : ℝ} (h0 : -0.3 ≤ x0) (hx1 : x0 ≤ 1) (hx : x ≤ 1)
    (h : slewV alpha m x b ≤ pot alpha m x0) : x0 ≤ x ∧ |b| ≤ √(6 * alpha) := by
  have p1 := (pot_bounds ha hm hx).1
  have p2 := (pot_bounds ha hm hx1).2
  have g0 : 0 ≤ 2 * alpha * m / max m alpha := (div_pos (by positivity) (lt_of_lt_of_le hm (le_max_left _ _))).le
  have p3 := mul_nonneg g0 (by linarith : 0 ≤ 1 - x)
  unfold slewV at h
  have hb := sq_nonneg b
  constructor
  · exact (pot_anti ha hm).le_iff_ge.1 (by linarith)
  · refine Real.abs_le_sqrt ?_
    have : 2 * alpha * (1 - x0) ≤ 2 * alpha * 1.3 := by
      refine mul_le_mul_of_nonneg_left ?_ (by positivity)
      norm_num at h0 ⊢
      linarith
    norm_num at this
    linarith

/-- The error and the rate of a satellite whose wheels deliver a part of what the law asks for, and about the axis `e`
as much as the limit `m` allows. -/
structure PartFlow (alpha gamma m : ℝ) (e : V3) (p : ℝ → V4) (w : ℝ → V3) (T : ℝ) : Prop where
  contP : ContinuousOn p (Set.Icc 0 T)
  contW : ContinuousOn w (Set.Icc 0 T)
  unit : ∀ t ∈ Set.Icc 0 T, IsUnit4 (p t)
  derivP : ∀ t ∈ Set.Ico 0 T, HasDerivAt p ((0.5 : ℝ) • product (p t) (pureQ (w t))) t
  derivW : ∀ t ∈ Set.Ico 0 T, ∃ k : ℝ, 0 ≤ k ∧ k ≤ 1 ∧ HasDerivAt w (k • (-alpha • vecPart (p t) - gamma • w t)) t ∧
    ∀ u : ℝ, -alpha • vecPart (p t) - gamma • w t = -u • e → k * u = sat m u

theorem PartFlow.axis (ha : 0 ≤ alpha) (hg : 0 ≤ gamma) {e : V3} {T : ℝ} {p : ℝ → V4} {w : ℝ → V3}
    (h : PartFlow alpha gamma m e p w T) (he : e ⬝ᵥ e = 1) (h0 : across e (vecPart (p 0)) (w 0) ≤ 0) {t : ℝ}
    (ht : t ∈ Set.Icc 0 T) : across e (vecPart (p t)) (w t) ≤ 0 := by
  have hv : ∀ t ∈ Set.Ico 0 T, HasDerivAt (fun t => vecPart (p t)) ((0.5 : ℝ) • (p t 0 • w t + npCross (vecPart (p t)) (w t))) t := by
    intro t ht
    rw [← vecPart_rate]
    exact hasDerivAt_vecPart (h.derivP t ht)
  have cv := vecPart_cont h.contP
  have hcont : ContinuousOn (fun t => -across e (vecPart (p t)) (w t)) (Set.Icc 0 T) := by
    unfold across
    exact (((dot_cont cv cv).sub ((dot_cont cv continuousOn_const).pow 2)).add
      ((dot_cont h.contW h.contW).sub ((dot_cont h.contW continuousOn_const).pow 2))).neg
  have hl := lower_flow (k := -(1 + alpha)) hcont (fun t ht => by
    have ht' : t ∈ Set.Ico 0 T := ⟨ht.1.le, ht.2⟩
    have d1 := hv t ht'
    obtain ⟨k, k0, k1, d2, -⟩ := h.derivW t ht'
    have dc : HasDerivAt (fun _ : ℝ => e) 0 t := hasDerivAt_const t e
    refine ⟨_, ((((dot_deriv d1 d1).fun_sub ((dot_deriv d1 dc).fun_pow 2)).fun_add
      ((dot_deriv d2 d2).fun_sub ((dot_deriv d2 dc).fun_pow 2))).fun_neg).congr_of_eventuallyEq (by rfl), ?_⟩
    have hu := signed_unit_le (h.unit t ⟨ht.1.le, ht.2.le⟩) he
    have n1 := across_nonneg (v := vecPart (p t)) he
    have n2 := across_nonneg (v := w t) he
    have hi := across_ineq (mul_nonneg k0 ha) (mul_nonneg k0 hg) hu.1 hu.2 n1 n2 (across_gram he)
    have hi2 := hi.trans (mul_le_mul_of_nonneg_right (by nlinarith : 1 + k * alpha ≤ 1 + alpha) (add_nonneg n1 n2))
    refine le_of_eq_of_le ?_ (le_of_le_of_eq (neg_le_neg hi2) ?_)
    · unfold across; ring
    · obtain ⟨c1, c2⟩ := npCross_dot_left (vecPart (p t)) (w t)
      simp only [smul_dotProduct, add_dotProduct, sub_dotProduct, dotProduct_smul, dotProduct_add, dotProduct_sub,
        dotProduct_zero, smul_eq_mul, dotProduct_comm (vecPart (p t)) (npCross _ _), dotProduct_comm (w t) (vecPart (p t)),
        c1, c2, neg_smul, neg_dotProduct, dotProduct_neg, Nat.cast_ofNat]
      ring) ht
  have h1 := across_nonneg (v := vecPart (p 0)) he
  have h2 := across_nonneg (v := w 0) he
  have h3 : across e (vecPart (p 0)) (w 0) = 0 := le_antisymm h0 (by unfold across; linarith)
  rw [h3, neg_zero, mul_zero] at hl
  linarith

theorem PartFlow.plane (ha : 0 ≤ alpha) (hg : 0 ≤ gamma) {e : V3} {T : ℝ} {p : ℝ → V4} {w : ℝ → V3}
    (h : PartFlow alpha gamma m e p w T) (he : e ⬝ᵥ e = 1) (h0 : across e (vecPart (p 0)) (w 0) ≤ 0) :
    SatFlow alpha gamma m (fun t => p t 0) (fun t => vecPart (p t) ⬝ᵥ e) (fun t => w t ⬝ᵥ e) T := by
  have hz : ∀ t ∈ Set.Icc 0 T, vecPart (p t) = (vecPart (p t) ⬝ᵥ e) • e ∧ w t = (w t ⬝ᵥ e) • e :=
    fun t ht => across_zero he (h.axis ha hg he h0 ht)
  have cv := vecPart_cont h.contP
  refine ⟨continuousOn_pi.1 h.contP 0, dot_cont cv continuousOn_const, dot_cont h.contW continuousOn_const, ?_, ?_, ?_, ?_⟩
  · intro t ht
    have h1 := vecPart_unit (h.unit t ht)
    have h2 : vecPart (p t) ⬝ᵥ vecPart (p t) = (vecPart (p t) ⬝ᵥ e) ^ 2 := by
      conv_lhs => rw [(hz t ht).1]
      rw [smul_dotProduct, dotProduct_smul, he]; simp only [smul_eq_mul]; ring
    linarith
  · intro t ht
    refine (hasDerivAt_pi.1 (h.derivP t ht) 0).congr_deriv ?_
    rw [scalar_rate]
    have hh := hz t ⟨ht.1, ht.2.le⟩
    have h2 : vecPart (p t) ⬝ᵥ w t = (vecPart (p t) ⬝ᵥ e) * (w t ⬝ᵥ e) := by
      conv_lhs => rw [hh.1, hh.2]
      rw [smul_dotProduct, dotProduct_smul, he]; simp only [smul_eq_mul]; ring
    rw [h2]
  · intro t ht
    have hh := hz t ⟨ht.1, ht.2.le⟩
    refine (dot_deriv (hasDerivAt_vecPart (h.derivP t ht)) (hasDerivAt_const t e)).congr_deriv ?_
    rw [vecPart_rate, dotProduct_zero, add_zero, smul_dotProduct, add_dotProduct, smul_dotProduct]
    have h2 : npCross (vecPart (p t)) (w t) ⬝ᵥ e = 0 := by
      have h3 := across_gram (v := vecPart (p t)) (w := w t) he
      have h4 := h.axis ha hg he h0 ⟨ht.1, ht.2.le⟩
      have h5 := across_nonneg (v := vecPart (p t)) he
      have h6 := across_nonneg (v := w t) he
      unfold across at h4
      have h7 : vecPart (p t) ⬝ᵥ vecPart (p t) - (vecPart (p t) ⬝ᵥ e) ^ 2 = 0 := by linarith
      rw [h7, zero_mul] at h3
      have := sq_nonneg (vecPart (p t) ⬝ᵥ w t - vecPart (p t) ⬝ᵥ e * w t ⬝ᵥ e)
      exact pow_eq_zero_iff (two_ne_zero) |>.1 (le_antisymm (by linarith) (sq_nonneg _))
    rw [h2]
    simp only [smul_eq_mul]
    ring
  · intro t ht
    obtain ⟨k, -, -, d, hk⟩ := h.derivW t ht
    have hh := hz t ⟨ht.1, ht.2.le⟩
    have e1 : -alpha • vecPart (p t) - gamma • w t = -(alpha * (vecPart (p t) ⬝ᵥ e) + gamma * (w t ⬝ᵥ e)) • e := by
      conv_lhs => rw [hh.1, hh.2]
      rw [smul_smul, smul_smul, ← sub_smul]
      congr 1
      ring
    have e2 := hk _ e1
    refine (dot_deriv d (hasDerivAt_const t e)).congr_deriv ?_
    rw [dotProduct_zero, add_zero, e1, smul_smul, smul_dotProduct, he, ← e2]
    simp only [smul_eq_mul]
    ring

end

end Adcs
