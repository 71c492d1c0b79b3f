import Verif.Proofs.Float
import Verif.Props.Clock

set_option autoImplicit false

/-! # C169-C170: the clocks with rounding -/

namespace Adcs

open Fl JDay Spec

/-! ## C169: `Clock.tick` -/

theorem tickHour_absolute (c : Clock) (a : ℝ) :
    ({ c with absolute := a } : Clock).tickHour = { c.tickHour with absolute := a } := by
  unfold Clock.tickHour
  dsimp only
  split_ifs <;> rfl

theorem tickDay_absolute (c : Clock) (a : ℝ) :
    ({ c with absolute := a } : Clock).tickDay = { c.tickDay with absolute := a } := by
  unfold Clock.tickDay
  dsimp only
  split_ifs <;> rfl

theorem validFields_absolute {c : Clock} (h : ValidFields c) (a s : ℝ) :
    ValidFields { c with absolute := a, second := s } :=
  ⟨h.date, h.h0, h.h24, h.m0, h.m60, h.leap, h.noLeapSecond⟩

/-- A tick that rolls the second. -/
theorem float_tick_roll {fl : ℝ → ℝ} {c : Clock} (hv : ValidFields c) {dt : ℝ}
    (hr : |fl (fl (c.second + dt) - 60)| < fl 0.00001) :
    ValidFields (Fl.tick fl c dt) ∧ (Fl.tick fl c dt).absolute = fl (c.absolute + dt) ∧
    (Fl.tick fl c dt).second = 0 ∧
    instant (Fl.tick fl c dt).year (Fl.tick fl c dt).month (Fl.tick fl c dt).day (Fl.tick fl c dt).hour
      (Fl.tick fl c dt).minute 0 = instant c.year c.month c.day c.hour c.minute 60 := by
  have hs : Fl.tickSecond fl c dt
      = { c.tickSecond (60 - c.second) with absolute := fl (c.absolute + dt) } := by
    unfold Fl.tickSecond Clock.tickSecond
    simp only [hv.noLeapSecond]
    rw [if_pos (Or.inl ⟨trivial, hr⟩), if_pos (Or.inl ⟨trivial, by norm_num⟩)]
  have ht : Fl.tick fl c dt = { c.tick (60 - c.second) with absolute := fl (c.absolute + dt) } := by
    unfold Fl.tick
    rw [hs, tickHour_absolute, tickDay_absolute]
    rfl
  have h := tick_spec hv (60 - c.second)
  have h3 := h.2.2
  rw [if_pos (by norm_num)] at h3
  rw [ht]
  exact ⟨validFields_absolute h.1 _ _, rfl, h3.1, h3.2⟩

/-- A tick that does not. -/
theorem float_tick_stay {fl : ℝ → ℝ} {c : Clock} (hv : ValidFields c) {dt : ℝ}
    (hr : ¬ |fl (fl (c.second + dt) - 60)| < fl 0.00001) :
    Fl.tick fl c dt = { c with second := fl (c.second + dt), absolute := fl (c.absolute + dt) } := by
  have hs : Fl.tickSecond fl c dt
      = { c with second := fl (c.second + dt), absolute := fl (c.absolute + dt) } := by
    unfold Fl.tickSecond
    simp only [hv.noLeapSecond]
    rw [if_neg]
    rintro (⟨-, h⟩ | ⟨h, -⟩)
    · exact hr h
    · cases h
  have h1 : c.minute ≠ 60 := by have := hv.m60; omega
  have h2 : c.hour ≠ 24 := by have := hv.h24; omega
  have h3 : ¬ c.day > daysInMonth c.month c.leapYear := by
    have hl : c.leapYear = isLeapYear c.year := by
      rw [Bool.eq_iff_iff, hv.leap, isLeapYear_iff]; rfl
    rw [hl, daysInMonth_eq _ _ hv.date.m1 hv.date.m12]
    exact not_lt.2 hv.date.dl
  have h4 : c.month ≠ 13 := by have := hv.date.m12; omega
  unfold Fl.tick
  rw [hs]
  simp only [Clock.tickHour, Clock.tickDay, if_neg h1, if_neg h2, if_neg h3, if_neg h4]

/-- C169: with rounding as well, the date and time of day exist after any sequence of ticks. -/
theorem C169_valid {fl : ℝ → ℝ} {c : Clock} (hv : ValidFields c) (dts : List ℝ) :
    ValidFields (dts.foldl (Fl.tick fl) c) := by
  induction dts generalizing c with
  | nil => exact hv
  | cons dt l ih =>
    refine ih ?_
    by_cases hr : |fl (fl (c.second + dt) - 60)| < fl 0.00001
    · exact (float_tick_roll hv hr).1
    · rw [float_tick_stay hv hr]; exact validFields_absolute hv _ _

/-- The error of one tick below the minute. -/
theorem float_tick_second {fl : ℝ → ℝ} (H : Nearest fl) {s d t e : ℝ} (hd : 0 ≤ d) (hd60 : d ≤ 60)
    (he : |s - t| ≤ e) (hb : s + fl d ≤ 64) (h0 : 0 ≤ s) :
    |fl (s + fl d) - (t + d)| ≤ e + 11 / 10 ^ 15 := by
  have h1 : |s + fl d - fl (s + fl d)| ≤ 2 ^ ((5 : ℤ) - 53) := by
    apply H.err_binade
    rw [abs_of_nonneg (add_nonneg h0 (H.nonneg hd))]
    norm_num; linarith
  have h2 := H.err d
  rw [abs_of_nonneg hd] at h2
  have h3 : ulp * d ≤ ulp * 60 := mul_le_mul_of_nonneg_left hd60 ulp_pos.le
  have h4 : ulp * 60 ≤ 7 / 10 ^ 15 := by norm_num [ulp]
  have h5 : (2 : ℝ) ^ ((5 : ℤ) - 53) ≤ 4 / 10 ^ 15 := by norm_num
  have h6 := abs_le.1 (h1.trans h5)
  have h7 := abs_le.1 (h2.trans (h3.trans h4))
  have h8 := abs_le.1 he
  rw [abs_le]
  constructor <;> linarith [h6.1, h6.2, h7.1, h7.2, h8.1, h8.2]

/-- C169 (partial): with a step of `60 / k` seconds for a whole `k` up to 5.9 million, rounded to a
float, and a start on the grid up to rounding, the clock shows the right time within 0.1
microseconds after any number of ticks: rounding errors neither pile up nor make it miss a minute. -/
theorem C169_tracks_partial {fl : ℝ → ℝ} (H : Nearest fl) {c : Clock} (hv : ValidFields c) {k j : ℕ}
    (hk : k ≤ 5900000) (hj : j < k) (hs0 : 0 ≤ c.second)
    (hs : |c.second - j * (60 / k)| ≤ 1 / 10 ^ 14) (n : ℕ) :
    |Clock.shown ((List.replicate n (fl (60 / k))).foldl (Fl.tick fl) c)
      - (Clock.shown c + n * (60 / k))| ≤ 1 / 10 ^ 7 ∧
    0 ≤ ((List.replicate n (fl (60 / k))).foldl (Fl.tick fl) c).second ∧
    ((List.replicate n (fl (60 / k))).foldl (Fl.tick fl) c).second < 60 := by
  have hk0 : (0 : ℝ) < k := by exact_mod_cast (by omega : 0 < k)
  have hkR : (k : ℝ) ≤ 5900000 := by exact_mod_cast hk
  set d : ℝ := 60 / k with hd
  have hd0 : 0 < d := by positivity
  have hd60 : d ≤ 60 := by
    rw [hd, div_le_iff₀ hk0]
    have : (1 : ℝ) ≤ k := by exact_mod_cast (by omega : 1 ≤ k)
    linarith
  have hd5 : (1.016 : ℝ) / 10 ^ 5 ≤ d := by rw [hd, le_div_iff₀ hk0]; norm_num; linarith
  have hmul : (k : ℝ) * d = 60 := by rw [hd]; field_simp
  have hfd : fl d ≤ 61 := by
    refine (H.le_mul hd0.le).trans ?_
    nlinarith [ulp_small, ulp_pos]
  have htol1 : fl 0.00001 ≤ 1.0001 / 10 ^ 5 := by
    refine (H.le_mul (by norm_num)).trans ?_
    norm_num [ulp]
  have htol2 : (0.9999 : ℝ) / 10 ^ 5 ≤ fl 0.00001 := by
    refine le_trans ?_ (H.mul_le (by norm_num))
    norm_num [ulp]
  -- the start: where the exact time of the count `j` belongs to the fields shown
  have main : ∀ (n j : ℕ) (c : Clock), ValidFields c → j < k → 0 ≤ c.second →
      |c.second - j * d| ≤ 1 / 10 ^ 14 + j * (11 / 10 ^ 15) →
      |Clock.shown ((List.replicate n (fl d)).foldl (Fl.tick fl) c)
        - (Clock.shown c - c.second + j * d + n * d)| ≤ 9 / 10 ^ 8 ∧
      0 ≤ ((List.replicate n (fl d)).foldl (Fl.tick fl) c).second ∧
      ((List.replicate n (fl d)).foldl (Fl.tick fl) c).second < 60 := by
    intro n
    induction n with
    | zero =>
      intro j c hv hj h0 he
      have hj' : (j : ℝ) + 1 ≤ k := by exact_mod_cast (by omega : j + 1 ≤ k)
      have hjb : (j : ℝ) * (11 / 10 ^ 15) ≤ 5900000 * (11 / 10 ^ 15) :=
        mul_le_mul_of_nonneg_right (by linarith) (by norm_num)
      have hjd : (j : ℝ) * d ≤ 60 - d := by
        have := mul_le_mul_of_nonneg_right hj' hd0.le
        rw [hmul] at this; linarith
      simp only [List.replicate_zero, List.foldl_nil, Nat.cast_zero, zero_mul, add_zero]
      refine ⟨?_, h0, ?_⟩
      · rw [show Clock.shown c - (Clock.shown c - c.second + j * d) = c.second - j * d by ring]
        refine he.trans ?_
        norm_num at hjb ⊢; linarith
      · have := (abs_le.1 he).2
        norm_num at hjb this hd5 ⊢; linarith
    | succ n ih =>
      intro j c hv hj h0 he
      rw [List.replicate_succ, List.foldl_cons]
      have hj' : (j : ℝ) + 1 ≤ k := by exact_mod_cast (by omega : j + 1 ≤ k)
      have hjb : ((j : ℝ) + 1) * (11 / 10 ^ 15) ≤ 5900000 * (11 / 10 ^ 15) :=
        mul_le_mul_of_nonneg_right (by linarith) (by norm_num)
      have hjd : ((j : ℝ) + 1) * d ≤ 60 := by
        have := mul_le_mul_of_nonneg_right hj' hd0.le
        rw [hmul] at this; exact this
      have hsec : c.second + fl d ≤ 64 := by
        have h1 := (abs_le.1 he).2
        have h2 := H.le_mul hd0.le
        have h3 : ulp * d ≤ 1 := by nlinarith [ulp_small, ulp_pos]
        norm_num at hjb h1
        nlinarith
      have hstep := float_tick_second H hd0.le hd60 he hsec h0
      rw [show (j : ℝ) * d + d = ((j : ℝ) + 1) * d by ring,
        show 1 / 10 ^ 14 + (j : ℝ) * (11 / 10 ^ 15) + 11 / 10 ^ 15
          = 1 / 10 ^ 14 + ((j : ℝ) + 1) * (11 / 10 ^ 15) by ring] at hstep
      have hS0 : 0 ≤ fl (c.second + fl d) := H.nonneg (add_nonneg h0 (H.nonneg hd0.le))
      set S := fl (c.second + fl d) with hS
      by_cases hlast : j + 1 = k
      · have hk' : (j : ℝ) + 1 = k := by exact_mod_cast hlast
        rw [hk', hmul] at hstep
        have hr : |fl (S - 60)| < fl 0.00001 := by
          have h1 := H.err (S - 60)
          have h2 := abs_sub_abs_le_abs_sub (fl (S - 60)) (S - 60)
          have h3 : ulp * |S - 60| ≤ 1 * |S - 60| :=
            mul_le_mul_of_nonneg_right (by linarith [ulp_small]) (abs_nonneg _)
          have h4 : (k : ℝ) * (11 / 10 ^ 15) ≤ 5900000 * (11 / 10 ^ 15) :=
            mul_le_mul_of_nonneg_right hkR (by norm_num)
          norm_num at h4 hstep htol2 ⊢
          linarith
        obtain ⟨v, -, e0, e1⟩ := float_tick_roll hv hr
        obtain ⟨i1, i2⟩ := ih 0 (Fl.tick fl c (fl d)) v (by omega) (by rw [e0]) (by rw [e0]; norm_num)
        refine ⟨?_, i2⟩
        have e2 : Clock.shown (Fl.tick fl c (fl d)) = Clock.shown c - c.second + 60 := by
          rw [Clock.shown, e0, e1, Clock.shown]; unfold instant; ring
        rw [e2, e0] at i1
        have e3 : Clock.shown c - c.second + 60 - 0 + ((0 : ℕ) : ℝ) * d + n * d
            = Clock.shown c - c.second + j * d + ((n + 1 : ℕ) : ℝ) * d := by
          push_cast
          have : (j : ℝ) * d + d = 60 := by rw [← hmul, ← hk']; ring
          linarith
        rwa [e3] at i1
      · have hj2 : (j : ℝ) + 2 ≤ k := by exact_mod_cast (by omega : j + 2 ≤ k)
        have hjd2 : ((j : ℝ) + 1) * d ≤ 60 - d := by
          have := mul_le_mul_of_nonneg_right hj2 hd0.le
          rw [hmul] at this; linarith
        have hr : ¬ |fl (S - 60)| < fl 0.00001 := by
          have h1 := (abs_le.1 hstep).2
          have hneg : S - 60 ≤ -(1.008 / 10 ^ 5) := by
            norm_num at hjb h1 hd5 ⊢; linarith
          have h2 := abs_le.1 (H.err (S - 60))
          rw [abs_of_neg (by norm_num at hneg; linarith : S - 60 < 0)] at h2
          rw [not_lt]
          refine htol1.trans (le_trans ?_ (neg_le_abs _))
          have h3 : ulp * (-(S - 60)) ≤ 1 / 1000000 * (-(S - 60)) :=
            mul_le_mul_of_nonneg_right ulp_small (by norm_num at hneg; linarith)
          norm_num at hneg h3 ⊢
          linarith [h2.2]
        rw [float_tick_stay hv hr]
        obtain ⟨i1, i2⟩ := ih (j + 1) { c with second := S, absolute := fl (c.absolute + fl d) }
          (validFields_absolute hv _ _) (by omega) hS0 (by push_cast; exact hstep)
        refine ⟨?_, i2⟩
        have e2 : Clock.shown { c with second := S, absolute := fl (c.absolute + fl d) }
            = Clock.shown c - c.second + S := by
          unfold Clock.shown instant; ring
        rw [e2] at i1
        have e3 : Clock.shown c - c.second + S - S + ((j + 1 : ℕ) : ℝ) * d + n * d
            = Clock.shown c - c.second + j * d + ((n + 1 : ℕ) : ℝ) * d := by push_cast; ring
        dsimp only at i1
        rwa [e3] at i1
  obtain ⟨m1, m2⟩ := main n j c hv hj hs0
    (hs.trans (le_add_of_nonneg_right (by positivity)))
  refine ⟨?_, m2⟩
  have h1 := abs_le.1 m1
  have h2 := abs_le.1 hs
  rw [abs_le]
  norm_num at h1 h2 ⊢
  constructor <;> linarith [h1.1, h1.2, h2.1, h2.2]

/-- What a user of `absolute` relies on: ticked from 0 by a steady step, it is the product, as
computed. -/
def C169_claim : Prop :=
  ∀ fl : ℝ → ℝ, Nearest fl → ∀ (c : Clock) (dt : ℝ) (n : ℕ), ValidFields c → c.absolute = 0 → IsFloat dt →
    0 < dt → ((List.replicate n dt).foldl (Fl.tick fl) c).absolute = fl (n * dt)

theorem float_tick_absolute {fl : ℝ → ℝ} {c : Clock} (hv : ValidFields c) (dt : ℝ) :
    (Fl.tick fl c dt).absolute = fl (c.absolute + dt) := by
  by_cases hr : |fl (fl (c.second + dt) - 60)| < fl 0.00001
  · exact (float_tick_roll hv hr).2.1
  · rw [float_tick_stay hv hr]

theorem float_tick_valid {fl : ℝ → ℝ} {c : Clock} (hv : ValidFields c) (dt : ℝ) :
    ValidFields (Fl.tick fl c dt) := C169_valid hv [dt]

/-- C169 (partial): `absolute` is the total up to one rounding per tick. -/
theorem C169_absolute_partial {fl : ℝ → ℝ} (H : Nearest fl) {c : Clock} (hv : ValidFields c)
    (ha : c.absolute = 0) {dt : ℝ} (hdt : 0 ≤ dt) (n : ℕ) :
    (1 - 1 / 2 ^ 53) ^ n * (n * dt) ≤ ((List.replicate n dt).foldl (Fl.tick fl) c).absolute ∧
    ((List.replicate n dt).foldl (Fl.tick fl) c).absolute ≤ (1 + 1 / 2 ^ 53) ^ n * (n * dt) := by
  change (1 - ulp) ^ n * (n * dt) ≤ _ ∧ _ ≤ (1 + ulp) ^ n * (n * dt)
  have u0 := ulp_pos
  have u1 : 0 ≤ 1 - ulp := by linarith [ulp_small]
  induction n with
  | zero => simp [ha]
  | succ n ih =>
    rw [List.replicate_succ', List.foldl_append, List.foldl_cons, List.foldl_nil,
      float_tick_absolute (C169_valid hv _)]
    set a := ((List.replicate n dt).foldl (Fl.tick fl) c).absolute
    obtain ⟨h1, h2⟩ := ih
    have hnd : (0 : ℝ) ≤ n * dt := by positivity
    have ha0 : 0 ≤ a := le_trans (mul_nonneg (pow_nonneg u1 n) hnd) h1
    have p1 : (1 - ulp) ^ n ≤ 1 := pow_le_one₀ u1 (by linarith)
    have p2 : 1 ≤ (1 + ulp) ^ n := one_le_pow₀ (by linarith)
    push_cast
    constructor
    · refine le_trans ?_ (H.mul_le (by linarith))
      rw [pow_succ', mul_assoc]
      apply mul_le_mul_of_nonneg_left _ u1
      nlinarith
    · refine (H.le_mul (by linarith)).trans ?_
      rw [pow_succ', mul_assoc]
      apply mul_le_mul_of_nonneg_left _ (by linarith)
      nlinarith

/-- C169: the claim is false: seven ticks of 0.45 seconds make 3.1500000000000004. -/
theorem C169_absolute_fails : ¬ C169_claim := by
  intro h
  have H := rn_nearest
  have hv : ValidFields (Clock.init 2024 1 1 12 0 0) :=
    validFields_init ⟨by norm_num, by norm_num, by norm_num, by decide⟩ (by norm_num) (by norm_num)
      (by norm_num) (by norm_num)
  have e1 : rn 0.45 = (8106479329266893 : ℤ) * (2 : ℝ) ^ (-54 : ℤ) :=
    H.eq_of_near (by norm_num) (by norm_num) (by norm_num [abs_lt])
  set dt : ℝ := (8106479329266893 : ℤ) * (2 : ℝ) ^ (-54 : ℤ) with hdt
  have f1 : IsFloat dt := e1 ▸ H.rep _
  have e2 : rn (dt + dt) = (8106479329266893 : ℤ) * (2 : ℝ) ^ (-53 : ℤ) :=
    H.eq_of_near (by norm_num) (by norm_num) (by norm_num [abs_lt, hdt])
  have e3 : rn ((8106479329266893 : ℤ) * (2 : ℝ) ^ (-53 : ℤ) + dt)
      = (6079859496950170 : ℤ) * (2 : ℝ) ^ (-52 : ℤ) :=
    H.eq_of_near (by norm_num) (by norm_num) (by norm_num [abs_lt, hdt])
  have e4 : rn ((6079859496950170 : ℤ) * (2 : ℝ) ^ (-52 : ℤ) + dt)
      = (8106479329266893 : ℤ) * (2 : ℝ) ^ (-52 : ℤ) :=
    H.eq_of_near (by norm_num) (by norm_num) (by norm_num [abs_lt, hdt])
  have e5 : rn ((8106479329266893 : ℤ) * (2 : ℝ) ^ (-52 : ℤ) + dt)
      = (5066549580791808 : ℤ) * (2 : ℝ) ^ (-51 : ℤ) :=
    H.eq_of_near (by norm_num) (by norm_num) (by norm_num [abs_lt, hdt])
  have e6 : rn ((5066549580791808 : ℤ) * (2 : ℝ) ^ (-51 : ℤ) + dt)
      = (6079859496950170 : ℤ) * (2 : ℝ) ^ (-51 : ℤ) :=
    H.eq_of_near (by norm_num) (by norm_num) (by norm_num [abs_lt, hdt])
  have e7 : rn ((6079859496950170 : ℤ) * (2 : ℝ) ^ (-51 : ℤ) + dt)
      = (7093169413108532 : ℤ) * (2 : ℝ) ^ (-51 : ℤ) :=
    H.eq_of_near (by norm_num) (by norm_num) (by norm_num [abs_lt, hdt])
  have e8 : rn (((7 : ℕ) : ℝ) * dt) = (7093169413108531 : ℤ) * (2 : ℝ) ^ (-51 : ℤ) :=
    H.eq_of_near (by norm_num) (by norm_num) (by norm_num [abs_lt, hdt])
  have h0 := h rn H (Clock.init 2024 1 1 12 0 0) dt 7 hv rfl f1 (by positivity)
  rw [e8] at h0
  simp only [List.replicate, List.foldl_cons, List.foldl_nil] at h0
  have v1 := float_tick_valid (fl := rn) hv dt
  have v2 := float_tick_valid (fl := rn) v1 dt
  have v3 := float_tick_valid (fl := rn) v2 dt
  have v4 := float_tick_valid (fl := rn) v3 dt
  have v5 := float_tick_valid (fl := rn) v4 dt
  have v6 := float_tick_valid (fl := rn) v5 dt
  rw [float_tick_absolute v6, float_tick_absolute v5, float_tick_absolute v4, float_tick_absolute v3,
    float_tick_absolute v2, float_tick_absolute v1, float_tick_absolute hv] at h0
  have ea : (Clock.init 2024 1 1 12 0 0).absolute = 0 := rfl
  rw [ea, zero_add, H.eq_self f1, e2, e3, e4, e5, e6, e7] at h0
  norm_num at h0

/-- The hypotheses of `C169_tracks_partial`: the step 0.05 s of the examples and a start at 23:59:00.15. -/
example : ∃ c : Clock, ValidFields c ∧ 0 ≤ c.second ∧
    |c.second - ((3 : ℕ) : ℝ) * (60 / ((1200 : ℕ) : ℝ))| ≤ 1 / 10 ^ 14 :=
  ⟨Clock.init 2024 12 31 23 59 (rn 0.15), validFields_init
    ⟨by norm_num, by norm_num, by norm_num, by decide⟩ (by norm_num) (by norm_num) (by norm_num)
    (by norm_num), rn_nearest.nonneg (by norm_num), by
      have := rn_nearest.err 0.15
      simp only [Clock.init]
      have e : ((3 : ℕ) : ℝ) * (60 / ((1200 : ℕ) : ℝ)) = 0.15 := by norm_num
      rw [e]
      refine this.trans ?_
      norm_num [ulp, abs_of_pos]⟩

/-! ## C170: `JClock.julian_date` -/

/-- What a user of Julian dates relies on: a later clock has a later date. -/
def C170_claim : Prop :=
  ∀ fl : ℝ → ℝ, Nearest fl → ∀ c c' : JClock, InRange c.datetime → InRange c'.datetime →
    c.datetime < c'.datetime → Fl.julianDate fl c < Fl.julianDate fl c'

/-- C170: a later clock never has an earlier date. -/
theorem C170_monotone {fl : ℝ → ℝ} (H : Nearest fl) {c c' : JClock} (h : c.datetime ≤ c'.datetime) :
    Fl.julianDate fl c ≤ Fl.julianDate fl c' := by
  unfold Fl.julianDate Fl.totalSeconds
  apply H.mono
  gcongr
  apply H.mono
  gcongr
  apply H.mono
  gcongr

/-- C170: within a century of the year 2000 the date is right up to 21 microseconds. -/
theorem C170_error {fl : ℝ → ℝ} (H : Nearest fl) {c : JClock}
    (hc : |c.datetime - refDatetime| ≤ 36525 * usDay) :
    |Fl.julianDate fl c - (2451545 + ((c.datetime - refDatetime : ℤ) : ℝ) / (86400 * 1000000))|
      ≤ 21 / (86400 * 1000000) := by
  unfold Fl.julianDate Fl.totalSeconds
  set T : ℤ := c.datetime - refDatetime with hT
  have hT' : |(T : ℝ)| ≤ 36525 * 86400000000 := by
    have : (|T| : ℝ) ≤ ((36525 * usDay : ℤ) : ℝ) := by exact_mod_cast hc
    refine this.trans (le_of_eq ?_)
    simp only [usDay]; norm_num
  have u0 := ulp_pos
  set D : ℝ := (T : ℝ) / (86400 * 1000000) with hD
  have hDb : |D| ≤ 36525 := by
    rw [hD, abs_div, abs_of_pos (by norm_num : (0 : ℝ) < 86400 * 1000000), div_le_iff₀ (by norm_num)]
    linarith
  set A := fl ((T : ℝ) / 1000000) with hA
  have h1 : |A / 86400 - D| ≤ ulp * |D| := by
    have := H.err ((T : ℝ) / 1000000)
    have e1 : A / 86400 - D = (A - (T : ℝ) / 1000000) / 86400 := by rw [hD]; field_simp
    have e2 : |D| = |(T : ℝ) / 1000000| / 86400 := by
      rw [hD, abs_div, abs_div, abs_of_pos (by norm_num : (0 : ℝ) < 86400 * 1000000),
        abs_of_pos (by norm_num : (0 : ℝ) < 1000000)]
      ring
    rw [e1, e2, abs_div, abs_of_pos (by norm_num : (0 : ℝ) < 86400), ← mul_div_assoc]
    exact div_le_div_of_nonneg_right this (by norm_num)
  set B := fl (A / 86400) with hB
  have h2 : |B - A / 86400| ≤ ulp * |A / 86400| := H.err _
  have hA2 : |A / 86400| ≤ 40000 := by
    have h3 := abs_sub_abs_le_abs_sub (A / 86400) D
    have h4 : ulp * |D| ≤ 1 * |D| := mul_le_mul_of_nonneg_right (by linarith [ulp_small]) (abs_nonneg _)
    have h5 : ulp * |D| ≤ 1 / 1000000 * 36525 := by
      exact mul_le_mul ulp_small hDb (abs_nonneg _) (by norm_num)
    linarith
  have h3 : |A / 86400 - D| ≤ 41 / 10 ^ 13 := by
    refine h1.trans ((mul_le_mul_of_nonneg_left hDb u0.le).trans ?_)
    norm_num [ulp]
  have h4 : |B - A / 86400| ≤ 45 / 10 ^ 13 := by
    refine h2.trans ((mul_le_mul_of_nonneg_left hA2 u0.le).trans ?_)
    norm_num [ulp]
  have h5 : |B + 2451545 - fl (B + 2451545)| ≤ 2329 / 10 ^ 13 := by
    have : |B + 2451545 - fl (B + 2451545)| ≤ 2 ^ ((21 : ℤ) - 53) := by
      apply H.err_binade
      have h6 := abs_le.1 h4
      have h7 := abs_le.1 hA2
      rw [abs_le]
      norm_num at h6 ⊢
      constructor <;> linarith [h6.1, h6.2, h7.1, h7.2]
    refine this.trans ?_
    norm_num
  have a3 := abs_le.1 h3
  have a4 := abs_le.1 h4
  have a5 := abs_le.1 h5
  rw [abs_le]
  norm_num at a3 a4 a5 ⊢
  constructor <;> linarith [a3.1, a3.2, a4.1, a4.2, a5.1, a5.2]

/-- C170 (partial): clocks at least 43 microseconds apart have different dates. -/
theorem C170_strict_partial {fl : ℝ → ℝ} (H : Nearest fl) {c c' : JClock}
    (hc : |c.datetime - refDatetime| ≤ 36525 * usDay) (hc' : |c'.datetime - refDatetime| ≤ 36525 * usDay)
    (h : c.datetime + 43 ≤ c'.datetime) : Fl.julianDate fl c < Fl.julianDate fl c' := by
  have h1 := abs_le.1 (C170_error H hc)
  have h2 := abs_le.1 (C170_error H hc')
  have h3 : ((c.datetime - refDatetime : ℤ) : ℝ) + 43 ≤ ((c'.datetime - refDatetime : ℤ) : ℝ) := by
    exact_mod_cast (by omega : c.datetime - refDatetime + 43 ≤ c'.datetime - refDatetime)
  norm_num only at h1 h2
  linarith [h1.2, h2.1]

/-- C170: for 20 microseconds after noon of 1 January 2000 the date stands still. -/
theorem julianDate_still {fl : ℝ → ℝ} (H : Nearest fl) {d : ℤ} (h0 : 0 ≤ d) (h1 : d ≤ 20) :
    Fl.julianDate fl ⟨refDatetime + d, 0⟩ = 2451545 := by
  unfold Fl.julianDate Fl.totalSeconds
  dsimp only
  rw [add_sub_cancel_left]
  have hd0 : (0 : ℝ) ≤ d := by exact_mod_cast h0
  have hd1 : (d : ℝ) ≤ 20 := by exact_mod_cast h1
  have u1 := ulp_small
  have u0 := ulp_pos
  set A := fl ((d : ℝ) / 1000000) with hA
  have a0 : 0 ≤ A := H.nonneg (by positivity)
  have a1 : A ≤ 20.0001 / 1000000 := by
    refine (H.le_mul (by positivity)).trans ?_
    have : (1 + ulp) * ((d : ℝ) / 1000000) ≤ (1 + 1 / 1000000) * (20 / 1000000) :=
      mul_le_mul (by linarith) (by linarith) (by positivity) (by norm_num)
    refine this.trans ?_
    norm_num
  set B := fl (A / 86400) with hB
  have b0 : 0 ≤ B := H.nonneg (by positivity)
  have b1 : B ≤ 20.001 / 1000000 / 86400 := by
    refine (H.le_mul (by positivity)).trans ?_
    have : (1 + ulp) * (A / 86400) ≤ (1 + 1 / 1000000) * (20.0001 / 1000000 / 86400) :=
      mul_le_mul (by linarith) (by linarith) (by positivity) (by norm_num)
    refine this.trans ?_
    norm_num
  have : fl (B + 2451545) = (5264652799836160 : ℤ) * (2 : ℝ) ^ (-31 : ℤ) := by
    apply H.eq_of_near (by norm_num) (by norm_num)
    rw [abs_lt]
    norm_num at b1 ⊢
    constructor <;> linarith
  rw [this]
  norm_num

/-- C170: the claim is false. -/
theorem C170_strict_fails : ¬ C170_claim := by
  intro h
  have := h rn rn_nearest ⟨refDatetime + 0, 0⟩ ⟨refDatetime + 20, 0⟩ (by decide) (by decide)
    (by dsimp only; omega)
  rw [julianDate_still rn_nearest (by norm_num) (by norm_num),
    julianDate_still rn_nearest (by norm_num) (by norm_num)] at this
  exact lt_irrefl _ this

/-- The hypotheses of the theorems above: noon of 1 January 2000 and a day later. -/
example : |(⟨refDatetime, 0⟩ : JClock).datetime - refDatetime| ≤ 36525 * usDay ∧
    |(⟨refDatetime + usDay, 0⟩ : JClock).datetime - refDatetime| ≤ 36525 * usDay ∧
    (⟨refDatetime, 0⟩ : JClock).datetime + 43 ≤ (⟨refDatetime + usDay, 0⟩ : JClock).datetime := by
  simp [usDay]

end Adcs
