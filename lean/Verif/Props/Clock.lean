import Verif.Proofs.Clock

set_option autoImplicit false

/-! # C22-C26, C30: the `Clock` class

`Spec.instant`, `Spec.ordinal`, `Spec.ValidDate` come from `Spec/Calendar.lean`; `ValidFields` from
`Proofs/Clock.lean`. -/

namespace Adcs

open JDay Spec

/-! ## C22 -/

/-- C22: `is_leap_year` is the Gregorian rule. -/
theorem C22_leap_year (y : ℤ) : isLeapYear y = true ↔ (4 ∣ y ∧ ¬ 100 ∣ y) ∨ 400 ∣ y :=
  isLeapYear_iff y

/-- C22: `days_in_month` with the flag of the year is the Gregorian month length. -/
theorem C22_days_in_month (y m : ℤ) (h1 : 1 ≤ m) (h12 : m ≤ 12) :
    daysInMonth m (isLeapYear y) = monthLength y m := daysInMonth_eq y m h1 h12

/-- C22: the month lengths add up to the year: 1 January follows 31 December, and the first of a
month follows the last day `days_in_month` gives. -/
theorem C22_calendar (y m : ℤ) (h1 : 1 ≤ m) (h12 : m ≤ 12) :
    (if m = 12 then ordinal (y + 1) 1 1 else ordinal y (m + 1) 1)
      = ordinal y m (daysInMonth m (isLeapYear y)) + 1 := by
  rw [daysInMonth_eq y m h1 h12]
  split_ifs with h
  · subst h; rw [ordinal_succ_year]; simp [monthLength]
  · exact ordinal_succ_month y h1

example : isLeapYear 2000 = true ∧ isLeapYear 1900 = false := by decide

/-! ## C23 -/

/-- C23: after any sequence of ticks the date and time of day exist and the leap flag is right. -/
theorem C23_tick_valid {c : Clock} (hv : ValidFields c) (dts : List ℝ) :
    ValidFields (dts.foldl Clock.tick c) := by
  induction dts generalizing c with
  | nil => exact hv
  | cons dt l ih => exact ih (tick_spec hv dt).1

/-- C23: the constructor establishes it from a valid date. -/
theorem C23_init_valid {y m d h mi : ℤ} {s : ℝ} (hd : ValidDate y m d) (h0 : 0 ≤ h) (h24 : h < 24)
    (m0 : 0 ≤ mi) (m60 : mi < 60) (dts : List ℝ) :
    ValidFields (dts.foldl Clock.tick (Clock.init y m d h mi s)) :=
  C23_tick_valid (validFields_init hd h0 h24 m0 m60) dts

example : ValidFields (Clock.init 2024 2 29 23 59 59) :=
  validFields_init ⟨by norm_num, by norm_num, by norm_num, by decide⟩ (by norm_num) (by norm_num)
    (by norm_num) (by norm_num)

/-! ## C24 -/

/-- The instant a clock shows. -/
noncomputable def Clock.shown (c : Clock) : ℝ :=
  instant c.year c.month c.day c.hour c.minute c.second

/-- The full claim: a clock showing a proper time keeps showing one, and it is the start plus the
total of the ticks. -/
def ClockTracks : Prop :=
  ∀ (c : Clock) (dts : List ℝ), ValidFields c → 0 ≤ c.second → c.second < 60 → (∀ dt ∈ dts, 0 ≤ dt) →
    Clock.shown (dts.foldl Clock.tick c) = Clock.shown c + dts.sum ∧
    (dts.foldl Clock.tick c).second < 60

/-- C24: `absolute` is exactly the total ticked time. -/
theorem C24_absolute {c : Clock} (hv : ValidFields c) (dts : List ℝ) :
    (dts.foldl Clock.tick c).absolute = c.absolute + dts.sum := by
  induction dts generalizing c with
  | nil => simp
  | cons dt l ih =>
    have h := tick_spec hv dt
    rw [List.foldl_cons, ih h.1, h.2.1, List.sum_cons]; ring

/-- C24: each tick moves the instant shown by `dt` up to 10 microseconds. -/
theorem C24_instant_error {c : Clock} (hv : ValidFields c) (dts : List ℝ) :
    |Clock.shown (dts.foldl Clock.tick c) - (Clock.shown c + dts.sum)| ≤ dts.length * 0.00001 := by
  induction dts generalizing c with
  | nil => simp
  | cons dt l ih =>
    have h := tick_spec hv dt
    have h1 := ih h.1
    have h2 : |Clock.shown (c.tick dt) - (Clock.shown c + dt)| ≤ 0.00001 := by
      by_cases hr : |c.second + dt - 60| < 0.00001
      · have h3 := h.2.2
        rw [if_pos hr] at h3
        have e : Clock.shown (c.tick dt) = Clock.shown c + (60 - c.second) := by
          rw [Clock.shown, h3.1, h3.2, Clock.shown]; unfold instant; ring
        rw [e, show Clock.shown c + (60 - c.second) - (Clock.shown c + dt) = -(c.second + dt - 60) by ring,
          abs_neg]
        exact hr.le
      · have h3 := h.2.2
        rw [if_neg hr] at h3
        obtain ⟨e0, e1, e2, e3, e4, e5⟩ := h3
        have e : Clock.shown (c.tick dt) = Clock.shown c + dt := by
          rw [Clock.shown, e0, e1, e2, e3, e4, e5, Clock.shown]; unfold instant; ring
        rw [e, sub_self, abs_zero]; norm_num
    rw [List.foldl_cons, List.sum_cons, List.length_cons]
    have : Clock.shown (List.foldl Clock.tick (c.tick dt) l) - (Clock.shown c + (dt + l.sum))
        = (Clock.shown (List.foldl Clock.tick (c.tick dt) l) - (Clock.shown (c.tick dt) + l.sum))
          + (Clock.shown (c.tick dt) - (Clock.shown c + dt)) := by ring
    rw [this]
    refine (abs_add_le _ _).trans ?_
    push_cast
    linarith

/-- C24: once the second has jumped past the minute it never rolls over again: further
non-negative ticks leave every other field unchanged for ever. -/
theorem C24_stuck {c : Clock} (hv : ValidFields c) (hs : 60.00001 ≤ c.second) (dts : List ℝ)
    (hd : ∀ dt ∈ dts, 0 ≤ dt) :
    (dts.foldl Clock.tick c).minute = c.minute ∧ (dts.foldl Clock.tick c).hour = c.hour ∧
    (dts.foldl Clock.tick c).day = c.day ∧ (dts.foldl Clock.tick c).month = c.month ∧
    (dts.foldl Clock.tick c).year = c.year ∧
    (dts.foldl Clock.tick c).second = c.second + dts.sum := by
  induction dts generalizing c with
  | nil => simp
  | cons dt l ih =>
    have h := tick_spec hv dt
    have h0 : 0 ≤ dt := hd dt (by simp)
    have hr : ¬ |c.second + dt - 60| < 0.00001 := by
      rw [not_lt, le_abs]; left; norm_num at hs ⊢; linarith
    have h3 := h.2.2
    rw [if_neg hr] at h3
    obtain ⟨e0, e1, e2, e3, e4, e5⟩ := h3
    have := ih h.1 (by rw [e0]; linarith) fun x hx => hd x (List.mem_cons_of_mem _ hx)
    rw [List.foldl_cons, List.sum_cons]
    rw [e0, e1, e2, e3, e4, e5] at this
    refine ⟨this.1, this.2.1, this.2.2.1, this.2.2.2.1, this.2.2.2.2.1, ?_⟩
    rw [this.2.2.2.2.2]; ring

/-- C24: the full claim is false; a 7-second tick from 12:00:58 shows 12:00:65. -/
theorem C24_tracks_fails : ¬ ClockTracks := by
  intro h
  have hv : ValidFields (Clock.init 2024 1 1 12 0 58) :=
    validFields_init ⟨by norm_num, by norm_num, by norm_num, by decide⟩ (by norm_num) (by norm_num)
      (by norm_num) (by norm_num)
  have := (h (Clock.init 2024 1 1 12 0 58) [7] hv (by simp [Clock.init]) (by simp [Clock.init]; norm_num) (by simp)).2
  have h3 := (tick_spec hv 7).2.2
  rw [if_neg (by simp only [Clock.init]; norm_num [abs_of_pos])] at h3
  rw [List.foldl_cons, List.foldl_nil, h3.1] at this
  simp only [Clock.init] at this
  norm_num at this

/-- C24: the second conjunct alone is false too: a tick landing 5 microseconds past the minute is
silently shortened. -/
theorem C24_instant_inexact : ∃ (c : Clock) (dt : ℝ), ValidFields c ∧ 0 < dt ∧
    Clock.shown (c.tick dt) ≠ Clock.shown c + dt := by
  have hv : ValidFields (Clock.init 2024 1 1 12 0 0) :=
    validFields_init ⟨by norm_num, by norm_num, by norm_num, by decide⟩ (by norm_num) (by norm_num)
      (by norm_num) (by norm_num)
  refine ⟨_, 60.000005, hv, by norm_num, ?_⟩
  have h3 := (tick_spec hv 60.000005).2.2
  rw [if_pos (by simp only [Clock.init]; norm_num [abs_of_pos])] at h3
  rw [Clock.shown, h3.1, h3.2, Clock.shown]
  unfold instant
  simp only [Clock.init]
  intro h
  norm_num at h

/-- C24 (partial): with a fixed tick that divides the minute (and is at least 10 microseconds) and a
start on the grid, every reading is proper and exact, for any number of ticks. Missing: other tick
lengths, for which the claim is false. -/
theorem C24_tracks_partial {c : Clock} (hv : ValidFields c) {k j : ℕ} (hk : k ≤ 6000000) (hj : j < k)
    (hs : c.second = j * (60 / k)) (n : ℕ) :
    Clock.shown ((List.replicate n (60 / k : ℝ)).foldl Clock.tick c) = Clock.shown c + n * (60 / k) ∧
    0 ≤ ((List.replicate n (60 / k : ℝ)).foldl Clock.tick c).second ∧
    ((List.replicate n (60 / k : ℝ)).foldl Clock.tick c).second < 60 := by
  have hk0 : (0 : ℝ) < k := by exact_mod_cast (by omega : 0 < k)
  have hdt : (0 : ℝ) < 60 / k := by positivity
  have hdt5 : (0.00001 : ℝ) ≤ 60 / k := by
    rw [le_div_iff₀ hk0]
    have : (k : ℝ) ≤ 6000000 := by exact_mod_cast hk
    norm_num; linarith
  have hmul : (k : ℝ) * (60 / k) = 60 := by field_simp
  induction n generalizing c j with
  | zero =>
    simp only [List.replicate_zero, List.foldl_nil]
    refine ⟨by simp, by rw [hs]; positivity, ?_⟩
    have hj' : (j : ℝ) < k := by exact_mod_cast hj
    have := mul_lt_mul_of_pos_right hj' hdt
    rw [hs]; linarith
  | succ n ih =>
    rw [List.replicate_succ, List.foldl_cons]
    have h := tick_spec hv (60 / k)
    by_cases hlast : j + 1 = k
    · have e60 : c.second + 60 / k = 60 := by
        have hk' : (k : ℝ) = j + 1 := by exact_mod_cast hlast.symm
        have : ((j : ℝ) + 1) * (60 / k) = 60 := by rw [← hk']; exact hmul
        rw [hs]; linarith
      have h3 := h.2.2
      rw [if_pos (by rw [e60]; norm_num)] at h3
      have := ih h.1 (j := 0) (by omega) (by rw [h3.1]; simp)
      refine ⟨?_, this.2⟩
      rw [this.1]
      have : Clock.shown (c.tick (60 / k)) = Clock.shown c + 60 / k := by
        rw [Clock.shown, h3.1, h3.2, Clock.shown]; unfold instant; linarith
      rw [this]; push_cast; ring
    · have hlt : (j : ℝ) + 2 ≤ k := by exact_mod_cast (by omega : j + 2 ≤ k)
      have hle : c.second + 60 / k ≤ 60 - 60 / k := by
        have := mul_le_mul_of_nonneg_right hlt hdt.le
        rw [hmul] at this
        rw [hs]; linarith
      have h3 := h.2.2
      rw [if_neg (by rw [not_lt, le_abs]; right; linarith)] at h3
      obtain ⟨e0, e1, e2, e3, e4, e5⟩ := h3
      have := ih h.1 (j := j + 1) (by omega) (by rw [e0, hs]; push_cast; ring)
      refine ⟨?_, this.2⟩
      rw [this.1]
      have : Clock.shown (c.tick (60 / k)) = Clock.shown c + 60 / k := by
        rw [Clock.shown, e0, e1, e2, e3, e4, e5, Clock.shown]; unfold instant; ring
      rw [this]; push_cast; ring

/-- The simulator's step of 0.05 s meets the hypotheses. -/
example : ∃ c : Clock, ValidFields c ∧ c.second = ((3 : ℕ) : ℝ) * (60 / ((1200 : ℕ) : ℝ)) :=
  ⟨Clock.init 2024 12 31 23 59 0.15, validFields_init ⟨by norm_num, by norm_num, by norm_num, by decide⟩
    (by norm_num) (by norm_num) (by norm_num) (by norm_num), by simp only [Clock.init]; norm_num⟩

/-! ## C25 -/

/-- A list `[Y, M, D, h, m, s]` naming a time that exists. -/
structure ValidTime (t : DateTime) : Prop where
  date : ValidDate t.year t.month t.day
  h0 : 0 ≤ t.hour
  h24 : t.hour < 24
  m0 : 0 ≤ t.minute
  m60 : t.minute < 60
  s0 : 0 ≤ t.second
  s60 : t.second < 60

/-- The instant a list names. -/
noncomputable def DateTime.instant (t : DateTime) : ℝ :=
  Spec.instant t.year t.month t.day t.hour t.minute t.second

/-- The reading of a clock as a list. -/
def Clock.reading (c : Clock) : DateTime :=
  ⟨c.year, c.month, c.day, c.hour, c.minute, c.second⟩

/-- The full claim. -/
def IsAfterCorrect : Prop :=
  ∀ (c : Clock) (t : DateTime), ValidTime (Clock.reading c) → ValidTime t →
    (c.isAfter t = true ↔ DateTime.instant t ≤ DateTime.instant (Clock.reading c))

theorem isAfter_iff (c : Clock) (t : DateTime) : c.isAfter t = true ↔
    t.year ≤ c.year ∧ t.month ≤ c.month ∧ t.day ≤ c.day ∧ t.hour ≤ c.hour ∧ t.minute ≤ c.minute ∧
      t.second ≤ c.second := by
  unfold Clock.isAfter
  split_ifs <;> simp_all <;> intros <;> first | omega | linarith

/-- C25: the full claim is false: at midnight on 1 February 2024, 31 January 2024 counts as still
to come. -/
theorem C25_is_after_fails : ¬ IsAfterCorrect := by
  intro h
  have h1 : ValidTime ⟨2024, 2, 1, 0, 0, 0⟩ :=
    ⟨⟨by norm_num, by norm_num, by norm_num, by decide⟩, by norm_num, by norm_num, by norm_num,
      by norm_num, by norm_num, by norm_num⟩
  have h2 : ValidTime ⟨2024, 1, 31, 0, 0, 0⟩ :=
    ⟨⟨by norm_num, by norm_num, by norm_num, by decide⟩, by norm_num, by norm_num, by norm_num,
      by norm_num, by norm_num, by norm_num⟩
  have h3 := (h (Clock.init 2024 2 1 0 0 0) ⟨2024, 1, 31, 0, 0, 0⟩ h1 h2).2 (by
    have := (ordinal_lt h2.date h1.date).2 (by norm_num)
    have : (ordinal 2024 1 31 : ℝ) < ordinal 2024 2 1 := by exact_mod_cast this
    simp only [DateTime.instant, Clock.reading, Clock.init, Spec.instant]
    linarith)
  rw [isAfter_iff] at h3
  simp [Clock.init] at h3

/-- C25 (partial): `True` can be trusted: every field at or past the target implies the instant is.
Missing: the converse, which is false. -/
theorem C25_is_after_sound_partial (c : Clock) (t : DateTime) (hc : ValidTime (Clock.reading c))
    (ht : ValidTime t) (h : c.isAfter t = true) :
    DateTime.instant t ≤ DateTime.instant (Clock.reading c) := by
  rw [isAfter_iff] at h
  obtain ⟨h1, h2, h3, h4, h5, h6⟩ := h
  have ho : ordinal t.year t.month t.day ≤ ordinal c.year c.month c.day := by
    by_contra hn
    have := (ordinal_lt hc.date ht.date).1 (by simpa [Clock.reading] using hn)
    simp only [Clock.reading] at this
    omega
  have ho' : (ordinal t.year t.month t.day : ℝ) ≤ ordinal c.year c.month c.day := by exact_mod_cast ho
  have h4' : (t.hour : ℝ) ≤ c.hour := by exact_mod_cast h4
  have h5' : (t.minute : ℝ) ≤ c.minute := by exact_mod_cast h5
  simp only [DateTime.instant, Clock.reading, Spec.instant]
  linarith

/-- C25 (partial): within one minute of the calendar the answer is exact both ways. -/
theorem C25_same_minute_partial (c : Clock) (t : DateTime) (h1 : t.year = c.year)
    (h2 : t.month = c.month) (h3 : t.day = c.day) (h4 : t.hour = c.hour) (h5 : t.minute = c.minute) :
    c.isAfter t = true ↔ DateTime.instant t ≤ DateTime.instant (Clock.reading c) := by
  rw [isAfter_iff]
  simp only [DateTime.instant, Clock.reading, Spec.instant, h1, h2, h3, h4, h5]
  simp

/-! ## C26 -/

/-- The full claim. -/
def IsMinutesAwayCorrect : Prop :=
  ∀ (c : Clock) (t : DateTime) (n : ℤ), ValidTime (Clock.reading c) → ValidTime t →
    (c.leapYear = true ↔ IsLeap c.year) → 0 ≤ n → n < 60 →
    (c.isMinutesAway t n = true ↔
      DateTime.instant (Clock.reading c) < DateTime.instant t ∧
      DateTime.instant t ≤ DateTime.instant (Clock.reading c) + 60 * n)

/-- C26: a time that is 35 minutes in the past is reported as within the next 30 minutes. -/
theorem C26_past_reported : ∃ (c : Clock) (t : DateTime), ValidTime (Clock.reading c) ∧ ValidTime t ∧
    (c.leapYear = true ↔ IsLeap c.year) ∧
    DateTime.instant t + 60 * 35 = DateTime.instant (Clock.reading c) ∧
    c.isMinutesAway t 30 = true := by
  refine ⟨Clock.init 2024 5 1 10 5 0, ⟨2024, 5, 1, 9, 30, 0⟩, ?_, ?_, isLeapYear_iff 2024, ?_, ?_⟩
  · exact ⟨⟨by norm_num [Clock.reading, Clock.init], by norm_num [Clock.reading, Clock.init],
      by norm_num [Clock.reading, Clock.init], by decide⟩, by norm_num [Clock.reading, Clock.init], by norm_num [Clock.reading, Clock.init], by norm_num [Clock.reading, Clock.init],
      by norm_num [Clock.reading, Clock.init], by norm_num [Clock.reading, Clock.init], by norm_num [Clock.reading, Clock.init]⟩
  · exact ⟨⟨by norm_num, by norm_num, by norm_num, by decide⟩, by norm_num, by norm_num, by norm_num,
      by norm_num, by norm_num, by norm_num⟩
  · simp only [DateTime.instant, Clock.reading, Clock.init, Spec.instant]; push_cast; ring
  · have h1 : (Clock.init 2024 5 1 10 5 0).isAfter ⟨2024, 5, 1, 9, 30, 0⟩ = false := by
      rw [← Bool.not_eq_true, isAfter_iff]; simp [Clock.init]
    have h2 : (Clock.init 2024 5 1 10 5 0).setupTime ⟨2024, 5, 1, 9, 30, 0⟩ 30 = ⟨2024, 5, 1, 9, 0, 0⟩ := by
      simp [Clock.setupTime]
    rw [Clock.isMinutesAway, h1, h2]
    simp only [Bool.false_eq_true, if_false]
    rw [isAfter_iff]; simp [Clock.init]

/-- C26: a time three minutes ahead is not within the next 30 minutes. -/
theorem C26_future_missed : ∃ (c : Clock) (t : DateTime), ValidTime (Clock.reading c) ∧ ValidTime t ∧
    DateTime.instant t = DateTime.instant (Clock.reading c) + 60 * 3 ∧
    c.isMinutesAway t 30 = false := by
  refine ⟨Clock.init 2024 5 1 11 2 0, ⟨2024, 5, 1, 11, 5, 0⟩, ?_, ?_, ?_, ?_⟩
  · exact ⟨⟨by norm_num [Clock.reading, Clock.init], by norm_num [Clock.reading, Clock.init],
      by norm_num [Clock.reading, Clock.init], by decide⟩, by norm_num [Clock.reading, Clock.init], by norm_num [Clock.reading, Clock.init], by norm_num [Clock.reading, Clock.init],
      by norm_num [Clock.reading, Clock.init], by norm_num [Clock.reading, Clock.init], by norm_num [Clock.reading, Clock.init]⟩
  · exact ⟨⟨by norm_num, by norm_num, by norm_num, by decide⟩, by norm_num, by norm_num, by norm_num,
      by norm_num, by norm_num, by norm_num⟩
  · simp only [DateTime.instant, Clock.reading, Clock.init, Spec.instant]; push_cast; ring
  · have h1 : (Clock.init 2024 5 1 11 2 0).isAfter ⟨2024, 5, 1, 11, 5, 0⟩ = false := by
      rw [← Bool.not_eq_true, isAfter_iff]; simp [Clock.init]
    have h2 : (Clock.init 2024 5 1 11 2 0).setupTime ⟨2024, 5, 1, 11, 5, 0⟩ 30 = ⟨2024, 5, 1, 10, 35, 0⟩ := by
      simp [Clock.setupTime]
    rw [Clock.isMinutesAway, h1, h2]
    simp only [Bool.false_eq_true, if_false]
    rw [← Bool.not_eq_true, isAfter_iff]; simp [Clock.init]

/-- C26: the full claim is false. -/
theorem C26_window_fails : ¬ IsMinutesAwayCorrect := by
  intro h
  obtain ⟨c, t, hc, ht, hl, he, hf⟩ := C26_past_reported
  have := ((h c t 30 hc ht hl (by norm_num) (by norm_num)).1 hf).1
  linarith

/-- C26 (partial): on the same calendar hour, with no borrow from the hour, `True` is right.
Missing: other hours (false, `C26_past_reported`) and the converse (false, `C26_future_missed`). -/
theorem C26_same_hour_sound_partial (c : Clock) (t : DateTime) (n : ℤ) (hc : ValidTime (Clock.reading c))
    (ht : ValidTime t) (h1 : t.year = c.year) (h2 : t.month = c.month) (h3 : t.day = c.day)
    (h4 : t.hour = c.hour) (hb : n ≤ t.minute) (h : c.isMinutesAway t n = true) :
    DateTime.instant (Clock.reading c) < DateTime.instant t ∧
      DateTime.instant t ≤ DateTime.instant (Clock.reading c) + 60 * n := by
  have hs : c.setupTime t n = { t with minute := t.minute - n } := by
    rw [Clock.setupTime, if_neg (by omega)]
  unfold Clock.isMinutesAway at h
  by_cases ha : c.isAfter t = true
  · simp [ha] at h
  · rw [if_neg ha, hs, isAfter_iff] at h
    rw [isAfter_iff] at ha
    simp only at h
    obtain ⟨_, _, _, _, h5, h6⟩ := h
    have hm : c.minute < t.minute := by
      by_contra hcon
      exact ha ⟨h1.le, h2.le, h3.le, h4.le, by omega, h6⟩
    have hm' : (c.minute : ℝ) + 1 ≤ t.minute := by exact_mod_cast hm
    have h5' : (t.minute : ℝ) - n ≤ c.minute := by exact_mod_cast h5
    have s1 := hc.s60
    have s2 := ht.s0
    simp only [DateTime.instant, Clock.reading, Spec.instant, h1, h2, h3, h4] at s1 ⊢
    constructor <;> linarith

/-- C26 (partial): for targets on a whole minute, in the same hour with no borrow, the window is
exact. -/
theorem C26_same_hour_exact_partial (c : Clock) (t : DateTime) (n : ℤ) (hc : ValidTime (Clock.reading c))
    (ht : ValidTime t) (h1 : t.year = c.year) (h2 : t.month = c.month) (h3 : t.day = c.day)
    (h4 : t.hour = c.hour) (hb : n ≤ t.minute) (hs0 : t.second = 0) :
    c.isMinutesAway t n = true ↔
    DateTime.instant (Clock.reading c) < DateTime.instant t ∧
      DateTime.instant t ≤ DateTime.instant (Clock.reading c) + 60 * n := by
  refine ⟨C26_same_hour_sound_partial c t n hc ht h1 h2 h3 h4 hb, ?_⟩
  rintro ⟨ha, hb'⟩
  have hs : c.setupTime t n = { t with minute := t.minute - n } := by
    rw [Clock.setupTime, if_neg (by omega)]
  have s0 := hc.s0
  have s60 := hc.s60
  simp only [DateTime.instant, Clock.reading, Spec.instant, h1, h2, h3, h4, hs0] at ha hb' s0 s60
  have hlt : c.minute < t.minute := by
    by_contra hcon
    have : (t.minute : ℝ) ≤ c.minute := by exact_mod_cast (not_lt.1 hcon)
    linarith
  have hge : t.minute - n ≤ c.minute := by
    have : (t.minute : ℝ) - n < c.minute + 1 := by linarith
    have : t.minute - n < c.minute + 1 := by exact_mod_cast this
    omega
  have hna : ¬ c.isAfter t = true := by rw [isAfter_iff]; omega
  rw [Clock.isMinutesAway, if_neg hna, hs, isAfter_iff]
  exact ⟨h1.le, h2.le, h3.le, h4.le, hge, by simp only; rw [hs0]; exact s0⟩

/-- The hypotheses of the theorems above: a clock at 12:10:30, and times ahead of it and behind it. -/
example : ∃ (c : Clock) (t u : DateTime), ValidTime (Clock.reading c) ∧ ValidTime t ∧ ValidTime u ∧
    c.isAfter u = true ∧ (t.year = c.year ∧ t.month = c.month ∧ t.day = c.day ∧ t.hour = c.hour) ∧
    (5 : ℤ) ≤ t.minute ∧ t.second = 0 ∧ c.isMinutesAway t 5 = true := by
  refine ⟨Clock.init 2024 5 6 12 10 30, ⟨2024, 5, 6, 12, 14, 0⟩, ⟨2024, 5, 6, 12, 10, 20⟩, ?_, ?_, ?_, ?_, ⟨rfl, rfl, rfl, rfl⟩,
    by norm_num, rfl, ?_⟩
  · exact ⟨⟨by norm_num [Clock.reading, Clock.init], by norm_num [Clock.reading, Clock.init],
      by norm_num [Clock.reading, Clock.init], by decide⟩, by norm_num [Clock.reading, Clock.init],
      by norm_num [Clock.reading, Clock.init], by norm_num [Clock.reading, Clock.init],
      by norm_num [Clock.reading, Clock.init], by norm_num [Clock.reading, Clock.init],
      by norm_num [Clock.reading, Clock.init]⟩
  · exact ⟨⟨by norm_num, by norm_num, by norm_num, by decide⟩, by norm_num, by norm_num, by norm_num, by norm_num,
      by norm_num, by norm_num⟩
  · exact ⟨⟨by norm_num, by norm_num, by norm_num, by decide⟩, by norm_num, by norm_num, by norm_num, by norm_num,
      by norm_num, by norm_num⟩
  · rw [isAfter_iff]; norm_num [Clock.init]
  · have hna : ¬ (Clock.init 2024 5 6 12 10 30).isAfter ⟨2024, 5, 6, 12, 14, 0⟩ = true := by
      rw [isAfter_iff]; norm_num [Clock.init]
    rw [Clock.isMinutesAway, if_neg hna]
    have : (Clock.init 2024 5 6 12 10 30).setupTime ⟨2024, 5, 6, 12, 14, 0⟩ 5 = ⟨2024, 5, 6, 12, 9, 0⟩ := by
      unfold Clock.setupTime; norm_num
    rw [this, isAfter_iff]; norm_num [Clock.init]

end Adcs
