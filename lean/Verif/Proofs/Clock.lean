import Verif.Model.JDay
import Mathlib.Tactic.Push
import Mathlib.Tactic.NormNum

set_option autoImplicit false

/-! # Lemmas about `Clock.tick`

`Spec.instant`, `Spec.ordinal`, `Spec.ValidDate` come from `Spec/Calendar.lean`. -/

namespace Adcs

open JDay Spec

/-- `is_leap_year` is the Gregorian rule. -/
theorem isLeapYear_iff (y : ℤ) : isLeapYear y = true ↔ (4 ∣ y ∧ ¬ 100 ∣ y) ∨ 400 ∣ y := by
  unfold isLeapYear
  split_ifs <;> simp <;> omega

/-- `days_in_month` with the flag of the year is the Gregorian month length. -/
theorem daysInMonth_eq (y m : ℤ) (h1 : 1 ≤ m) (h12 : m ≤ 12) :
    daysInMonth m (isLeapYear y) = monthLength y m := by
  have : isLeapYear y = true ↔ IsLeap y := isLeapYear_iff y
  by_cases h : IsLeap y
  · have h' := this.2 h
    interval_cases m <;> simp [daysInMonth, monthLength, h, h']
  · have h' : isLeapYear y = false := by
      rw [← Bool.not_eq_true, this]; exact h
    interval_cases m <;> simp [daysInMonth, monthLength, h, h']

/-- The calendar fields are a date and time of day that exist, and the cached flag is right. -/
structure ValidFields (c : Clock) : Prop where
  date : ValidDate c.year c.month c.day
  h0 : 0 ≤ c.hour
  h24 : c.hour < 24
  m0 : 0 ≤ c.minute
  m60 : c.minute < 60
  leap : c.leapYear = true ↔ IsLeap c.year
  noLeapSecond : c.leapSecond = false

theorem validFields_init {y m d h mi : ℤ} {s : ℝ} (hd : ValidDate y m d) (h0 : 0 ≤ h) (h24 : h < 24)
    (m0 : 0 ≤ mi) (m60 : mi < 60) : ValidFields (Clock.init y m d h mi s) :=
  ⟨hd, h0, h24, m0, m60, isLeapYear_iff y, rfl⟩

theorem daysInMonth_of {y m : ℤ} {b : Bool} (hb : b = true ↔ IsLeap y) (h1 : 1 ≤ m) (h12 : m ≤ 12) :
    daysInMonth m b = monthLength y m := by
  rw [← daysInMonth_eq y m h1 h12]
  congr 1
  rw [Bool.eq_iff_iff, hb]; exact (isLeapYear_iff y).symm

/-- Effect of the calendar roll-over on the day number: the date stays valid and is the next day
exactly when the day field was moved one past. -/
theorem tickDay_spec {c : Clock} (hm1 : 1 ≤ c.month) (hm12 : c.month ≤ 12) (hd1 : 1 ≤ c.day)
    (hd : c.day ≤ monthLength c.year c.month + 1) (hl : c.leapYear = true ↔ IsLeap c.year) :
    ValidDate c.tickDay.year c.tickDay.month c.tickDay.day ∧
    ordinal c.tickDay.year c.tickDay.month c.tickDay.day = ordinal c.year c.month c.day ∧
    (c.tickDay.leapYear = true ↔ IsLeap c.tickDay.year) ∧
    c.tickDay.hour = c.hour ∧ c.tickDay.minute = c.minute ∧ c.tickDay.second = c.second ∧
    c.tickDay.absolute = c.absolute ∧ c.tickDay.leapSecond = c.leapSecond := by
  have hdm := daysInMonth_of hl hm1 hm12
  have hb := monthLength_bounds (y := c.year) hm1 hm12
  unfold Clock.tickDay
  by_cases h1 : c.day > daysInMonth c.month c.leapYear
  · have hday : c.day = monthLength c.year c.month + 1 := by omega
    by_cases h2 : c.month = 12
    · have h3 : c.month + 1 = 13 := by omega
      simp only [if_pos h1, if_pos h3]
      refine ⟨⟨by norm_num, by norm_num, by norm_num, ?_⟩, ?_, isLeapYear_iff _, by simp⟩
      · exact (by norm_num : (1:ℤ) ≤ 28).trans (monthLength_bounds (by norm_num) (by norm_num)).1
      · have e : monthLength c.year 12 = 31 := by simp [monthLength]
        rw [ordinal_succ_year, hday, h2, ordinal_succ_day, e]
    · have h3 : ¬ c.month + 1 = 13 := by omega
      simp only [if_pos h1, if_neg h3]
      refine ⟨⟨by omega, by omega, by norm_num, ?_⟩, ?_, hl, by simp⟩
      · exact (by norm_num : (1:ℤ) ≤ 28).trans (monthLength_bounds (by omega) (by omega)).1
      · rw [ordinal_succ_month _ hm1, hday, ordinal_succ_day]
  · have h3 : ¬ c.month = 13 := by omega
    simp only [if_neg h1, if_neg h3]
    refine ⟨⟨hm1, hm12, hd1, by omega⟩, by simp, hl, by simp⟩

/-- Everything about one tick: fields stay valid, the instant moves by `dt` up to what the
roll-over of the second discards. -/
theorem tick_spec {c : Clock} (hv : ValidFields c) (dt : ℝ) :
    ValidFields (c.tick dt) ∧
    (c.tick dt).absolute = c.absolute + dt ∧
    (if |c.second + dt - 60| < 0.00001 then
      (c.tick dt).second = 0 ∧
      instant (c.tick dt).year (c.tick dt).month (c.tick dt).day (c.tick dt).hour (c.tick dt).minute 0
        = instant c.year c.month c.day c.hour c.minute 60
    else (c.tick dt).second = c.second + dt ∧ (c.tick dt).year = c.year ∧ (c.tick dt).month = c.month ∧
      (c.tick dt).day = c.day ∧ (c.tick dt).hour = c.hour ∧ (c.tick dt).minute = c.minute) := by
  have hls := hv.noLeapSecond
  have hb := monthLength_bounds (y := c.year) hv.date.m1 hv.date.m12
  by_cases hr : |c.second + dt - 60| < 0.00001
  · have hs : c.tickSecond dt = { c with second := 0, absolute := c.absolute + dt, minute := c.minute + 1 } := by
      simp only [Clock.tickSecond, hls]
      rw [if_pos (Or.inl ⟨trivial, hr⟩)]
    simp only [if_pos hr]
    by_cases hm : c.minute + 1 = 60
    · by_cases hh : c.hour + 1 = 24
      · have e : (c.tickSecond dt).tickHour = { c with second := 0, absolute := c.absolute + dt, minute := 0, hour := 0, day := c.day + 1 } := by
          rw [hs]; simp [Clock.tickHour, hm, hh]
        have := tickDay_spec (c := (c.tickSecond dt).tickHour) (by rw [e]; exact hv.date.m1)
          (by rw [e]; exact hv.date.m12) (by rw [e]; have := hv.date.d1; simp only; omega)
          (by rw [e]; have := hv.date.dl; simp only; omega) (by rw [e]; exact hv.leap)
        obtain ⟨a1, a2, a3, a4, a5, a6, a7, a8⟩ := this
        change ValidFields (c.tickSecond dt).tickHour.tickDay ∧
          (c.tickSecond dt).tickHour.tickDay.absolute = _ ∧ _
        refine ⟨⟨a1, ?_, ?_, ?_, ?_, a3, ?_⟩, ?_, ?_, ?_⟩
        · rw [a4, e]
        · rw [a4, e]; norm_num
        · rw [a5, e]
        · rw [a5, e]; norm_num
        · rw [a8, e]; exact hls
        · rw [a7, e]
        · change (c.tickSecond dt).tickHour.tickDay.second = 0
          rw [a6, e]
        · change instant (c.tickSecond dt).tickHour.tickDay.year (c.tickSecond dt).tickHour.tickDay.month
            (c.tickSecond dt).tickHour.tickDay.day (c.tickSecond dt).tickHour.tickDay.hour
            (c.tickSecond dt).tickHour.tickDay.minute 0 = _
          unfold instant
          rw [a2, a4, a5, e]
          simp only [ordinal_succ_day]
          have h1 : (c.hour : ℝ) = 23 := by exact_mod_cast (by omega : c.hour = 23)
          have h2 : (c.minute : ℝ) = 59 := by exact_mod_cast (by omega : c.minute = 59)
          push_cast
          rw [h1, h2]; ring
      · have e : (c.tickSecond dt).tickHour = { c with second := 0, absolute := c.absolute + dt, minute := 0, hour := c.hour + 1 } := by
          rw [hs]; simp [Clock.tickHour, hm, hh]
        have := tickDay_spec (c := (c.tickSecond dt).tickHour) (by rw [e]; exact hv.date.m1)
          (by rw [e]; exact hv.date.m12) (by rw [e]; exact hv.date.d1)
          (by rw [e]; have := hv.date.dl; simp only; omega) (by rw [e]; exact hv.leap)
        obtain ⟨a1, a2, a3, a4, a5, a6, a7, a8⟩ := this
        change ValidFields (c.tickSecond dt).tickHour.tickDay ∧
          (c.tickSecond dt).tickHour.tickDay.absolute = _ ∧ _
        refine ⟨⟨a1, ?_, ?_, ?_, ?_, a3, ?_⟩, ?_, ?_, ?_⟩
        · rw [a4, e]; have := hv.h0; simp only; omega
        · rw [a4, e]; have := hv.h24; simp only; omega
        · rw [a5, e]
        · rw [a5, e]; norm_num
        · rw [a8, e]; exact hls
        · rw [a7, e]
        · change (c.tickSecond dt).tickHour.tickDay.second = 0
          rw [a6, e]
        · change instant (c.tickSecond dt).tickHour.tickDay.year (c.tickSecond dt).tickHour.tickDay.month
            (c.tickSecond dt).tickHour.tickDay.day (c.tickSecond dt).tickHour.tickDay.hour
            (c.tickSecond dt).tickHour.tickDay.minute 0 = _
          unfold instant
          rw [a2, a4, a5, e]
          have h2 : (c.minute : ℝ) = 59 := by exact_mod_cast (by omega : c.minute = 59)
          push_cast
          rw [h2]; ring
    · have hh : ¬ c.hour = 24 := by have := hv.h24; omega
      have e : (c.tickSecond dt).tickHour = { c with second := 0, absolute := c.absolute + dt, minute := c.minute + 1 } := by
        rw [hs]; simp [Clock.tickHour, hm, hh]
      have := tickDay_spec (c := (c.tickSecond dt).tickHour) (by rw [e]; exact hv.date.m1)
        (by rw [e]; exact hv.date.m12) (by rw [e]; exact hv.date.d1)
        (by rw [e]; have := hv.date.dl; simp only; omega) (by rw [e]; exact hv.leap)
      obtain ⟨a1, a2, a3, a4, a5, a6, a7, a8⟩ := this
      change ValidFields (c.tickSecond dt).tickHour.tickDay ∧
        (c.tickSecond dt).tickHour.tickDay.absolute = _ ∧ _
      refine ⟨⟨a1, ?_, ?_, ?_, ?_, a3, ?_⟩, ?_, ?_, ?_⟩
      · rw [a4, e]; exact hv.h0
      · rw [a4, e]; exact hv.h24
      · rw [a5, e]; have := hv.m0; simp only; omega
      · rw [a5, e]; have := hv.m60; simp only; omega
      · rw [a8, e]; exact hls
      · rw [a7, e]
      · change (c.tickSecond dt).tickHour.tickDay.second = 0
        rw [a6, e]
      · change instant (c.tickSecond dt).tickHour.tickDay.year (c.tickSecond dt).tickHour.tickDay.month
          (c.tickSecond dt).tickHour.tickDay.day (c.tickSecond dt).tickHour.tickDay.hour
          (c.tickSecond dt).tickHour.tickDay.minute 0 = _
        unfold instant
        rw [a2, a4, a5, e]
        push_cast
        ring
  · have hs : c.tickSecond dt = { c with second := c.second + dt, absolute := c.absolute + dt } := by
      simp only [Clock.tickSecond, hls]
      rw [if_neg]
      rintro (⟨_, h⟩ | ⟨h, _⟩)
      · exact hr h
      · simp at h
    have hm : ¬ c.minute = 60 := by have := hv.m60; omega
    have hh : ¬ c.hour = 24 := by have := hv.h24; omega
    have hdd : ¬ c.day > daysInMonth c.month c.leapYear := by
      rw [daysInMonth_of hv.leap hv.date.m1 hv.date.m12]; have := hv.date.dl; omega
    have h13 : ¬ c.month = 13 := by have := hv.date.m12; omega
    have e : c.tick dt = { c with second := c.second + dt, absolute := c.absolute + dt } := by
      rw [Clock.tick, hs]; simp [Clock.tickHour, Clock.tickDay, hm, hh, hdd, h13]
    rw [if_neg hr, e]
    exact ⟨⟨hv.date, hv.h0, hv.h24, hv.m0, hv.m60, hv.leap, hls⟩, rfl, rfl, rfl, rfl, rfl, rfl, rfl⟩

end Adcs
