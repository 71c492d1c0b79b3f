import Verif.Props.Clock
import Mathlib.Tactic.FieldSimp
import Mathlib.Tactic.LinearCombination

set_option autoImplicit false

/-! # C27-C32: Julian dates and the `JClock` class -/

namespace Adcs

open JDay Spec

/-! ## C27 -/

theorem pyInt_div {n k : ℤ} (hn : 0 ≤ n) (hk : 0 < k) : pyInt ((n : ℝ) / k) = n / k := by
  have hk' : (0 : ℝ) < k := by exact_mod_cast hk
  have hn' : (0 : ℝ) ≤ n := by exact_mod_cast hn
  rw [pyInt, if_neg (not_lt.2 (div_nonneg hn' hk'.le)), Int.floor_eq_iff]
  have h1 := Int.mul_ediv_add_emod n k
  have h2 := Int.emod_nonneg n hk.ne'
  have h3 := Int.emod_lt_of_pos n hk
  have h1' : (k : ℝ) * ((n / k : ℤ) : ℝ) + ((n % k : ℤ) : ℝ) = n := by exact_mod_cast h1
  have h2' : (0 : ℝ) ≤ ((n % k : ℤ) : ℝ) := by exact_mod_cast h2
  have h3' : ((n % k : ℤ) : ℝ) < k := by exact_mod_cast h3
  constructor
  · rw [le_div_iff₀ hk']; linarith
  · rw [div_lt_iff₀ hk']; linarith

/-- The year counted from March, which is what the century correction depends on. -/
def marchYear (y m : ℤ) : ℤ := if m ≤ 2 then y - 1 else y

theorem julianDate_eq (c : Clock) (hv : ValidDate c.year c.month c.day) (hy : 0 ≤ c.year)
    (hl : c.leapSecond = false) (h mi : ℤ) (s : ℝ) :
    c.julianDate h mi s = (ordinal c.year c.month c.day : ℝ) + jdOffset + (60 * h + mi + s / 60) / 1440
      + ((marchYear c.year c.month / 100 - marchYear c.year c.month / 400 - 15 : ℤ) : ℝ) := by
  have hm1 := hv.m1
  have hm12 := hv.m12
  have e1 : pyInt (((c.month : ℝ) + 9) / 12) = (c.month + 9) / 12 := by
    have := pyInt_div (n := c.month + 9) (k := 12) (by omega) (by norm_num)
    push_cast at this; exact this
  have e2 : pyInt (7 / 4 * ((c.year : ℝ) + ((pyInt (((c.month : ℝ) + 9) / 12) : ℤ) : ℝ)))
      = 7 * (c.year + (c.month + 9) / 12) / 4 := by
    rw [e1, ← pyInt_div (n := 7 * (c.year + (c.month + 9) / 12)) (k := 4) (by omega) (by norm_num)]
    congr 1; push_cast; ring
  have e3 : pyInt (275 * (c.month : ℝ) / 9) = 275 * c.month / 9 := by
    have := pyInt_div (n := 275 * c.month) (k := 9) (by omega) (by norm_num)
    push_cast at this; exact this
  have key : 367 * c.year + c.day - 7 * (c.year + (c.month + 9) / 12) / 4 + 275 * c.month / 9
      = ordinal c.year c.month c.day + 411
        + (marchYear c.year c.month / 100 - marchYear c.year c.month / 400 - 15) := by
    unfold ordinal
    rw [daysBeforeMonth_eq c.year c.month hm1 (by omega)]
    unfold daysBeforeYear marchYear
    by_cases hleap : IsLeap c.year
    · simp only [if_pos hleap]; unfold IsLeap at hleap
      generalize c.month = m at *
      split_ifs with h2
      · have : m = 1 ∨ m = 2 := by omega
        rcases this with rfl | rfl <;> omega
      · have h3 : (m + 9) / 12 = 1 := by omega
        rw [h3]; omega
    · simp only [if_neg hleap]; unfold IsLeap at hleap
      generalize c.month = m at *
      split_ifs with h2
      · have : m = 1 ∨ m = 2 := by omega
        rcases this with rfl | rfl <;> omega
      · have h3 : (m + 9) / 12 = 1 := by omega
        rw [h3]
        by_cases h4 : 4 ∣ c.year
        · have h100 : 100 ∣ c.year := by by_contra h100; exact hleap (Or.inl ⟨h4, h100⟩)
          have h400 : ¬ 400 ∣ c.year := fun h400 => hleap (Or.inr h400)
          clear hleap
          omega
        · have h5 : c.year / 4 = (c.year - 1) / 4 := by omega
          have h6 : c.year / 100 = (c.year - 1) / 100 := by omega
          have h7 : c.year / 400 = (c.year - 1) / 400 := by omega
          clear hleap
          rw [← h6, ← h7, ← h5]
          have h8 : 7 * (c.year + 1) / 4 = 2 * c.year + 1 - c.year / 4 := by omega
          omega
  have key' : (367 : ℝ) * c.year + c.day - ((7 * (c.year + (c.month + 9) / 12) / 4 : ℤ) : ℝ)
      + ((275 * c.month / 9 : ℤ) : ℝ) = (ordinal c.year c.month c.day : ℝ) + 411
        + ((marchYear c.year c.month / 100 - marchYear c.year c.month / 400 - 15 : ℤ) : ℝ) := by
    exact_mod_cast key
  unfold Clock.julianDate
  simp only [hl, e2, e3, Bool.false_eq_true, if_false]
  unfold jdOffset
  linear_combination key'

/-- C27: from March 1900 to February 2100 the formula is the true Julian date: the day number, the
fixed offset of the Julian day count, and the fraction of the day. -/
theorem C27_julian_date (c : Clock) (hv : ValidDate c.year c.month c.day)
    (hl : c.leapSecond = false) (h1 : 1900 ≤ marchYear c.year c.month)
    (h2 : marchYear c.year c.month ≤ 2099) (h mi : ℤ) (s : ℝ) :
    c.julianDate h mi s
      = (ordinal c.year c.month c.day : ℝ) + 1721424.5 + (3600 * h + 60 * mi + s) / 86400 := by
  have hy : 0 ≤ c.year := by unfold marchYear at h1; split_ifs at h1 <;> omega
  rw [julianDate_eq c hv hy hl]
  have : marchYear c.year c.month / 100 - marchYear c.year c.month / 400 - 15 = 0 := by omega
  rw [this]; unfold jdOffset; push_cast; ring

example : ∃ c : Clock, ValidDate c.year c.month c.day ∧ c.leapSecond = false ∧
    1900 ≤ marchYear c.year c.month ∧ marchYear c.year c.month ≤ 2099 :=
  ⟨Clock.init 2024 2 29 12 0 0, ⟨by norm_num [Clock.init], by norm_num [Clock.init],
    by norm_num [Clock.init], by decide⟩, rfl, by decide, by decide⟩

/-- C27: the range is exact: for every other non-negative year the formula is off by the number of
missing or extra century days. -/
theorem C27_outside_range (c : Clock) (hv : ValidDate c.year c.month c.day) (hy : 0 ≤ c.year)
    (hl : c.leapSecond = false) (h mi : ℤ) (s : ℝ) :
    c.julianDate h mi s
      = (ordinal c.year c.month c.day : ℝ) + 1721424.5 + (3600 * h + 60 * mi + s) / 86400 ↔
    1900 ≤ marchYear c.year c.month ∧ marchYear c.year c.month ≤ 2099 := by
  rw [julianDate_eq c hv hy hl]
  unfold jdOffset
  constructor
  · intro h
    have : ((marchYear c.year c.month / 100 - marchYear c.year c.month / 400 - 15 : ℤ) : ℝ) = 0 := by
      linear_combination h
    have h0 : marchYear c.year c.month / 100 - marchYear c.year c.month / 400 - 15 = 0 := by
      exact_mod_cast this
    omega
  · rintro ⟨h1, h2⟩
    have : marchYear c.year c.month / 100 - marchYear c.year c.month / 400 - 15 = 0 := by omega
    rw [this]; push_cast; ring

theorem ordinal_2000 : ordinal 2000 1 1 = 730120 := by
  simp [ordinal, daysBeforeYear, daysBeforeMonth]

theorem init_ok {y m d h mi s : ℤ} {j : JClock} (hj : JClock.init y m d h mi s = .ok j) :
    (1 ≤ y ∧ y ≤ 9999 ∧ ValidDate y m d ∧ 0 ≤ h ∧ h < 24 ∧ 0 ≤ mi ∧ mi < 60 ∧ 0 ≤ s ∧ s < 60) ∧
    j.datetime = usDay * ordinal y m d + 1000000 * (3600 * h + 60 * mi + s) ∧ j.absolute = 0 := by
  unfold JClock.init mkDatetime at hj
  split_ifs at hj with hc
  · simp only [Except.ok.injEq] at hj
    obtain ⟨a, b, c, e, f, g, r⟩ := hc
    subst hj
    exact ⟨⟨a, b, ⟨c, e, f, g⟩, r⟩, rfl, rfl⟩

/-- C27: `JClock.julian_date` is the true Julian date for every date the class accepts. -/
theorem C27_jclock_julian_date {y m d h mi s : ℤ} {j : JClock}
    (hj : JClock.init y m d h mi s = .ok j) :
    j.julianDate = (ordinal y m d : ℝ) + 1721424.5 + (3600 * h + 60 * mi + s) / 86400 := by
  obtain ⟨-, h1, -⟩ := init_ok hj
  unfold JClock.julianDate totalSeconds refDatetime
  rw [h1, ordinal_2000]
  unfold usDay
  push_cast
  ring

/-- C27: the two classes agree on the Julian date in the range. -/
theorem C27_classes_agree {y m d h mi s : ℤ} {j : JClock} (hj : JClock.init y m d h mi s = .ok j)
    (h1 : 1900 ≤ marchYear y m) (h2 : marchYear y m ≤ 2099) :
    (Clock.init y m d h mi s).julianDate h mi s = j.julianDate := by
  obtain ⟨⟨-, -, hv, -⟩, -, -⟩ := init_ok hj
  rw [C27_jclock_julian_date hj, C27_julian_date (Clock.init y m d h mi s) hv rfl h1 h2]
  rfl

example : ∃ j, JClock.init 2024 2 29 23 59 59 = .ok j := ⟨_, rfl⟩

/-! ## C28 -/

theorem timedelta_error (dt : ℝ) : |(timedelta dt : ℝ) - dt * 1000000| ≤ 1 / 2 := by
  unfold timedelta roundHalfEven
  have h := Int.floor_add_fract (dt * 1000000)
  have h0 := Int.fract_nonneg (dt * 1000000)
  have h1 := Int.fract_lt_one (dt * 1000000)
  rw [abs_le]
  split_ifs <;> push_cast <;> constructor <;> linarith

theorem timedelta_whole {dt : ℝ} {k : ℤ} (h : dt * 1000000 = k) : timedelta dt = k := by
  unfold timedelta roundHalfEven
  rw [h]; simp

/-- C28: a tick inside the range moves the clock by `dt` rounded to the microsecond, and is exact on
whole microseconds. -/
theorem C28_tick {c c' : JClock} {dt : ℝ} (h : c.tick dt = (.ok (), c')) :
    |(c'.datetime : ℝ) - (c.datetime + dt * 1000000)| ≤ 1 / 2 ∧
    ∀ k : ℤ, dt * 1000000 = k → c'.datetime = c.datetime + k := by
  simp only [JClock.tick] at h
  split_ifs at h with hr
  · simp only [Prod.mk.injEq, true_and] at h
    subst h
    refine ⟨?_, ?_⟩
    · have := timedelta_error dt
      push_cast
      rwa [show (c.datetime : ℝ) + (timedelta dt : ℝ) - (c.datetime + dt * 1000000)
        = (timedelta dt : ℝ) - dt * 1000000 by ring]
    · intro k hk; simp only; rw [timedelta_whole hk]
  · simp at h

/-- C28: a tick raises exactly when the rounded result leaves the years 1..9999, and then the clock is
unchanged. -/
theorem C28_tick_overflow (c : JClock) (dt : ℝ) :
    ((c.tick dt).1 = .ok () ↔ InRange (c.datetime + timedelta dt)) ∧
    ((c.tick dt).1 ≠ .ok () → c.tick dt = (.error .overflow, c)) := by
  unfold JClock.tick
  by_cases hr : InRange (c.datetime + timedelta dt) <;> simp [hr]

/-- C28: two whole-microsecond ticks are one tick by the sum, when all three stay in range. -/
theorem C28_tick_add {c : JClock} {a b : ℝ} {ka kb : ℤ} (ha : a * 1000000 = ka) (hb : b * 1000000 = kb)
    (h1 : InRange (c.datetime + ka)) (h2 : InRange (c.datetime + ka + kb)) :
    c.ticks [a, b] = c.tick (a + b) := by
  have hab : (a + b) * 1000000 = (ka + kb : ℤ) := by push_cast; rw [add_mul, ha, hb]
  have e1 : c.tick a = (.ok (), { c with datetime := c.datetime + ka }) := by
    simp only [JClock.tick, timedelta_whole ha, if_pos h1]
  have e2 : JClock.tick { c with datetime := c.datetime + ka } b
      = (.ok (), { c with datetime := c.datetime + ka + kb }) := by
    simp only [JClock.tick, timedelta_whole hb, if_pos h2]
  have e3 : c.tick (a + b) = (.ok (), { c with datetime := c.datetime + ka + kb }) := by
    simp only [JClock.tick, timedelta_whole hab, ← add_assoc, if_pos h2]
  rw [e3, JClock.ticks, e1]
  simp only [JClock.ticks, e2]

/-- C28: after any number of ticks the drift is at most half a microsecond each. -/
theorem C28_ticks_error {c c' : JClock} {dts : List ℝ} (h : c.ticks dts = (.ok (), c')) :
    |(c'.datetime : ℝ) - (c.datetime + dts.sum * 1000000)| ≤ dts.length / 2 := by
  induction dts generalizing c with
  | nil =>
    simp only [JClock.ticks, Prod.mk.injEq, true_and] at h
    subst h; simp
  | cons dt l ih =>
    rw [JClock.ticks] at h
    rcases hc : c.tick dt with ⟨r, c1⟩
    rw [hc] at h
    cases r with
    | error e => simp at h
    | ok u =>
      have h1 := ih h
      have h2 := (C28_tick hc).1
      rw [List.sum_cons, List.length_cons]
      have : (c'.datetime : ℝ) - (c.datetime + (dt + l.sum) * 1000000)
        = (c'.datetime - (c1.datetime + l.sum * 1000000))
          + (c1.datetime - (c.datetime + dt * 1000000)) := by ring
      rw [this]
      refine (abs_add_le _ _).trans ?_
      push_cast
      linarith

/-- The simulator's 0.05 s step is a whole number of microseconds. -/
example : (0.05 : ℝ) * 1000000 = ((50000 : ℤ) : ℝ) := by norm_num

/-! ## C29 -/

/-- C29: `is_after` is a strict total order on instants. -/
theorem C29_is_after_order (a b c : JClock) :
    a.isAfter a.datetime = false ∧
    (a.isAfter b.datetime = true → b.isAfter c.datetime = true → a.isAfter c.datetime = true) ∧
    (a.isAfter b.datetime = true ∨ b.isAfter a.datetime = true ∨ a.eq b = true) ∧
    (a.isAfter b.datetime = true → b.isAfter a.datetime = false) := by
  simp only [JClock.isAfter, JClock.eq, decide_eq_true_eq, decide_eq_false_iff_not]
  omega

/-- C29: `minutes_away` is antisymmetric and additive, and is positive exactly for later times. -/
theorem C29_minutes_away (a b c : JClock) :
    a.minutesAway b.datetime = -b.minutesAway a.datetime ∧
    a.minutesAway c.datetime = a.minutesAway b.datetime + b.minutesAway c.datetime ∧
    (0 < a.minutesAway b.datetime ↔ b.isAfter a.datetime = true) := by
  refine ⟨?_, ?_, ?_⟩
  · simp only [JClock.minutesAway, totalSeconds]; push_cast; ring
  · simp only [JClock.minutesAway, totalSeconds]; push_cast; ring
  · simp only [JClock.minutesAway, totalSeconds, JClock.isAfter, decide_eq_true_eq]
    rw [div_pos_iff_of_pos_right (by norm_num), div_pos_iff_of_pos_right (by norm_num)]
    constructor
    · intro h; have : 0 < b.datetime - a.datetime := by exact_mod_cast h
      omega
    · intro h; exact_mod_cast (by omega : 0 < b.datetime - a.datetime)

/-- C29: `is_minutes_away(t, n)` is "within one minute of n minutes away". -/
theorem C29_is_minutes_away (a : JClock) (t : ℤ) (n : ℝ) :
    a.isMinutesAway t n = true ↔ |a.minutesAway t - n| < 1 := by
  simp [JClock.isMinutesAway, JClock.minutesAway]

/-- C29: one minute of `minutes_away` is sixty seconds of ticking. -/
theorem C29_minutes_away_tick {c c' : JClock} {dt : ℝ} {k : ℤ} (hk : dt * 1000000 = k)
    (h : c.tick dt = (.ok (), c')) : c.minutesAway c'.datetime = dt / 60 := by
  rw [(C28_tick h).2 k hk]
  have : dt = k / 1000000 := by rw [← hk]; ring
  simp only [JClock.minutesAway, totalSeconds]
  rw [this]; push_cast; ring

/-- C29: `julian_date` is strictly increasing in the instant, and one day of ticking adds one. -/
theorem C29_julian_date (a b : JClock) :
    (a.julianDate < b.julianDate ↔ b.isAfter a.datetime = true) ∧
    (b.datetime = a.datetime + usDay → b.julianDate = a.julianDate + 1) := by
  constructor
  · simp only [JClock.julianDate, totalSeconds, JClock.isAfter, decide_eq_true_eq]
    constructor
    · intro h
      have : (a.datetime : ℝ) < b.datetime := by push_cast at h; linarith
      exact_mod_cast this
    · intro h
      have : (a.datetime : ℝ) < b.datetime := by exact_mod_cast h
      push_cast; linarith
  · intro h
    simp only [JClock.julianDate, totalSeconds, h, usDay]
    push_cast; ring

/-! ## C30 -/

/-- The full claim, for both classes. -/
def AbsoluteCounts : Prop :=
  (∀ (c : Clock) (dts : List ℝ), ValidFields c →
    (dts.foldl Clock.tick c).absolute = c.absolute + dts.sum) ∧
  (∀ (c c' : JClock) (dts : List ℝ), c.ticks dts = (.ok (), c') →
    c'.absolute = c.absolute + dts.sum)

/-- C30: a `JClock` never moves its `absolute` counter. -/
theorem C30_jclock_absolute_frozen {c c' : JClock} {dts : List ℝ} {r : Py Unit}
    (h : c.ticks dts = (r, c')) : c'.absolute = c.absolute := by
  induction dts generalizing c with
  | nil => simp only [JClock.ticks, Prod.mk.injEq] at h; rw [← h.2]
  | cons dt l ih =>
    rw [JClock.ticks] at h
    rcases hc : c.tick dt with ⟨r1, c1⟩
    have h1 : c1.absolute = c.absolute := by
      simp only [JClock.tick] at hc
      split_ifs at hc <;> simp only [Prod.mk.injEq] at hc <;> rw [← hc.2]
    rw [hc] at h
    cases r1 with
    | error e => simp only [Prod.mk.injEq] at h; rw [← h.2, h1]
    | ok u => rw [ih h, h1]

/-- C30: the full claim is false, because of `JClock`. -/
theorem C30_absolute_fails : ¬ AbsoluteCounts := by
  rintro ⟨-, h⟩
  have hr : InRange (usDay * 730120 + 1000000) := by decide
  have ht : (⟨usDay * 730120, 0⟩ : JClock).ticks [1] = (.ok (), ⟨usDay * 730120 + 1000000, 0⟩) := by
    have : timedelta 1 = 1000000 := timedelta_whole (by norm_num)
    simp [JClock.ticks, JClock.tick, this, hr]
  have := h _ _ _ ht
  simp at this

/-- C30 (partial): for `Clock` the counter is the total. Missing: `JClock`, for which it is false. -/
theorem C30_absolute_partial {c : Clock} (hv : ValidFields c) (dts : List ℝ) :
    (dts.foldl Clock.tick c).absolute = c.absolute + dts.sum := C24_absolute hv dts

/-! ## C31 -/

theorem pyMod_range (x : ℝ) : 0 ≤ pyMod x 86400 ∧ pyMod x 86400 < 86400 := by
  unfold pyMod
  have h1 := Int.floor_le (x / 86400)
  have h2 := Int.lt_floor_add_one (x / 86400)
  rw [le_div_iff₀ (by norm_num)] at h1
  rw [div_lt_iff₀ (by norm_num)] at h2
  constructor <;> linarith

theorem theta_range (x : ℝ) : 0 ≤ npRadians (pyMod x 86400 / 240) ∧
    npRadians (pyMod x 86400 / 240) < 2 * Real.pi := by
  obtain ⟨h1, h2⟩ := pyMod_range x
  unfold npRadians
  have := Real.pi_pos
  constructor
  · positivity
  · have : pyMod x 86400 / 240 < 360 := by linarith
    nlinarith

/-- C31: the angle is always in `[0, 2π)`. -/
theorem C31_theta_range (c : Clock) (j : JClock) :
    (0 ≤ c.thetaGmst ∧ c.thetaGmst < 2 * Real.pi) ∧ (0 ≤ j.thetaGmst ∧ j.thetaGmst < 2 * Real.pi) :=
  ⟨theta_range _, theta_range _⟩

theorem dt_fields {o h mi s : ℤ} (h0 : 0 ≤ h) (h24 : h < 24) (m0 : 0 ≤ mi) (m60 : mi < 60)
    (s0 : 0 ≤ s) (s60 : s < 60) :
    dtHour (usDay * o + 1000000 * (3600 * h + 60 * mi + s)) = h ∧
    dtMinute (usDay * o + 1000000 * (3600 * h + 60 * mi + s)) = mi ∧
    dtSecond (usDay * o + 1000000 * (3600 * h + 60 * mi + s)) = s := by
  unfold dtHour dtMinute dtSecond usDay
  omega

/-- C31: the two classes agree on centuries, sidereal seconds and sidereal angle. -/
theorem C31_classes_agree {y m d h mi s : ℤ} {j : JClock} (hj : JClock.init y m d h mi s = .ok j)
    (h1 : 1900 ≤ marchYear y m) (h2 : marchYear y m ≤ 2099) :
    (Clock.init y m d h mi s).centuriesElapsed = j.centuriesElapsed ∧
    (Clock.init y m d h mi s).gmstSeconds = j.gmstSeconds ∧
    (Clock.init y m d h mi s).thetaGmst = j.thetaGmst := by
  obtain ⟨⟨-, -, hv, a0, a1, a2, a3, a4, a5⟩, hd, -⟩ := init_ok hj
  obtain ⟨f1, f2, f3⟩ := dt_fields (o := ordinal y m d) a0 a1 a2 a3 a4 a5
  rw [← hd] at f1 f2 f3
  have hc : (Clock.init y m d h mi s).centuriesElapsed = j.centuriesElapsed := by
    unfold Clock.centuriesElapsed JClock.centuriesElapsed
    rw [C27_julian_date (Clock.init y m d h mi s) hv rfl h1 h2]
    simp only [f1, f2, f3]
    unfold totalSeconds refDatetime
    rw [hd, ordinal_2000]
    unfold usDay
    simp only [Clock.init]
    push_cast
    ring
  have hg : (Clock.init y m d h mi s).gmstSeconds = j.gmstSeconds := by
    unfold Clock.gmstSeconds JClock.gmstSeconds
    rw [hc]
    simp only [f1, f2, f3, Clock.init]
    ring
  refine ⟨hc, hg, ?_⟩
  unfold Clock.thetaGmst JClock.thetaGmst
  rw [hg]

/-! ## C32 -/

/-- The full claim: an advance of less than a minute (within a day) advances sidereal time in
proportion. -/
def GmstAdvances : Prop :=
  ∀ (a b : JClock), a.datetime ≤ b.datetime → b.datetime < a.datetime + 60000000 →
    a.datetime / usDay = b.datetime / usDay →
    b.gmstSeconds - a.gmstSeconds = 1.002737909350795 * totalSeconds (b.datetime - a.datetime)

theorem centuries_same {a b : JClock} (hday : a.datetime / usDay = b.datetime / usDay) :
    b.centuriesElapsed - a.centuriesElapsed
      = (((b.datetime % 1000000 - a.datetime % 1000000 : ℤ)) : ℝ) / 1000000 / (86400 * 36525) := by
  have e : ∀ u : ℤ, u = usDay * (u / usDay) + 3600000000 * dtHour u + 60000000 * dtMinute u
      + 1000000 * dtSecond u + u % 1000000 := by
    intro u; unfold dtHour dtMinute dtSecond usDay; omega
  have ea := e a.datetime
  have eb := e b.datetime
  have ea' : (a.datetime : ℝ) = usDay * ((a.datetime / usDay : ℤ) : ℝ) + 3600000000 * dtHour a.datetime
    + 60000000 * dtMinute a.datetime + 1000000 * dtSecond a.datetime + ((a.datetime % 1000000 : ℤ) : ℝ) := by
    exact_mod_cast ea
  have eb' : (b.datetime : ℝ) = usDay * ((b.datetime / usDay : ℤ) : ℝ) + 3600000000 * dtHour b.datetime
    + 60000000 * dtMinute b.datetime + 1000000 * dtSecond b.datetime + ((b.datetime % 1000000 : ℤ) : ℝ) := by
    exact_mod_cast eb
  rw [← hday] at eb'
  unfold JClock.centuriesElapsed totalSeconds
  push_cast
  linear_combination (1 / 1000000 / (86400 * 36525)) * (eb' - ea')

/-- C32 (partial): between two instants of one day that differ by a whole number of seconds the
sidereal time advances in exact proportion. Missing: fractions of a second, for which it is false. -/
theorem C32_gmst_partial {a b : JClock} (hday : a.datetime / usDay = b.datetime / usDay)
    (hwhole : a.datetime % 1000000 = b.datetime % 1000000) :
    b.gmstSeconds - a.gmstSeconds = 1.002737909350795 * totalSeconds (b.datetime - a.datetime) := by
  have hc := centuries_same hday
  rw [hwhole, sub_self] at hc
  have hc' : b.centuriesElapsed = a.centuriesElapsed := by
    have : b.centuriesElapsed - a.centuriesElapsed = 0 := by rw [hc]; simp
    linarith
  have key : totalSeconds (b.datetime - a.datetime)
      = 3600 * (dtHour b.datetime - dtHour a.datetime : ℝ)
        + 60 * (dtMinute b.datetime - dtMinute a.datetime) + (dtSecond b.datetime - dtSecond a.datetime) := by
    have : b.datetime - a.datetime = 1000000 * (3600 * (dtHour b.datetime - dtHour a.datetime)
        + 60 * (dtMinute b.datetime - dtMinute a.datetime) + (dtSecond b.datetime - dtSecond a.datetime)) := by
      unfold dtHour dtMinute dtSecond usDay; unfold usDay at hday; omega
    unfold totalSeconds
    rw [this]; push_cast; ring
  unfold JClock.gmstSeconds
  rw [hc', key]
  ring

example : ∃ a b : JClock, a.datetime / usDay = b.datetime / usDay ∧
    a.datetime % 1000000 = b.datetime % 1000000 ∧ a.datetime < b.datetime :=
  ⟨⟨usDay * 730120 + 59000000, 0⟩, ⟨usDay * 730120 + 61000000, 0⟩, by decide, by decide, by decide⟩

/-- C32: the full claim is false: the fraction of the second does not rotate the Earth, so half a
second after midnight on 1 January 2000 the sidereal time has moved by under two milliseconds. -/
theorem C32_gmst_fails : ¬ GmstAdvances := by
  intro h
  have hday : (⟨usDay * 730120, 0⟩ : JClock).datetime / usDay
      = (⟨usDay * 730120 + 500000, 0⟩ : JClock).datetime / usDay := by decide
  have h1 := h ⟨usDay * 730120, 0⟩ ⟨usDay * 730120 + 500000, 0⟩ (by decide) (by decide) hday
  have e1 : (⟨usDay * 730120, 0⟩ : JClock).centuriesElapsed = -1 / 73050 := by
    have f1 : dtHour (usDay * 730120) = 0 := by decide
    have f2 : dtMinute (usDay * 730120) = 0 := by decide
    have f3 : dtSecond (usDay * 730120) = 0 := by decide
    unfold JClock.centuriesElapsed totalSeconds refDatetime
    simp only [f1, f2, f3, ordinal_2000]
    unfold usDay
    norm_num
  have hc := centuries_same hday
  have hmod : (⟨usDay * 730120 + 500000, 0⟩ : JClock).datetime % 1000000
      - (⟨usDay * 730120, 0⟩ : JClock).datetime % 1000000 = 500000 := by decide
  rw [hmod, e1] at hc
  have e2 : (⟨usDay * 730120 + 500000, 0⟩ : JClock).centuriesElapsed
      = -1 / 73050 + 1 / 2 / (86400 * 36525) := by push_cast at hc; linarith
  have g1 : dtHour (usDay * 730120 + 500000) = dtHour (usDay * 730120) := by decide
  have g2 : dtMinute (usDay * 730120 + 500000) = dtMinute (usDay * 730120) := by decide
  have g3 : dtSecond (usDay * 730120 + 500000) = dtSecond (usDay * 730120) := by decide
  unfold JClock.gmstSeconds totalSeconds at h1
  rw [e1, e2] at h1
  simp only [g1, g2, g3, add_sub_cancel_left] at h1
  norm_num at h1

end Adcs
