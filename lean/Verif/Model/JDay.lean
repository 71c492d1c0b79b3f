import Verif.Py
import Verif.Spec.Calendar
import Mathlib.Algebra.Order.Round

set_option autoImplicit false

/-! # Model of `src/oresat_adcs/classes/jday.py`

Python `int` fields are `ℤ`, floats are `ℝ`.  `datetime` (standard library) is the number of
microseconds since the start of day 0 of the calendar, with the range check of the library. -/

namespace Adcs.JDay

open Adcs

/-- Python `int(x)` on a float: truncation towards zero. -/
noncomputable def pyInt (x : ℝ) : ℤ := if x < 0 then ⌈x⌉ else ⌊x⌋

/-- Python `x % m` on floats for `m > 0`. -/
noncomputable def pyMod (x m : ℝ) : ℝ := x - m * ⌊x / m⌋

/-! ## `Clock`, lines 4-233 -/

/-- Attributes of a `Clock`, lines 18-27. -/
structure Clock where
  absolute : ℝ
  year : ℤ
  month : ℤ
  day : ℤ
  hour : ℤ
  minute : ℤ
  second : ℝ
  leapYear : Bool
  leapSecond : Bool

/-- The list `[Year, Month, Day, Hour, Minute, Second]` taken by `is_after`. -/
structure DateTime where
  year : ℤ
  month : ℤ
  day : ℤ
  hour : ℤ
  minute : ℤ
  second : ℝ

/-- `Clock.is_leap_year`, lines 112-128, as a function of the year. -/
def isLeapYear (year : ℤ) : Bool :=
  if ¬ (year % 4 = 0) then false
  else if ¬ (year % 100 = 0) then true
  else if ¬ (year % 400 = 0) then false
  else true

/-- `Clock.days_in_month`, lines 130-148. -/
def daysInMonth (month : ℤ) (leapYear : Bool) : ℤ :=
  if month ∈ [1, 3, 5, 7, 8, 10, 12] then 31
  else if month ∈ [4, 6, 9, 11] then 30
  else if leapYear then 29
  else 28

/-- `Clock.__init__`, lines 18-27. -/
def Clock.init (year month day hour minute : ℤ) (second : ℝ) : Clock :=
  { absolute := 0, year, month, day, hour, minute, second,
    leapYear := isLeapYear year, leapSecond := false }

/-- `Clock.is_after`, lines 29-52. -/
noncomputable def Clock.isAfter (c : Clock) (t : DateTime) : Bool :=
  if c.year < t.year then false
  else if c.month < t.month then false
  else if c.day < t.day then false
  else if c.hour < t.hour then false
  else if c.minute < t.minute then false
  else if c.second < t.second then false
  else true

/-- The `setup_time` of `Clock.is_minutes_away`, lines 73-90. -/
def Clock.setupTime (c : Clock) (t : DateTime) (minutes : ℤ) : DateTime :=
  if t.minute < minutes then
    let t1 :=
      if t.hour = 0 then
        let t2 :=
          if t.day = 1 then
            let t3 := if t.month = 1 then { t with year := t.year - 1, month := 12 }
              else { t with month := t.month - 1 }
            { t3 with day := daysInMonth t3.month c.leapYear }
          else { t with day := t.day - 1 }
        { t2 with hour := 23 }
      else { t with hour := t.hour - 1 }
    { t1 with minute := t1.minute + (60 - minutes) }
  else { t with minute := t.minute - minutes }

/-- `Clock.is_minutes_away`, lines 54-91. -/
noncomputable def Clock.isMinutesAway (c : Clock) (t : DateTime) (minutes : ℤ) : Bool :=
  if c.isAfter t then false else c.isAfter (c.setupTime t minutes)

/-- Lines 158-163 of `Clock.tick`: add `dt`, roll the second. -/
noncomputable def Clock.tickSecond (c : Clock) (dt : ℝ) : Clock :=
  let c := { c with second := c.second + dt, absolute := c.absolute + dt }
  if (c.leapSecond = false ∧ |c.second - 60| < 0.00001) ∨
      (c.leapSecond = true ∧ |c.second - 61| < 0.00001) then
    { c with second := 0, minute := c.minute + 1 }
  else c

/-- Lines 165-170 of `Clock.tick`: roll the minute and hour. -/
def Clock.tickHour (c : Clock) : Clock :=
  let c := if c.minute = 60 then { c with minute := 0, hour := c.hour + 1 } else c
  if c.hour = 24 then { c with hour := 0, day := c.day + 1 } else c

/-- Lines 172-179 of `Clock.tick`: roll the day, month and year. -/
def Clock.tickDay (c : Clock) : Clock :=
  let c := if c.day > daysInMonth c.month c.leapYear then { c with day := 1, month := c.month + 1 }
    else c
  if c.month = 13 then
    { c with month := 1, year := c.year + 1, leapYear := isLeapYear (c.year + 1) }
  else c

/-- `Clock.tick`, lines 150-179. -/
noncomputable def Clock.tick (c : Clock) (dt : ℝ) : Clock := (c.tickSecond dt).tickHour.tickDay

/-- `Clock.julian_date`, lines 181-198. -/
noncomputable def Clock.julianDate (c : Clock) (hour minute : ℤ) (second : ℝ) : ℝ :=
  let term1 := pyInt (7 / 4 * (c.year + pyInt ((c.month + 9) / 12)))
  let term2 := pyInt (275 * c.month / 9)
  let term3 := (60 * hour + minute + second / (60 + if c.leapSecond then 1 else 0)) / 1440
  1721013.5 + 367 * c.year + c.day - term1 + term2 + term3

/-- `Clock.centuries_elapsed`, lines 200-208. -/
noncomputable def Clock.centuriesElapsed (c : Clock) : ℝ := (c.julianDate 0 0 0 - 2451545) / 36525

/-- `Clock.gmst_seconds`, lines 211-222. -/
noncomputable def Clock.gmstSeconds (c : Clock) : ℝ :=
  let centuries := c.centuriesElapsed
  let term1 := 8640184.812866 * centuries + 0.093104 * centuries ^ 2
    - 6.2 * (10 : ℝ) ^ (-6 : ℤ) * centuries ^ 3
  let term2 := 1.002737909350795 * (3600 * c.hour + 60 * c.minute + c.second)
  24110.54841 + term1 + term2

/-- `Clock.theta_gmst`, lines 224-233. -/
noncomputable def Clock.thetaGmst (c : Clock) : ℝ := npRadians (pyMod c.gmstSeconds 86400 / 240)

/-! ## `JClock`, lines 237-311 -/

/-- Microseconds in a day. -/
def usDay : ℤ := 86400000000

/-- The instants a Python `datetime` can hold: years 1 to 9999. -/
def InRange (us : ℤ) : Prop := usDay ≤ us ∧ us < usDay * 3652060

instance (us : ℤ) : Decidable (InRange us) := by unfold InRange; infer_instance

/-- `datetime(year, month, day, hour, minute, second)` (standard library): `ValueError` on a field
out of range. -/
def mkDatetime (y m d h mi s : ℤ) : Py ℤ :=
  if 1 ≤ y ∧ y ≤ 9999 ∧ 1 ≤ m ∧ m ≤ 12 ∧ 1 ≤ d ∧ d ≤ Spec.monthLength y m ∧
      0 ≤ h ∧ h < 24 ∧ 0 ≤ mi ∧ mi < 60 ∧ 0 ≤ s ∧ s < 60 then
    .ok (usDay * Spec.ordinal y m d + 1000000 * (3600 * h + 60 * mi + s))
  else .error .valueError

/-- `datetime.hour`. -/
def dtHour (us : ℤ) : ℤ := us % usDay / 3600000000
/-- `datetime.minute`. -/
def dtMinute (us : ℤ) : ℤ := us % 3600000000 / 60000000
/-- `datetime.second`. -/
def dtSecond (us : ℤ) : ℤ := us % 60000000 / 1000000

/-- Rounding to the nearest integer, ties to even, as `timedelta` does with microseconds. -/
noncomputable def roundHalfEven (x : ℝ) : ℤ :=
  if Int.fract x < 1 / 2 then ⌊x⌋
  else if 1 / 2 < Int.fract x then ⌊x⌋ + 1
  else if ⌊x⌋ % 2 = 0 then ⌊x⌋ else ⌊x⌋ + 1

/-- `timedelta(seconds=dt)` in microseconds. -/
noncomputable def timedelta (dt : ℝ) : ℤ := roundHalfEven (dt * 1000000)

/-- `timedelta.total_seconds()`. -/
noncomputable def totalSeconds (us : ℤ) : ℝ := us / 1000000

/-- `datetime(2000, 1, 1, 12, 0, 0)`, line 255. -/
def refDatetime : ℤ := usDay * Spec.ordinal 2000 1 1 + 1000000 * (3600 * 12)

/-- Attributes of a `JClock` that change: `datetime` and `absolute`, lines 252-255. -/
structure JClock where
  datetime : ℤ
  absolute : ℝ

/-- `JClock.__init__`, lines 252-255. -/
def JClock.init (y m d h mi s : ℤ) : Py JClock :=
  match mkDatetime y m d h mi s with
  | .error e => .error e
  | .ok t => .ok { datetime := t, absolute := 0 }

/-- `JClock.tick`, lines 264-267: the exception (if any) and the object afterwards.
`datetime + timedelta` raises `OverflowError` outside the range of years. -/
noncomputable def JClock.tick (c : JClock) (dt : ℝ) : Py Unit × JClock :=
  let t := c.datetime + timedelta dt
  if InRange t then (.ok (), { c with datetime := t }) else (.error .overflow, c)

/-- A sequence of ticks, stopping at the first exception. -/
noncomputable def JClock.ticks (c : JClock) : List ℝ → Py Unit × JClock
  | [] => (.ok (), c)
  | dt :: l =>
    match c.tick dt with
    | (.ok (), c') => c'.ticks l
    | (.error e, c') => (.error e, c')

/-- `JClock.sync`, lines 269-273, given the value of `datetime.now()`. -/
noncomputable def JClock.sync (c : JClock) (now : ℤ) : ℝ × JClock :=
  (totalSeconds (now - c.datetime), { c with datetime := now })

/-- `JClock.set_datetime`, lines 275-277. -/
def JClock.setDatetime (c : JClock) (y m d h mi s : ℤ) : Py Unit × JClock :=
  match mkDatetime y m d h mi s with
  | .error e => (.error e, c)
  | .ok t => (.ok (), { c with datetime := t })

/-- `JClock.__eq__`, lines 261-262. -/
def JClock.eq (c d : JClock) : Bool := c.datetime = d.datetime

/-- `JClock.is_after`, lines 279-281. -/
def JClock.isAfter (c : JClock) (t : ℤ) : Bool := t < c.datetime

/-- `JClock.minutes_away`, lines 283-285. -/
noncomputable def JClock.minutesAway (c : JClock) (t : ℤ) : ℝ := totalSeconds (t - c.datetime) / 60

/-- `JClock.is_minutes_away`, lines 287-289. -/
noncomputable def JClock.isMinutesAway (c : JClock) (t : ℤ) (minutes : ℝ) : Bool :=
  |totalSeconds (t - c.datetime) / 60 - minutes| < 1

/-- `JClock.julian_date`, lines 292-295. -/
noncomputable def JClock.julianDate (c : JClock) : ℝ :=
  totalSeconds (c.datetime - refDatetime) / 86400 + 2451545

/-- `JClock.centuries_elapsed`, lines 297-300. -/
noncomputable def JClock.centuriesElapsed (c : JClock) : ℝ :=
  let julianSeconds := totalSeconds (c.datetime - refDatetime)
  (julianSeconds - 3600 * dtHour c.datetime - 60 * dtMinute c.datetime - dtSecond c.datetime)
    / (86400 * 36525)

/-- `JClock.gmst_seconds`, lines 302-307. -/
noncomputable def JClock.gmstSeconds (c : JClock) : ℝ :=
  let centuries := c.centuriesElapsed
  let gmstZero := 24110.54841 + 8640184.812866 * centuries + 0.093104 * centuries ^ 2
    - 6.2 * (10 : ℝ) ^ (-6 : ℤ) * centuries ^ 3
  let earthRotation : ℝ := 1.002737909350795 *
    (3600 * dtHour c.datetime + 60 * dtMinute c.datetime + dtSecond c.datetime)
  gmstZero + earthRotation

/-- `JClock.theta_gmst`, lines 309-311. -/
noncomputable def JClock.thetaGmst (c : JClock) : ℝ := npRadians (pyMod c.gmstSeconds 86400 / 240)

end Adcs.JDay
