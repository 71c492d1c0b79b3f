import Verif.Props.JClock
import Mathlib.Analysis.Real.Pi.Bounds

set_option autoImplicit false

/-! # C196: the sidereal angle is that of the almanac -/

namespace Adcs

open Spec JDay

/-- Greenwich mean sidereal time of the almanacs (IAU 1982) in seconds, at a Julian date of UT1:
`67310.54841 + (876600 h + 8640184.812866 s) T + 0.093104 T² - 6.2e-6 T³` with `T` in centuries of 36525 days
from 2000 January 1, 12 h. The time of day is a part of `T`; nothing is treated apart. -/
noncomputable def Spec.almanac (jd : ℝ) : ℝ :=
  let T := (jd - 2451545) / 36525
  67310.54841 + (876600 * 3600 + 8640184.812866) * T + 0.093104 * T ^ 2 - 6.2e-6 * T ^ 3

/-- The Julian date of an instant, counted in days from the first of January of the year 1. -/
noncomputable def Spec.jd (us : ℤ) : ℝ := (us : ℝ) / 86400000000 + 1721424.5

/-- The turn of the Earth in radians: a day of sidereal time is a full turn. -/
noncomputable def Spec.siderealAngle (jd : ℝ) : ℝ := 2 * Real.pi / 86400 * Spec.almanac jd

/-- Two angles that point in the same direction up to `e` radians. -/
def Spec.SameAngle (a b e : ℝ) : Prop := ∃ n : ℤ, |a - b - 2 * Real.pi * n| ≤ e

/-- Within two centuries of the year 2000. -/
def Spec.Modern (jd : ℝ) : Prop := |jd - 2451545| ≤ 73050

/-- The expression for midnight plus the turn of the Earth since then is the expression for the instant: with the
centuries `T` to midnight and the seconds `u` since then, up to eleven microseconds. -/
theorem midnight_split {T u : ℝ} (hT : |T| ≤ 2.01) (h0 : 0 ≤ u) (h1 : u ≤ 86400) :
    |(24110.54841 + 8640184.812866 * T + 0.093104 * T ^ 2 - 6.2e-6 * T ^ 3 + 1.002737909350795 * u)
      - ((67310.54841 + (876600 * 3600 + 8640184.812866) * (T + u / (86400 * 36525))
        + 0.093104 * (T + u / (86400 * 36525)) ^ 2 - 6.2e-6 * (T + u / (86400 * 36525)) ^ 3)
        - 43200 - 86400 * 36525 * T)| ≤ 1.1e-5 := by
  obtain ⟨hT1, hT2⟩ := abs_le.mp hT
  set d := u / (86400 * 36525) with hd
  have hd0 : 0 ≤ d := by positivity
  have hd1 : d ≤ 1 / 36525 := by
    rw [hd, div_le_iff₀ (by norm_num)]
    linarith
  have hu : u = 86400 * 36525 * d := by
    rw [hd]
    ring
  rw [hu]
  have e : (24110.54841 + 8640184.812866 * T + 0.093104 * T ^ 2 - 6.2e-6 * T ^ 3
      + 1.002737909350795 * (86400 * 36525 * d))
      - ((67310.54841 + (876600 * 3600 + 8640184.812866) * (T + d)
        + 0.093104 * (T + d) ^ 2 - 6.2e-6 * (T + d) ^ 3) - 43200 - 86400 * 36525 * T)
      = d * ((1.002737909350795 * (86400 * 36525) - 876600 * 3600 - 8640184.812866) - 0.093104 * (2 * T + d)
        + 6.2e-6 * (3 * T ^ 2 + 3 * T * d + d ^ 2)) := by ring
  rw [e, abs_mul, abs_of_nonneg hd0]
  have hT2' : T ^ 2 ≤ 4.0401 := by nlinarith
  have hTd : |T * d| ≤ 0.001 := by
    rw [abs_mul, abs_of_nonneg hd0]
    calc |T| * d ≤ 2.01 * (1 / 36525) := mul_le_mul hT hd1 hd0 (by norm_num)
      _ ≤ 0.001 := by norm_num
  obtain ⟨hTd1, hTd2⟩ := abs_le.mp hTd
  have hdd : d ^ 2 ≤ 0.001 := by
    have : d ^ 2 ≤ (1 / 36525) ^ 2 := pow_le_pow_left₀ hd0 hd1 2
    norm_num at this ⊢
    linarith
  have hb : |(1.002737909350795 * (86400 * 36525) - 876600 * 3600 - 8640184.812866) - 0.093104 * (2 * T + d)
      + 6.2e-6 * (3 * T ^ 2 + 3 * T * d + d ^ 2)| ≤ 0.4 := by
    rw [abs_le]
    have := sq_nonneg T
    have := sq_nonneg d
    norm_num at *
    constructor <;> linarith
  calc d * _ ≤ 1 / 36525 * 0.4 := mul_le_mul hd1 hb (abs_nonneg _) (by norm_num)
    _ ≤ 1.1e-5 := by norm_num

/-- The hours, minutes and seconds read from a `datetime` are the whole seconds of the day. -/
theorem fields_sum (us : ℤ) :
    3600 * dtHour us + 60 * dtMinute us + dtSecond us = us % usDay / 1000000 := by
  unfold dtHour dtMinute dtSecond usDay
  omega

/-- The sidereal seconds of a `JClock`, the fraction of the second the clock drops added back. -/
theorem gmst_almanac (c : JClock) (h : Modern (Spec.jd c.datetime)) :
    ∃ n : ℤ, |c.gmstSeconds + (c.datetime % 1000000 : ℤ) / 1000000 - almanac (Spec.jd c.datetime)
      - 86400 * n| ≤ 1.1e-5 := by
  obtain ⟨us, a⟩ := c
  simp only at h ⊢
  have hs := fields_sum us
  have hu0 : 0 ≤ us % usDay / 1000000 := by unfold usDay; omega
  have hu1 : us % usDay / 1000000 ≤ 86400 := by unfold usDay; omega
  have hus : us = 1000000 * (86400 * (us / usDay) + us % usDay / 1000000) + us % 1000000 := by
    unfold usDay
    omega
  have hf0 : 0 ≤ us % 1000000 := Int.emod_nonneg _ (by norm_num)
  have hf1 : us % 1000000 ≤ 1000000 := by omega
  set u := us % usDay / 1000000 with hu
  set o := us / usDay with ho
  set f := us % 1000000 with hf
  have hsR : (3600 : ℝ) * dtHour us + 60 * dtMinute us + dtSecond us = u := by exact_mod_cast hs
  have hR : (us : ℝ) = 1000000 * (86400 * o + u) + f := by exact_mod_cast hus
  have hu0R : (0 : ℝ) ≤ u := by exact_mod_cast hu0
  have hu1R : (u : ℝ) ≤ 86400 := by exact_mod_cast hu1
  have hT : (JClock.mk us a).centuriesElapsed
      = (86400 * ((o : ℝ) - 730120) - 43200 + f / 1000000) / (86400 * 36525) := by
    unfold JClock.centuriesElapsed totalSeconds refDatetime
    rw [ordinal_2000]
    unfold usDay
    push_cast
    rw [hR]
    congr 1
    linear_combination -hsR
  set T := (JClock.mk us a).centuriesElapsed with hTd
  have hj : (Spec.jd us - 2451545) / 36525 = T + u / (86400 * 36525) := by
    rw [hT, Spec.jd, hR]
    ring
  have hTb : |T| ≤ 2.01 := by
    have h' : |(Spec.jd us - 2451545) / 36525| ≤ 2 := by
      rw [abs_div, abs_of_pos (by norm_num : (0 : ℝ) < 36525), div_le_iff₀ (by norm_num)]
      unfold Modern at h
      linarith
    rw [hj] at h'
    obtain ⟨h1, h2⟩ := abs_le.mp h'
    have h3 : (u : ℝ) / (86400 * 36525) ≤ 0.01 := by
      rw [div_le_iff₀ (by norm_num)]
      norm_num
      linarith
    have h4 : (0 : ℝ) ≤ u / (86400 * 36525) := by positivity
    rw [abs_le]
    norm_num at *
    constructor <;> linarith
  have key := midnight_split hTb hu0R hu1R
  refine ⟨-(o - 730120), ?_⟩
  have hg : (JClock.mk us a).gmstSeconds = 24110.54841 + 8640184.812866 * T + 0.093104 * T ^ 2
      - 6.2e-6 * T ^ 3 + 1.002737909350795 * u := by
    unfold JClock.gmstSeconds
    simp only
    rw [hsR, ← hTd]
    norm_num
  have ha : almanac (Spec.jd us) = 67310.54841 + (876600 * 3600 + 8640184.812866) * (T + u / (86400 * 36525))
      + 0.093104 * (T + u / (86400 * 36525)) ^ 2 - 6.2e-6 * (T + u / (86400 * 36525)) ^ 3 := by
    unfold almanac
    rw [hj]
  rw [hg, ha]
  refine le_trans (le_of_eq ?_) key
  congr 1
  have : 86400 * 36525 * T = 86400 * ((o : ℝ) - 730120) - 43200 + f / 1000000 := by
    rw [hT]
    field_simp
  push_cast
  linear_combination -this

/-- The angle of either class, from its sidereal seconds. -/
theorem theta_of_seconds {g x e : ℝ} (h : ∃ n : ℤ, |g - x - 86400 * n| ≤ e) :
    SameAngle (npRadians (pyMod g 86400 / 240)) (2 * Real.pi / 86400 * x) (2 * Real.pi / 86400 * e) := by
  obtain ⟨n, hn⟩ := h
  refine ⟨n - ⌊g / 86400⌋, ?_⟩
  have : npRadians (pyMod g 86400 / 240) - 2 * Real.pi / 86400 * x - 2 * Real.pi * ((n - ⌊g / 86400⌋ : ℤ) : ℝ)
      = 2 * Real.pi / 86400 * (g - x - 86400 * n) := by
    unfold npRadians pyMod
    push_cast
    field_simp
    ring
  rw [this, abs_mul, abs_of_nonneg (by positivity)]
  gcongr

theorem tiny_angle : 2 * Real.pi / 86400 * 1.1e-5 ≤ 1e-9 := by
  have := Real.pi_lt_d2
  norm_num at *
  linarith

theorem SameAngle.mono {a b e e' : ℝ} (h : SameAngle a b e) (he : e ≤ e') : SameAngle a b e' := by
  obtain ⟨n, hn⟩ := h
  exact ⟨n, hn.trans he⟩

/-! ## `Clock` -/

/-- C196: a `Clock` of the years 1900 to 2099 gives the sidereal angle of the almanac at its own instant, the
fraction of the second included, up to a billionth of a radian. -/
theorem C196_clock (c : Clock) (hv : ValidDate c.year c.month c.day) (hl : c.leapSecond = false)
    (h1 : 1900 ≤ marchYear c.year c.month) (h2 : marchYear c.year c.month ≤ 2099)
    (hh : 0 ≤ c.hour ∧ c.hour ≤ 23) (hm : 0 ≤ c.minute ∧ c.minute ≤ 59) (hs : 0 ≤ c.second ∧ c.second ≤ 60) :
    SameAngle c.thetaGmst (siderealAngle ((ordinal c.year c.month c.day : ℝ) + 1721424.5
      + (3600 * c.hour + 60 * c.minute + c.second) / 86400)) 1e-9 := by
  refine SameAngle.mono (theta_of_seconds (e := 1.1e-5) ?_) tiny_angle
  set u : ℝ := 3600 * c.hour + 60 * c.minute + c.second with hu
  have hhR : (0 : ℝ) ≤ c.hour ∧ (c.hour : ℝ) ≤ 23 := by exact_mod_cast hh
  have hmR : (0 : ℝ) ≤ c.minute ∧ (c.minute : ℝ) ≤ 59 := by exact_mod_cast hm
  have hu0 : 0 ≤ u := by
    rw [hu]
    linarith [hhR.1, hmR.1, hs.1]
  have hu1 : u ≤ 86400 := by
    rw [hu]
    linarith [hhR.2, hmR.2, hs.2]
  set o := ordinal c.year c.month c.day with ho
  have hT : c.centuriesElapsed = ((o : ℝ) - 730120.5) / 36525 := by
    unfold Clock.centuriesElapsed
    rw [C27_julian_date c hv hl h1 h2]
    push_cast
    ring
  have hb : 690000 ≤ o ∧ o ≤ 770000 := by
    have hm1 := hv.m1
    have hm12 := hv.m12
    have hd1 := hv.d1
    have hd2 := hv.dl
    have hlen : monthLength c.year c.month ≤ 31 := by
      unfold monthLength
      split_ifs <;> omega
    rw [ho]
    unfold ordinal
    rw [daysBeforeMonth_eq c.year c.month hm1 (by omega)]
    unfold daysBeforeYear
    unfold marchYear at h1 h2
    split_ifs at * <;> omega
  have hbR : (690000 : ℝ) ≤ o ∧ (o : ℝ) ≤ 770000 := by exact_mod_cast hb
  set T := c.centuriesElapsed with hTd
  have hTb : |T| ≤ 2.01 := by
    rw [hT, abs_le, le_div_iff₀ (by norm_num), div_le_iff₀ (by norm_num)]
    norm_num
    constructor <;> linarith [hbR.1, hbR.2]
  have key := midnight_split hTb hu0 hu1
  refine ⟨-(o - 730120), ?_⟩
  have hg : c.gmstSeconds = 24110.54841 + 8640184.812866 * T + 0.093104 * T ^ 2
      - 6.2e-6 * T ^ 3 + 1.002737909350795 * u := by
    unfold Clock.gmstSeconds
    simp only
    rw [← hTd, ← hu]
    norm_num
    ring
  have hj : ((o : ℝ) + 1721424.5 + u / 86400 - 2451545) / 36525 = T + u / (86400 * 36525) := by
    rw [hT]
    ring
  have ha : almanac ((o : ℝ) + 1721424.5 + u / 86400)
      = 67310.54841 + (876600 * 3600 + 8640184.812866) * (T + u / (86400 * 36525))
      + 0.093104 * (T + u / (86400 * 36525)) ^ 2 - 6.2e-6 * (T + u / (86400 * 36525)) ^ 3 := by
    unfold almanac
    rw [hj]
  rw [hg, ha]
  refine le_trans (le_of_eq ?_) key
  congr 1
  have : 86400 * 36525 * T = 86400 * ((o : ℝ) - 730120) - 43200 := by
    rw [hT]
    ring
  push_cast
  linear_combination -this

/-! ## `JClock` -/

/-- C196 in full for the class in use: at every instant the angle is the almanac's, up to a microradian. -/
def C196_claim : Prop := ∀ c : JClock, Modern (Spec.jd c.datetime) →
  SameAngle c.thetaGmst (siderealAngle (Spec.jd c.datetime)) 1e-6

/-- C196, what holds: the angle is the almanac's less the fraction of the second, at a full turn in 86400 s. -/
theorem C196_jclock_partial (c : JClock) (h : Modern (Spec.jd c.datetime)) :
    SameAngle (c.thetaGmst + 2 * Real.pi / 86400 * ((c.datetime % 1000000 : ℤ) / 1000000))
      (siderealAngle (Spec.jd c.datetime)) 1e-9 := by
  obtain ⟨n, hn⟩ := gmst_almanac c h
  have h2 := theta_of_seconds (g := c.gmstSeconds)
    (x := almanac (Spec.jd c.datetime) - (c.datetime % 1000000 : ℤ) / 1000000) (e := 1.1e-5)
    ⟨n, by convert hn using 2; ring⟩
  obtain ⟨k, hk⟩ := SameAngle.mono h2 tiny_angle
  refine ⟨k, ?_⟩
  unfold JClock.thetaGmst siderealAngle
  convert hk using 2
  ring

/-- C196, what holds: on whole seconds, where the tests look, the angle is the almanac's. -/
theorem C196_whole_partial (c : JClock) (h : Modern (Spec.jd c.datetime)) (hw : c.datetime % 1000000 = 0) :
    SameAngle c.thetaGmst (siderealAngle (Spec.jd c.datetime)) 1e-9 := by
  have := C196_jclock_partial c h
  rw [hw] at this
  simpa using this

/-- C196, what holds: at every instant the angle is the almanac's up to 7.3e-5 rad, the turn of one second: 0.47 km
on the equator. -/
theorem C196_bound_partial (c : JClock) (h : Modern (Spec.jd c.datetime)) :
    SameAngle c.thetaGmst (siderealAngle (Spec.jd c.datetime)) 7.3e-5 := by
  obtain ⟨n, hn⟩ := C196_jclock_partial c h
  refine ⟨n, ?_⟩
  have hf0 : (0 : ℝ) ≤ (c.datetime % 1000000 : ℤ) := by
    exact_mod_cast Int.emod_nonneg _ (by norm_num)
  have hf1 : ((c.datetime % 1000000 : ℤ) : ℝ) ≤ 1000000 := by
    exact_mod_cast (Int.emod_lt_of_pos c.datetime (by norm_num : (0 : ℤ) < 1000000)).le
  set f : ℝ := ((c.datetime % 1000000 : ℤ) : ℝ) / 1000000 with hf
  have g0 : 0 ≤ f := by positivity
  have g1 : f ≤ 1 := by
    rw [hf, div_le_one (by norm_num)]
    exact hf1
  have p0 : 0 ≤ 2 * Real.pi / 86400 * f := by positivity
  have p1 : 2 * Real.pi / 86400 * f ≤ 7.2723e-5 := by
    have hp := Real.pi_lt_d4
    calc 2 * Real.pi / 86400 * f ≤ 2 * Real.pi / 86400 * 1 := by gcongr
      _ ≤ 7.2723e-5 := by
        norm_num at *
        linarith
  obtain ⟨a, b⟩ := abs_le.mp hn
  rw [abs_le]
  norm_num at *
  constructor <;> linarith

/-- 2024-07-07 02:00:00 UTC, the first instant of `tests/jday_test.py`, and `us` microseconds later. -/
def testInstant (us : ℤ) : JClock := ⟨usDay * 739074 + 7200000000 + us, 0⟩

theorem testInstant_modern (us : ℤ) (h0 : 0 ≤ us) (h1 : us ≤ 86400000000) :
    Modern (Spec.jd (testInstant us).datetime) := by
  have h0' : (0 : ℝ) ≤ us := by exact_mod_cast h0
  have h1' : (us : ℝ) ≤ 86400000000 := by exact_mod_cast h1
  unfold Modern Spec.jd testInstant usDay
  rw [abs_le]
  push_cast
  norm_num
  constructor <;> linarith

/-- C196 does not hold for the class in use: half a second past a whole one the angle is that of half a second
earlier. -/
theorem C196_fails : ¬ C196_claim := by
  intro h
  have hm := testInstant_modern 500000 (by norm_num) (by norm_num)
  obtain ⟨n, hn⟩ := h (testInstant 500000) hm
  obtain ⟨k, hk⟩ := C196_jclock_partial (testInstant 500000) hm
  have hf : (testInstant 500000).datetime % 1000000 = 500000 := by decide
  rw [hf] at hk
  set a := (testInstant 500000).thetaGmst
  set b := siderealAngle (Spec.jd (testInstant 500000).datetime)
  have hp1 := Real.pi_gt_d2
  have hp2 := Real.pi_lt_d2
  obtain ⟨a1, a2⟩ := abs_le.mp hn
  obtain ⟨b1, b2⟩ := abs_le.mp hk
  push_cast at b1 b2
  have hlo : (3.6e-5 : ℝ) ≤ 2 * Real.pi / 86400 * (500000 / 1000000) := by
    norm_num at *
    linarith
  have hhi : 2 * Real.pi / 86400 * (500000 / 1000000) ≤ (1e-4 : ℝ) := by
    norm_num at *
    linarith
  set p := 2 * Real.pi / 86400 * (500000 / 1000000)
  have hnk : n = k := by
    have e1 : 2 * Real.pi * (n - k) < 1 := by
      norm_num at *
      nlinarith
    have e2 : -1 < 2 * Real.pi * (n - k) := by
      norm_num at *
      nlinarith
    have e3 : ((n - k : ℤ) : ℝ) < 1 := by
      push_cast
      nlinarith
    have e4 : (-1 : ℝ) < ((n - k : ℤ) : ℝ) := by
      push_cast
      nlinarith
    have e5 : n - k < 1 := by exact_mod_cast e3
    have e6 : -1 < n - k := by exact_mod_cast e4
    omega
  subst hnk
  norm_num at *
  linarith

example : Modern (Spec.jd (testInstant 0).datetime) ∧ (testInstant 0).datetime % 1000000 = 0 ∧
    JClock.init 2024 7 7 2 0 0 = .ok (testInstant 0) :=
  ⟨testInstant_modern 0 le_rfl (by norm_num), by decide, by
    have : ordinal 2024 7 7 = 739074 := by decide
    simp [JClock.init, mkDatetime, testInstant, usDay, monthLength, this]⟩

/-- The reference values printed by `tests/jday_test.py` (lines 53 ff., "GMST Actual"): 21:02:08.7500 at 2 h. The
expressions of the repository are 3.5 ms ahead of it. -/
example : ∃ n : ℤ, |(testInstant 0).gmstSeconds - (21 * 3600 + 2 * 60 + 8.75) - 86400 * n| ≤ 0.004 := by
  refine ⟨24, ?_⟩
  unfold JClock.gmstSeconds JClock.centuriesElapsed totalSeconds refDatetime
  rw [ordinal_2000]
  have h1 : dtHour (testInstant 0).datetime = 2 := by decide
  have h2 : dtMinute (testInstant 0).datetime = 0 := by decide
  have h3 : dtSecond (testInstant 0).datetime = 0 := by decide
  rw [h1, h2, h3]
  unfold testInstant usDay
  rw [abs_le]
  norm_num

example : ∃ c : Clock, ValidDate c.year c.month c.day ∧ c.leapSecond = false ∧
    1900 ≤ marchYear c.year c.month ∧ marchYear c.year c.month ≤ 2099 ∧ (0 ≤ c.hour ∧ c.hour ≤ 23) ∧
    (0 ≤ c.minute ∧ c.minute ≤ 59) ∧ (0 ≤ c.second ∧ c.second ≤ 60) :=
  ⟨Clock.init 2024 7 7 20 30 30.5, ⟨by norm_num [Clock.init], by norm_num [Clock.init],
    by norm_num [Clock.init], by decide⟩, rfl, by decide, by decide, by norm_num [Clock.init], by norm_num [Clock.init],
    by norm_num [Clock.init]⟩

end Adcs
