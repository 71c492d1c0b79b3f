import Mathlib.Algebra.BigOperators.Intervals
import Mathlib.Algebra.Order.BigOperators.Group.Finset
import Mathlib.Order.Interval.Finset.Basic
import Mathlib.Data.Int.Interval
import Mathlib.Data.Real.Basic
import Mathlib.Tactic.IntervalCases
import Mathlib.Tactic.Ring
import Mathlib.Tactic.Linarith

set_option autoImplicit false

/-!
# Specification: the proleptic Gregorian calendar

Written independently of the code.  `ordinal` numbers the days, 1 January of year 1 being day 1;
the step laws below pin it down completely.
-/

namespace Adcs.Spec

/-- Gregorian leap years. -/
def IsLeap (y : ℤ) : Prop := (4 ∣ y ∧ ¬ 100 ∣ y) ∨ 400 ∣ y

instance (y : ℤ) : Decidable (IsLeap y) := by unfold IsLeap; infer_instance

/-- Length of a month (`0` when there is no such month). -/
def monthLength (y m : ℤ) : ℤ :=
  if m = 2 then (if IsLeap y then 29 else 28)
  else if m = 4 ∨ m = 6 ∨ m = 9 ∨ m = 11 then 30
  else if 1 ≤ m ∧ m ≤ 12 then 31 else 0

/-- A date that exists. -/
structure ValidDate (y m d : ℤ) : Prop where
  m1 : 1 ≤ m
  m12 : m ≤ 12
  d1 : 1 ≤ d
  dl : d ≤ monthLength y m

/-- Days in the years `1 .. y-1` (signed for `y < 1`). -/
def daysBeforeYear (y : ℤ) : ℤ := 365 * (y - 1) + (y - 1) / 4 - (y - 1) / 100 + (y - 1) / 400

/-- Days in the months `1 .. m-1` of year `y`. -/
def daysBeforeMonth (y m : ℤ) : ℤ := ∑ k ∈ Finset.Ico 1 m, monthLength y k

/-- Day number of a date. -/
def ordinal (y m d : ℤ) : ℤ := daysBeforeYear y + daysBeforeMonth y m + d

/-- Julian date of midnight at the start of day 1. -/
noncomputable def jdOffset : ℝ := 1721424.5

/-- Seconds from the start of day 0 to the given date and time. -/
noncomputable def instant (y m d h mi : ℤ) (s : ℝ) : ℝ :=
  86400 * (ordinal y m d : ℝ) + 3600 * h + 60 * mi + s

/-! ### The laws that determine `ordinal` -/

theorem ordinal_first : ordinal 1 1 1 = 1 := by simp [ordinal, daysBeforeYear, daysBeforeMonth]

theorem ordinal_succ_day (y m d : ℤ) : ordinal y m (d + 1) = ordinal y m d + 1 := by
  unfold ordinal; ring

theorem daysBeforeMonth_succ (y : ℤ) {m : ℤ} (hm : 1 ≤ m) :
    daysBeforeMonth y (m + 1) = daysBeforeMonth y m + monthLength y m := by
  unfold daysBeforeMonth
  have : Finset.Ico 1 (m + 1) = insert m (Finset.Ico 1 m) := by ext k; simp; omega
  rw [this, Finset.sum_insert (by simp)]; ring

theorem ordinal_succ_month (y : ℤ) {m : ℤ} (h1 : 1 ≤ m) :
    ordinal y (m + 1) 1 = ordinal y m (monthLength y m) + 1 := by
  unfold ordinal; rw [daysBeforeMonth_succ y h1]; ring

theorem daysBeforeMonth_one (y : ℤ) : daysBeforeMonth y 1 = 0 := by simp [daysBeforeMonth]

theorem daysBeforeMonth_eq (y m : ℤ) (h1 : 1 ≤ m) (h12 : m ≤ 13) :
    daysBeforeMonth y m = if m ≤ 2 then 31 * (m - 1)
      else (275 * m) / 9 - 32 + (if IsLeap y then 1 else 0) := by
  have d1 := daysBeforeMonth_one y
  have d2 := daysBeforeMonth_succ y (m := 1) (by norm_num)
  have d3 := daysBeforeMonth_succ y (m := 2) (by norm_num)
  have d4 := daysBeforeMonth_succ y (m := 3) (by norm_num)
  have d5 := daysBeforeMonth_succ y (m := 4) (by norm_num)
  have d6 := daysBeforeMonth_succ y (m := 5) (by norm_num)
  have d7 := daysBeforeMonth_succ y (m := 6) (by norm_num)
  have d8 := daysBeforeMonth_succ y (m := 7) (by norm_num)
  have d9 := daysBeforeMonth_succ y (m := 8) (by norm_num)
  have d10 := daysBeforeMonth_succ y (m := 9) (by norm_num)
  have d11 := daysBeforeMonth_succ y (m := 10) (by norm_num)
  have d12 := daysBeforeMonth_succ y (m := 11) (by norm_num)
  have d13 := daysBeforeMonth_succ y (m := 12) (by norm_num)
  norm_num [monthLength] at d2 d3 d4 d5 d6 d7 d8 d9 d10 d11 d12 d13
  by_cases hl : IsLeap y <;> simp only [hl, if_true, if_false] at * <;>
    interval_cases m <;> norm_num <;> omega

theorem daysBeforeYear_succ (y : ℤ) :
    daysBeforeYear (y + 1) = daysBeforeYear y + (if IsLeap y then 366 else 365) := by
  unfold daysBeforeYear
  by_cases h : IsLeap y
  · rw [if_pos h]; unfold IsLeap at h; omega
  · rw [if_neg h]; unfold IsLeap at h; omega

theorem ordinal_succ_year (y : ℤ) : ordinal (y + 1) 1 1 = ordinal y 12 31 + 1 := by
  unfold ordinal
  rw [daysBeforeYear_succ, daysBeforeMonth_one, daysBeforeMonth_eq y 12 (by norm_num) (by norm_num)]
  by_cases h : IsLeap y <;> simp [h] <;> ring

theorem monthLength_bounds {y m : ℤ} (h1 : 1 ≤ m) (h12 : m ≤ 12) :
    28 ≤ monthLength y m ∧ monthLength y m ≤ 31 := by
  unfold monthLength
  split_ifs <;> omega

theorem daysBeforeMonth_mono (y : ℤ) {m m' : ℤ} (h : m ≤ m') :
    daysBeforeMonth y m ≤ daysBeforeMonth y m' := by
  unfold daysBeforeMonth
  apply Finset.sum_le_sum_of_subset_of_nonneg
  · exact Finset.Ico_subset_Ico_right h
  · intro k _ _; unfold monthLength; split_ifs <;> omega

theorem daysBeforeYear_mono {y y' : ℤ} (h : y ≤ y') : daysBeforeYear y ≤ daysBeforeYear y' := by
  unfold daysBeforeYear; omega

theorem ordinal_le_year_end {y m d : ℤ} (h : ValidDate y m d) :
    ordinal y m d ≤ daysBeforeYear (y + 1) := by
  have h2 := daysBeforeMonth_succ y h.m1
  have h3 := daysBeforeMonth_mono y (m := m + 1) (m' := 13) (by have := h.m12; omega)
  have h4 := daysBeforeMonth_eq y 13 (by norm_num) (by norm_num)
  have h5 := h.dl
  rw [daysBeforeYear_succ]
  unfold ordinal
  by_cases hl : IsLeap y <;> simp [hl] at h4 ⊢ <;> omega

/-- The day number orders dates by year, then month, then day. -/
theorem ordinal_lt {y m d y' m' d' : ℤ} (h : ValidDate y m d) (h' : ValidDate y' m' d') :
    ordinal y m d < ordinal y' m' d' ↔ y < y' ∨ (y = y' ∧ (m < m' ∨ (m = m' ∧ d < d'))) := by
  have key : ∀ {y m d y' m' d' : ℤ}, ValidDate y m d → ValidDate y' m' d' →
      (y < y' ∨ (y = y' ∧ (m < m' ∨ (m = m' ∧ d < d')))) → ordinal y m d < ordinal y' m' d' := by
    rintro y m d y' m' d' h h' (hy | ⟨rfl, hm | ⟨rfl, hd⟩⟩)
    · have a := ordinal_le_year_end h
      have b := daysBeforeYear_mono (y := y + 1) (y' := y') (by omega)
      have c := daysBeforeMonth_mono y' h'.m1
      rw [daysBeforeMonth_one] at c
      have e := h'.d1
      have : ordinal y' m' d' = daysBeforeYear y' + daysBeforeMonth y' m' + d' := rfl
      omega
    · have a := daysBeforeMonth_succ y h.m1
      have b := daysBeforeMonth_mono y (m := m + 1) (m' := m') (by omega)
      have c := h.dl
      have e := h'.d1
      unfold ordinal
      omega
    · unfold ordinal; omega
  constructor
  · intro hlt
    by_contra hn
    rcases lt_trichotomy y y' with hy | rfl | hy
    · exact hn (Or.inl hy)
    · rcases lt_trichotomy m m' with hm | rfl | hm
      · exact hn (Or.inr ⟨rfl, Or.inl hm⟩)
      · rcases lt_trichotomy d d' with hd | rfl | hd
        · exact hn (Or.inr ⟨rfl, Or.inr ⟨rfl, hd⟩⟩)
        · exact lt_irrefl _ hlt
        · exact absurd (key h' h (Or.inr ⟨rfl, Or.inr ⟨rfl, hd⟩⟩)) (by omega)
      · exact absurd (key h' h (Or.inr ⟨rfl, Or.inl hm⟩)) (by omega)
    · exact absurd (key h' h (Or.inl hy)) (by omega)
  · exact key h h'

end Adcs.Spec
