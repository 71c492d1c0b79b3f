import Verif.Props.JClock

set_option autoImplicit false

/-! # C130: synchronising and setting the clock -/

namespace Adcs

open JDay

/-- `C130`: `sync` puts the clock on the current time and returns the seconds it was behind: a clock with the
old reading that is ticked by the returned number shows the same instant. -/
theorem C130_sync (c : JClock) (now : ℤ) (hnow : InRange now) :
    (c.sync now).2.datetime = now ∧ c.tick (c.sync now).1 = (.ok (), (c.sync now).2) := by
  refine ⟨rfl, ?_⟩
  have h : (c.sync now).1 * 1000000 = ((now - c.datetime : ℤ) : ℝ) := by
    simp only [JClock.sync, totalSeconds]
    ring
  simp only [JClock.tick, timedelta_whole h, add_sub_cancel, if_pos hnow]
  rfl

/-- `C130`: the drift is positive exactly if the clock was behind, and a second `sync` a time `d` later
reports `d`; directly afterwards it reports zero. -/
theorem C130_drift (c : JClock) (now later : ℤ) :
    (0 < (c.sync now).1 ↔ c.datetime < now) ∧
    ((c.sync now).2.sync later).1 * 1000000 = later - now ∧
    ((c.sync now).2.sync now).1 = 0 := by
  refine ⟨?_, ?_, ?_⟩
  · simp only [JClock.sync, totalSeconds]
    rw [div_pos_iff_of_pos_right (by norm_num)]
    rw [Int.cast_pos]; omega
  · simp only [JClock.sync, totalSeconds]; push_cast; ring
  · simp [JClock.sync, totalSeconds]

/-- `C130`: after `set_datetime` succeeds the clock reads like a newly constructed one; if the fields are
not a date it raises and the clock is as before. Neither it nor `sync` touches `absolute`. -/
theorem C130_set (c : JClock) (y m d h mi s : ℤ) (now : ℤ) :
    (∀ c', JClock.init y m d h mi s = .ok c' →
      c.setDatetime y m d h mi s = (.ok (), ⟨c'.datetime, c.absolute⟩)) ∧
    (∀ e, JClock.init y m d h mi s = .error e → c.setDatetime y m d h mi s = (.error e, c)) ∧
    (c.sync now).2.absolute = c.absolute := by
  unfold JClock.init JClock.setDatetime
  cases hm : mkDatetime y m d h mi s with
  | error e => simp [JClock.sync]
  | ok t => simp [JClock.sync]

/-- `C130`: setting the clock succeeds exactly for calendar fields that exist. -/
theorem C130_set_iff (c : JClock) (y m d h mi s : ℤ) :
    (c.setDatetime y m d h mi s).1 = .ok () ↔
      (1 ≤ y ∧ y ≤ 9999 ∧ 1 ≤ m ∧ m ≤ 12 ∧ 1 ≤ d ∧ d ≤ Spec.monthLength y m) ∧
      (0 ≤ h ∧ h < 24) ∧ (0 ≤ mi ∧ mi < 60) ∧ (0 ≤ s ∧ s < 60) := by
  unfold JClock.setDatetime mkDatetime
  split_ifs with hc
  · simp only [true_iff]; tauto
  · simp only [false_iff]; tauto

/-- 29 February 2024 exists, and a clock on it can be synchronised an hour ahead. -/
example : ∃ c, JClock.init 2024 2 29 23 30 0 = .ok c ∧ InRange (c.datetime + 3600000000) :=
  ⟨⟨usDay * Spec.ordinal 2024 2 29 + 1000000 * (3600 * 23 + 60 * 30 + 0), 0⟩, by
    constructor
    · simp [JClock.init, mkDatetime, Spec.monthLength, Spec.IsLeap]
    · decide⟩

end Adcs
