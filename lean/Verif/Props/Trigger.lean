import Verif.Model.Controller
import Verif.Props.Torquers

set_option autoImplicit false

/-! # C63, C64: the hysteretic sign -/

namespace Adcs

open Ctl

/-- The answers of a trigger to a history of inputs. -/
noncomputable def answers (t : Trigger) : List ℝ → List ℝ
  | [] => []
  | x :: l => (t.sign x).1 :: answers (t.sign x).2 l

/-- Number of times the answers differ from the one before, the first one from `m`. -/
noncomputable def changes (m : ℝ) : List ℝ → ℕ
  | [] => 0
  | a :: l => (if a = m then 0 else 1) + changes a l

/-- Total variation of a history that starts at `x0`. -/
noncomputable def variation (x0 : ℝ) : List ℝ → ℝ
  | [] => 0
  | x :: l => |x - x0| + variation x l

theorem npSign_pm {x : ℝ} (h : x ≠ 0) : npSign x = 1 ∨ npSign x = -1 := by
  rcases npSign_cases x with ⟨h0, -⟩ | ⟨-, h1⟩ | ⟨-, h1⟩
  · exact absurd h0 h
  · exact Or.inr h1
  · exact Or.inl h1

theorem npSign_ne_zero {x : ℝ} : npSign x ≠ 0 ↔ x ≠ 0 := by
  rcases npSign_cases x with ⟨h0, h1⟩ | ⟨h0, h1⟩ | ⟨h0, h1⟩
  · subst h0; simp [h1]
  · simp [h1, h0.ne]
  · simp [h1, h0.ne']

theorem trigger_init_pm (x hw : ℝ) : (Trigger.init x hw).memory = 1 ∨ (Trigger.init x hw).memory = -1 := by
  unfold Trigger.init
  by_cases h : x = 0
  · left; simp [h, npSign]
  · simp only [if_pos (npSign_ne_zero.2 h)]; exact npSign_pm h

theorem trigger_step_pm {t : Trigger} (h : t.memory = 1 ∨ t.memory = -1) (x : ℝ) :
    (t.step x).memory = 1 ∨ (t.step x).memory = -1 := by
  unfold Trigger.step
  split_ifs with h1
  · dsimp only
    by_cases h2 : x = 0
    · rw [if_neg (by rw [npSign_ne_zero]; simpa using h2)]; exact h
    · rw [if_pos (npSign_ne_zero.2 h2)]; exact npSign_pm h2
  · exact h

theorem trigger_step_width (t : Trigger) (x : ℝ) : (t.step x).halfWidth = t.halfWidth := by
  unfold Trigger.step; split_ifs <;> rfl

/-! ## C63 -/

/-- Every answer of a new trigger, to any history, is +1 or -1. -/
theorem C63_pm_one (x0 hw : ℝ) (l : List ℝ) : ∀ a ∈ answers (Trigger.init x0 hw) l, a = 1 ∨ a = -1 := by
  have aux : ∀ (l : List ℝ) (t : Trigger), (t.memory = 1 ∨ t.memory = -1) →
      ∀ a ∈ answers t l, a = 1 ∨ a = -1 := by
    intro l
    induction l with
    | nil => intro t _ a ha; simp [answers] at ha
    | cons x l ih =>
      intro t ht a ha
      simp only [answers, List.mem_cons] at ha
      rcases ha with rfl | ha
      · exact trigger_step_pm ht x
      · exact ih _ (trigger_step_pm ht x) a ha
  exact aux l _ (trigger_init_pm x0 hw)

/-- The first answer to the input a trigger was made with is its sign. -/
theorem C63_initial {x0 hw : ℝ} (hx : x0 ≠ 0) : answers (Trigger.init x0 hw) [x0] = [npSign x0] := by
  simp only [answers, Trigger.sign, Trigger.step, Trigger.init, if_pos (npSign_ne_zero.2 hx), ite_self]

/-- With half-width zero the answer has the sign of every non-zero input, and keeps its value at zero. -/
theorem C63_zero_width {t : Trigger} (ht : t.memory = 1 ∨ t.memory = -1) (h0 : t.halfWidth = 0) (x : ℝ) :
    (x ≠ 0 → (t.sign x).1 = npSign x) ∧ (x = 0 → (t.sign x).1 = t.memory) := by
  constructor
  · intro hx
    simp only [Trigger.sign, Trigger.step, h0, if_pos (npSign_ne_zero.2 hx)]
    split_ifs with h
    · rfl
    · rw [neg_zero, not_le] at h
      rcases npSign_cases x with ⟨h1, -⟩ | ⟨h1, h2⟩ | ⟨h1, h2⟩
      · exact absurd h1 hx
      · rw [h2]; rcases ht with e | e
        · rw [e] at h; linarith
        · exact e
      · rw [h2]; rcases ht with e | e
        · exact e
        · rw [e] at h; linarith
  · rintro rfl
    simp [Trigger.sign, Trigger.step, npSign]

/-- Inside of the half-width the answer does not change; at or beyond it the answer is the sign. -/
theorem C63_hysteresis {t : Trigger} (ht : t.memory = 1 ∨ t.memory = -1) (x : ℝ) :
    (|x| < t.halfWidth → (t.sign x).1 = t.memory) ∧
    (t.halfWidth ≤ |x| → x ≠ 0 → (t.sign x).1 = npSign x) := by
  simp only [Trigger.sign, Trigger.step]
  constructor
  · intro h
    have h' := abs_lt.1 h
    rw [if_neg]
    rw [not_le]
    rcases ht with e | e <;> rw [e] <;> linarith
  · intro h hx
    rw [if_pos (npSign_ne_zero.2 hx)]
    split_ifs with h1
    · rfl
    · rw [not_le] at h1
      rcases npSign_cases x with ⟨h2, -⟩ | ⟨h2, h3⟩ | ⟨h2, h3⟩
      · exact absurd h2 hx
      · rw [abs_of_neg h2] at h
        rw [h3]; rcases ht with e | e
        · rw [e] at h1; linarith
        · exact e
      · rw [abs_of_pos h2] at h
        rw [h3]; rcases ht with e | e
        · exact e
        · rw [e] at h1; linarith

/-- The full claim of the documentation: with a half-width of 1 or more, inputs from -1 to 1 never change
the answer. -/
def WideTriggerConstant : Prop := ∀ (x0 hw : ℝ) (l : List ℝ), 1 ≤ hw → (∀ x ∈ l, |x| ≤ 1) →
  ∀ a ∈ answers (Trigger.init x0 hw) l, a = (Trigger.init x0 hw).memory

/-- It is false: a half-width of exactly 1 and an input of -1. -/
theorem C63_wide_fails : ¬ WideTriggerConstant := by
  intro h
  have h1 := h 1 1 [-1] le_rfl (by simp) (-1) (by
    norm_num [answers, Trigger.sign, Trigger.step, Trigger.init, npSign])
  norm_num [Trigger.init, npSign] at h1

/-- What holds: it is constant for inputs strictly inside of the half-width, so for half-widths above 1.
Missing: the half-width 1 itself with inputs +1 and -1. -/
theorem C63_wide_partial (x0 hw : ℝ) (l : List ℝ) (h : ∀ x ∈ l, |x| < hw) :
    ∀ a ∈ answers (Trigger.init x0 hw) l, a = (Trigger.init x0 hw).memory := by
  have aux : ∀ (l : List ℝ) (t : Trigger), (t.memory = 1 ∨ t.memory = -1) →
      (∀ x ∈ l, |x| < t.halfWidth) → ∀ a ∈ answers t l, a = t.memory := by
    intro l
    induction l with
    | nil => intro t _ _ a ha; simp [answers] at ha
    | cons x l ih =>
      intro t ht hl a ha
      have h1 := (C63_hysteresis ht x).1 (hl x (by simp))
      simp only [answers, List.mem_cons] at ha
      rcases ha with rfl | ha
      · exact h1
      · rw [ih (t.sign x).2 (trigger_step_pm ht x) (by
          intro y hy
          rw [show (t.sign x).2.halfWidth = t.halfWidth from trigger_step_width t x]
          exact hl y (by simp [hy])) a ha]
        exact h1
  exact aux l _ (trigger_init_pm x0 hw) h

example : answers (Trigger.init 1 0.3) [0.5, -0.2, -0.4, 0.1, 0.3] = [1, 1, -1, -1, 1] := by
  norm_num [answers, Trigger.sign, Trigger.step, Trigger.init, npSign]

/-! ## C64 -/

theorem pm_flip {a b : ℝ} (ha : a = 1 ∨ a = -1) (hb : b = 1 ∨ b = -1) (h : b ≠ a) : b = -a := by
  rcases ha with rfl | rfl <;> rcases hb with rfl | rfl
  · exact absurd rfl h
  · rfl
  · norm_num
  · exact absurd rfl h

theorem variation_nonneg : ∀ (l : List ℝ) (y : ℝ), 0 ≤ variation y l := by
  intro l
  induction l with
  | nil => intro y; simp [variation]
  | cons z l ih => intro y; simp only [variation]; have := ih z; positivity

theorem changes_bound {hw : ℝ} (h0 : 0 ≤ hw) : ∀ (l : List ℝ) (t : Trigger) (x0 : ℝ), t.halfWidth = hw →
    (t.memory = 1 ∨ t.memory = -1) → changes t.memory (answers t l) = 0 ∨
    2 * hw * changes t.memory (answers t l) ≤ variation x0 l + hw - t.memory * x0 := by
  intro l
  induction l with
  | nil => intro t x0 _ _; left; rfl
  | cons x l ih =>
    intro t x0 hhw ht
    have ht' : (t.sign x).2.memory = 1 ∨ (t.sign x).2.memory = -1 := trigger_step_pm ht x
    have hw' : (t.sign x).2.halfWidth = hw := (trigger_step_width t x).trans hhw
    have hm : (t.sign x).2.memory = (t.sign x).1 := rfl
    have hih := ih (t.sign x).2 x hw' ht'
    simp only [answers, changes, variation]
    have habs : t.memory * x0 - t.memory * x ≤ |x - x0| := by
      rcases ht with e | e <;> rw [e]
      · have := neg_abs_le (x - x0); linarith
      · have := le_abs_self (x - x0); linarith
    have hvar := variation_nonneg l x
    rw [← hm]
    by_cases hc : (t.sign x).2.memory = t.memory
    · rw [if_pos hc, zero_add]
      rcases hih with hih | hih
      · exact Or.inl hih
      · right; rw [hc] at hih ⊢; linarith
    · rw [if_neg hc]
      right
      have hj : x * t.memory ≤ -hw := by
        by_contra h
        apply hc
        simp only [Trigger.sign, Trigger.step, hhw, if_neg h]
      have hflip := pm_flip ht ht' hc
      rcases hih with hih | hih
      · rw [hih]; push_cast; linarith
      · push_cast
        rw [hflip] at hih ⊢
        linarith

/-- At a change the input is at or beyond the half-width on the side of the new answer; hence between
two consecutive changes it travels at least twice the half-width. -/
theorem C64_travel {t : Trigger} (ht : t.memory = 1 ∨ t.memory = -1) (h0 : 0 ≤ t.halfWidth) {x : ℝ}
    (h : (t.sign x).1 ≠ t.memory) {l : List ℝ} {y : ℝ} (hl : ∀ a ∈ answers (t.sign x).2 l, a = (t.sign x).1)
    {t' : Trigger} (htl : t' = l.foldl (fun t x => (t.sign x).2) (t.sign x).2)
    (hy : (t'.sign y).1 ≠ (t.sign x).1) : 2 * t.halfWidth ≤ |y - x| := by
  have hj : x * t.memory ≤ -t.halfWidth := by
    by_contra h'
    apply h
    simp only [Trigger.sign, Trigger.step, if_neg h']
  have ht' : (t.sign x).1 = 1 ∨ (t.sign x).1 = -1 := trigger_step_pm ht x
  have hflip : (t.sign x).1 = -t.memory := pm_flip ht ht' h
  have hkeep : ∀ (l : List ℝ) (s : Trigger), (∀ a ∈ answers s l, a = s.memory) →
      (l.foldl (fun t x => (t.sign x).2) s).memory = s.memory ∧
      (l.foldl (fun t x => (t.sign x).2) s).halfWidth = s.halfWidth := by
    intro l
    induction l with
    | nil => intro s _; exact ⟨rfl, rfl⟩
    | cons z l ih =>
      intro s hs
      have h1 : (s.sign z).2.memory = s.memory := hs _ (by simp [answers, Trigger.sign])
      obtain ⟨h2, h3⟩ := ih (s.sign z).2 (by
        intro a ha
        rw [h1]
        exact hs a (by simp [answers, ha]))
      exact ⟨h2.trans h1, h3.trans (trigger_step_width s z)⟩
  obtain ⟨h1, h2⟩ := hkeep l (t.sign x).2 hl
  rw [← htl] at h1 h2
  have h2' : t'.halfWidth = t.halfWidth := h2.trans (trigger_step_width t x)
  have h1' : t'.memory = -t.memory := h1.trans hflip
  have hj2 : y * t'.memory ≤ -t'.halfWidth := by
    by_contra h'
    apply hy
    simp only [Trigger.sign, Trigger.step, if_neg h']
    rw [h1]; rfl
  rw [h1', h2'] at hj2
  rcases ht with e | e
  · rw [e] at hj hj2; have := le_abs_self (y - x); linarith
  · rw [e] at hj hj2; have := neg_abs_le (y - x); linarith

/-- Number of changes times twice the half-width is at most the total variation of the inputs plus twice
the half-width. -/
theorem C64_changes {hw : ℝ} (h0 : 0 ≤ hw) (x0 : ℝ) (x : ℝ) (l : List ℝ) :
    2 * hw * changes (Trigger.init x0 hw).memory (answers (Trigger.init x0 hw) (x :: l)) ≤
      variation x l + 2 * hw := by
  set t := Trigger.init x0 hw with htdef
  have ht := trigger_init_pm x0 hw
  rw [← htdef] at ht
  have ht' : (t.sign x).2.memory = 1 ∨ (t.sign x).2.memory = -1 := trigger_step_pm ht x
  have hb := changes_bound h0 l (t.sign x).2 x (trigger_step_width t x) ht'
  simp only [answers, changes]
  have hm : (t.sign x).2.memory = (t.sign x).1 := rfl
  rw [hm] at hb
  by_cases hc : (t.sign x).1 = t.memory
  · rw [if_pos hc, zero_add]
    rcases hb with hb | hb
    · rw [hb]; have := variation_nonneg l x; push_cast; linarith
    · have : -hw ≤ (t.sign x).1 * x := by
        by_cases hx : x = 0
        · rw [hx, mul_zero]; linarith
        · by_cases h1 : hw ≤ |x|
          · rw [(C63_hysteresis ht x).2 h1 hx]
            rcases npSign_cases x with ⟨h4, -⟩ | ⟨h4, h5⟩ | ⟨h4, h5⟩
            · exact absurd h4 hx
            · rw [h5]; linarith
            · rw [h5]; linarith
          · push Not at h1
            have := abs_lt.1 h1
            rcases ht' with e | e <;> rw [hm] at e <;> rw [e] <;> linarith
      linarith
  · rw [if_neg hc]
    have hj : x * t.memory ≤ -hw := by
      by_contra h
      apply hc
      have : t.halfWidth = hw := rfl
      simp only [Trigger.sign, Trigger.step, this, if_neg h]
    have hflip : (t.sign x).1 = -t.memory := pm_flip ht ht' hc
    push_cast
    rcases hb with hb | hb
    · rw [hb]; have := variation_nonneg l x; push_cast; linarith
    · rw [hflip] at hb ⊢
      linarith

example : changes (Trigger.init 1 0.3).memory (answers (Trigger.init 1 0.3) [0.5, -0.2, -0.4, 0.1, 0.3]) = 2 := by
  norm_num [answers, changes, Trigger.sign, Trigger.step, Trigger.init, npSign]

end Adcs
