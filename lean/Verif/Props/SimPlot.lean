import Verif.Model.SimPlot

set_option autoImplicit false

/-! # C186: the curve of errors shows the error at each time -/

namespace Adcs

open Adcs.Sim

/-- The curve is right: it has a point for every time at which the dynamics ran, in that order, and the value at a time
is the angle of the error at the last update of the flight software up to that time. -/
def RightCurve (stop dyn fsw : ℕ) (e : ℕ → V4) (l : List (ℕ × ℝ)) : Prop :=
  l.map Prod.fst = taskTimes stop dyn ∧ ∀ p ∈ l, errorAngle (e (p.1 / fsw)) = .ok p.2

/-- The claim: every run whose errors have angles gets the right curve. -/
def C186_claim : Prop :=
  ∀ (stop dyn fsw : ℕ) (e : ℕ → V4), 0 < dyn → 0 < fsw → (∀ j, |e j 3| ≤ 1) →
    ∃ l, errorCurve stop dyn fsw e = .ok l ∧ RightCurve stop dyn fsw e l

theorem mapPy_ok {α β : Type} (f : α → Py β) (g : α → β) (l : List α) (h : ∀ a ∈ l, f a = .ok (g a)) :
    mapPy f l = .ok (l.map g) := by
  induction l with
  | nil => rfl
  | cons a l ih =>
    simp only [mapPy, h a (by simp), ih fun b hb => h b (by simp [hb]), List.map_cons]

/-- The angle of an error. -/
noncomputable def curveAngle (q : V4) : ℝ := 2 * Real.arccos |q 3| * 180 / Real.pi

theorem errorAngle_curve {q : V4} (h : |q 3| ≤ 1) : errorAngle q = .ok (curveAngle q) := by
  simp [errorAngle, h, curveAngle]

/-- The values of the curve. -/
theorem errorExpanded_log (stop fsw : ℕ) (e : ℕ → V4) (he : ∀ j, |e j 3| ≤ 1) :
    errorExpanded (errorLog stop fsw e) =
      .ok ((List.range (stop / fsw)).flatMap (fun j => List.replicate 10 (curveAngle (e j))) ++
        [curveAngle (e (stop / fsw))]) := by
  have h1 : errorLog stop fsw e = (List.range (stop / fsw)).map e ++ [e (stop / fsw)] := by
    simp [errorLog, List.range_succ]
  rw [errorExpanded, h1, List.dropLast_concat, mapPy_ok errorAngle curveAngle]
  · simp only [List.getLast?_concat, errorAngle_curve (he _)]
    simp [List.flatMap_map]
  · intro q hq
    obtain ⟨j, -, rfl⟩ := List.mem_map.mp hq
    exact errorAngle_curve (he j)

theorem expanded_eq (n : ℕ) (a : ℕ → ℝ) :
    (List.range n).flatMap (fun j => List.replicate 10 (a j)) = (List.range (10 * n)).map fun k => a (k / 10) := by
  induction n with
  | zero => rfl
  | succ n ih =>
    rw [List.range_succ, List.flatMap_append, ih, Nat.mul_succ, List.range_add, List.map_append]
    congr 1
    simp only [List.flatMap_cons, List.flatMap_nil, List.append_nil, List.map_map]
    refine (List.eq_replicate_iff.mpr ⟨by simp, fun b hb => ?_⟩).symm
    obtain ⟨k, hk, rfl⟩ := List.mem_map.mp hb
    have := List.mem_range.mp hk
    simp only [Function.comp]
    congr 1
    omega

/-- All values of the curve by their number. -/
theorem values_eq (n : ℕ) (a : ℕ → ℝ) :
    (List.range n).flatMap (fun j => List.replicate 10 (a j)) ++ [a n] =
      (List.range (10 * n + 1)).map fun k => a (k / 10) := by
  rw [expanded_eq, List.range_succ, List.map_append]
  simp

/-- **C186** (the part that holds). There is a curve exactly if the dynamics ran ten times as often as the flight software
(apart from the first run), otherwise drawing raises; and the point number `k` shows update number `k / 10`. -/
theorem C186_partial (stop dyn fsw : ℕ) (e : ℕ → V4) (he : ∀ j, |e j 3| ≤ 1) :
    (stop / dyn = 10 * (stop / fsw) →
      ∃ l, errorCurve stop dyn fsw e = .ok l ∧ l.map Prod.fst = taskTimes stop dyn ∧
        ∀ k (h : k < l.length), errorAngle (e (k / 10)) = .ok (l[k].2)) ∧
    (stop / dyn ≠ 10 * (stop / fsw) → errorCurve stop dyn fsw e = .error .valueError) := by
  have hl : errorCurve stop dyn fsw e =
      curve (taskTimes stop dyn) ((List.range (10 * (stop / fsw) + 1)).map fun k => curveAngle (e (k / 10))) := by
    rw [errorCurve, errorExpanded_log stop fsw e he, values_eq (stop / fsw) fun j => curveAngle (e j)]
  rw [hl]
  constructor
  · intro h
    refine ⟨_, by rw [curve, if_pos (by simp [taskTimes, h])], ?_, ?_⟩
    · exact List.map_fst_zip (by simp [taskTimes, h])
    · intro k hk
      simp [errorAngle_curve (he _)]
  · intro h
    rw [curve, if_neg (by simpa [taskTimes] using h)]

/-- **C186** (the part that holds). With a flight software that is ten times slower than the dynamics (as in the
program) the curve is drawn if the stop time is less than one period of the dynamics after a run of the flight
software, and then it is right. -/
theorem C186_ten_partial (stop dyn : ℕ) (hd : 0 < dyn) (e : ℕ → V4) (he : ∀ j, |e j 3| ≤ 1) :
    (stop % (10 * dyn) < dyn → ∃ l, errorCurve stop dyn (10 * dyn) e = .ok l ∧ RightCurve stop dyn (10 * dyn) e l) ∧
    (dyn ≤ stop % (10 * dyn) → errorCurve stop dyn (10 * dyn) e = .error .valueError) := by
  obtain ⟨h1, h2⟩ := C186_partial stop dyn (10 * dyn) e he
  have hdm := Nat.div_add_mod stop (10 * dyn)
  have key : stop / dyn = 10 * (stop / (10 * dyn)) + stop % (10 * dyn) / dyn := by
    conv_lhs => rw [← hdm]
    rw [show 10 * dyn * (stop / (10 * dyn)) = dyn * (10 * (stop / (10 * dyn))) by ring, Nat.mul_add_div hd]
  constructor
  · intro h
    rw [Nat.div_eq_of_lt h, Nat.add_zero] at key
    obtain ⟨l, hl, hf, hv⟩ := h1 key
    refine ⟨l, hl, hf, fun p hp => ?_⟩
    obtain ⟨k, hk, rfl⟩ := List.mem_iff_getElem.mp hp
    have ht : l[k].1 = k * dyn := by
      have hk' : k < (l.map Prod.fst).length := by simpa using hk
      have : (l.map Prod.fst)[k] = l[k].1 := by simp
      rw [← this]
      simp only [hf, taskTimes]
      simp
    rw [ht, Nat.mul_comm 10 dyn, ← Nat.div_div_eq_div_mul, Nat.mul_div_cancel _ hd]
    exact hv k hk
  · intro h
    have : 0 < stop % (10 * dyn) / dyn := Nat.div_pos h hd
    exact h2 (by omega)

/-- **C186** does not hold: both at the same rate. -/
theorem C186_fails : ¬ C186_claim := by
  intro h
  obtain ⟨l, hl, -⟩ := h 1 1 1 (fun _ => 0) one_pos one_pos (fun _ => by simp)
  rw [(C186_partial 1 1 1 (fun _ => 0) fun _ => by simp).2 (by norm_num)] at hl
  simp at hl

/-- The run of the program: 50 seconds, steps of 10 and 100 milliseconds. -/
example (e : ℕ → V4) (he : ∀ j, |e j 3| ≤ 1) :
    ∃ l, errorCurve 50000000000 10000000 100000000 e = .ok l ∧ RightCurve 50000000000 10000000 100000000 e l :=
  (C186_ten_partial 50000000000 10000000 (by norm_num) e he).1 (by norm_num)

end Adcs
