import Verif.Proofs.Float
import Verif.Proofs.Basic
import Mathlib.Algebra.BigOperators.Field

set_option autoImplicit false

/-! # C167: normalisation with rounding -/

namespace Adcs

open Fl

/-! ## Lemmas -/

theorem exactDot_ofFn {n : ℕ} (q : Fin n → ℝ) :
    exactDot (List.ofFn fun i => (q i, q i)) = npNorm q ^ 2 := by
  unfold exactDot npNorm
  rw [Real.sq_sqrt (Finset.sum_nonneg fun i _ => sq_nonneg _), List.map_ofFn, List.sum_ofFn]
  exact Finset.sum_congr rfl fun i _ => by simp [pow_two]

theorem pairs_nonneg {n : ℕ} (q : Fin n → ℝ) :
    ∀ p ∈ List.ofFn (fun i => (q i, q i)), 0 ≤ p.1 * p.2 := by
  intro p hp
  obtain ⟨i, rfl⟩ := List.mem_ofFn.1 hp
  exact mul_self_nonneg _

/-- The computed norm is at least each component. -/
theorem norm_ge {fl : ℝ → ℝ} (H : Nearest fl) {n : ℕ} {q : Fin n → ℝ} (hq : ∀ i, IsFloat (q i))
    {N : ℝ} (hN : Norm fl q N) (i : Fin n) : |q i| ≤ N := by
  obtain ⟨s, hs, rfl⟩ := hN
  rw [← sqrt_mul_self H (hq i)]
  apply H.mono
  apply Real.sqrt_le_sqrt
  exact (hs.ge H (pairs_nonneg q)).2 (q i, q i) (List.mem_ofFn.2 ⟨i, rfl⟩)

/-- The computed norm of at most four components is within three roundings. -/
theorem norm_bounds {fl : ℝ → ℝ} (H : Nearest fl) {n : ℕ} (hn : n ≤ 4) {q : Fin n → ℝ} {N : ℝ}
    (hN : Norm fl q N) :
    (1 - ulp) ^ 3 * npNorm q ≤ N ∧ N ≤ (1 + ulp) ^ 3 * npNorm q := by
  obtain ⟨s, hs, rfl⟩ := hN
  have u0 := ulp_pos
  have u1 : 0 ≤ 1 - ulp := by linarith [ulp_small]
  obtain ⟨h1, h2⟩ := hs.bounds H (pairs_nonneg q)
  rw [exactDot_ofFn, List.length_ofFn] at h1 h2
  have hq : 0 ≤ npNorm q := Real.sqrt_nonneg _
  have h3 : ((1 - ulp) ^ 2 * npNorm q) ^ 2 ≤ s := by
    refine le_trans ?_ h1
    rw [mul_pow, ← pow_mul]
    exact mul_le_mul_of_nonneg_right (pow_le_pow_of_le_one u1 (by linarith) (by omega)) (sq_nonneg _)
  have h4 : s ≤ ((1 + ulp) ^ 2 * npNorm q) ^ 2 := by
    refine h2.trans ?_
    rw [mul_pow, ← pow_mul]
    exact mul_le_mul_of_nonneg_right (pow_le_pow_right₀ (by linarith) (by omega)) (sq_nonneg _)
  have h5 : (1 - ulp) ^ 2 * npNorm q ≤ Real.sqrt s := Real.le_sqrt_of_sq_le h3
  have h6 : Real.sqrt s ≤ (1 + ulp) ^ 2 * npNorm q := Real.sqrt_le_iff.2 ⟨by positivity, h4⟩
  constructor
  · refine le_trans ?_ (H.mul_le (Real.sqrt_nonneg s))
    rw [pow_succ', mul_assoc]
    exact mul_le_mul_of_nonneg_left h5 u1
  · refine (H.le_mul (Real.sqrt_nonneg s)).trans ?_
    rw [pow_succ' (1 + ulp), mul_assoc]
    exact mul_le_mul_of_nonneg_left h6 (by linarith)

theorem ulp_ratio : 1 - 5 * ulp ≤ (1 - ulp) / (1 + ulp) ^ 3 ∧ (1 + ulp) / (1 - ulp) ^ 3 ≤ 1 + 5 * ulp := by
  constructor <;> norm_num [ulp]

/-- Each component of `q / N` is within five roundings of the exact one. -/
theorem quotient_err {fl : ℝ → ℝ} (H : Nearest fl) {x E N : ℝ} (hE : 0 < E)
    (h1 : (1 - ulp) ^ 3 * E ≤ N) (h2 : N ≤ (1 + ulp) ^ 3 * E) :
    |fl (x / N) - x / E| ≤ 5 * ulp * (|x| / E) := by
  have u0 := ulp_pos
  have u1 : 0 < 1 - ulp := by linarith [ulp_small]
  have hN : 0 < N := lt_of_lt_of_le (by positivity) h1
  obtain ⟨r1, r2⟩ := ulp_ratio
  have key : ∀ y : ℝ, 0 ≤ y → (1 - 5 * ulp) * (y / E) ≤ (1 - ulp) * (y / N) ∧
      (1 + ulp) * (y / N) ≤ (1 + 5 * ulp) * (y / E) := by
    intro y hy
    have hyE : 0 ≤ y / E := by positivity
    constructor
    · refine (mul_le_mul_of_nonneg_right r1 hyE).trans ?_
      rw [div_mul_div_comm, ← mul_div_assoc]
      apply div_le_div_of_nonneg_left (by positivity) hN h2
    · refine le_trans ?_ (mul_le_mul_of_nonneg_right r2 hyE)
      rw [div_mul_div_comm, ← mul_div_assoc]
      apply div_le_div_of_nonneg_left (by positivity) (by positivity) h1
  have he := abs_le.1 (H.err (x / N))
  rw [abs_div, abs_of_pos hN] at he
  obtain ⟨k1, k2⟩ := key |x| (abs_nonneg x)
  rw [abs_le]
  rcases abs_cases x with ⟨hx, _⟩ | ⟨hx, _⟩ <;> rw [hx] at he k1 k2 ⊢ <;> constructor
  · linarith [he.1]
  · linarith [he.2]
  · have : -x / N = -(x / N) := neg_div _ _
    have : -x / E = -(x / E) := neg_div _ _
    linarith [he.1]
  · have : -x / N = -(x / N) := neg_div _ _
    have : -x / E = -(x / E) := neg_div _ _
    linarith [he.2]

/-! ## The property -/

/-- What a user of `normalize` gets: the numbers `r` have the direction and the signs of `q` and unit
length, each up to five roundings (`5 / 2 ^ 53`, less than `6e-16`), and no component exceeds 1. -/
structure Spec.UnitUpTo {n : ℕ} (q r : Fin n → ℝ) : Prop where
  component : ∀ i, |r i| ≤ 1
  direction : ∀ i, |r i - q i / Real.sqrt (∑ j, q j ^ 2)|
    ≤ 5 / 2 ^ 53 * (|q i| / Real.sqrt (∑ j, q j ^ 2))
  length : |Real.sqrt (∑ j, r j ^ 2) - 1| ≤ 5 / 2 ^ 53

theorem length_of_direction {n : ℕ} {q r : Fin n → ℝ} {c : ℝ} (hc0 : 0 ≤ c) (hc : c ≤ 1)
    (hq : 0 < npNorm q) (h : ∀ i, |r i - q i / npNorm q| ≤ c * (|q i| / npNorm q)) :
    |npNorm r - 1| ≤ c := by
  have h1 : ∀ i, r i ^ 2 ≤ (1 + c) ^ 2 * (q i ^ 2 / npNorm q ^ 2) ∧
      (1 - c) ^ 2 * (q i ^ 2 / npNorm q ^ 2) ≤ r i ^ 2 := by
    intro i
    have ha : |q i / npNorm q| = |q i| / npNorm q := by rw [abs_div, abs_of_pos hq]
    have h2 : |r i| ≤ (1 + c) * (|q i| / npNorm q) := by
      have := abs_sub_abs_le_abs_sub (r i) (q i / npNorm q)
      rw [ha] at this
      linarith [h i]
    have h3 : (1 - c) * (|q i| / npNorm q) ≤ |r i| := by
      have := abs_sub_abs_le_abs_sub (q i / npNorm q) (r i)
      rw [ha, abs_sub_comm] at this
      linarith [h i]
    have h4 : (|q i| / npNorm q) ^ 2 = q i ^ 2 / npNorm q ^ 2 := by rw [div_pow, sq_abs]
    rw [← h4, ← mul_pow, ← mul_pow, ← sq_abs (r i)]
    exact ⟨pow_le_pow_left₀ (abs_nonneg _) h2 2,
      pow_le_pow_left₀ (mul_nonneg (by linarith) (by positivity)) h3 2⟩
  have hsum : ∑ i, q i ^ 2 / npNorm q ^ 2 = 1 := by
    rw [← Finset.sum_div]
    have : npNorm q ^ 2 = ∑ i, q i ^ 2 := Real.sq_sqrt (Finset.sum_nonneg fun i _ => sq_nonneg _)
    rw [← this]
    exact div_self (by positivity)
  have hu : ∑ i, r i ^ 2 ≤ (1 + c) ^ 2 := by
    calc _ ≤ ∑ i, (1 + c) ^ 2 * (q i ^ 2 / npNorm q ^ 2) := Finset.sum_le_sum fun i _ => (h1 i).1
      _ = _ := by rw [← Finset.mul_sum, hsum, mul_one]
  have hl : (1 - c) ^ 2 ≤ ∑ i, r i ^ 2 := by
    calc _ = ∑ i, (1 - c) ^ 2 * (q i ^ 2 / npNorm q ^ 2) := by rw [← Finset.mul_sum, hsum, mul_one]
      _ ≤ _ := Finset.sum_le_sum fun i _ => (h1 i).2
  have h5 : 1 - c ≤ npNorm r := Real.le_sqrt_of_sq_le hl
  have h6 : npNorm r ≤ 1 + c := Real.sqrt_le_iff.2 ⟨by linarith, hu⟩
  rw [abs_le]; constructor <;> linarith

theorem quotient_unit {fl : ℝ → ℝ} (H : Nearest fl) {n : ℕ} (hn : n ≤ 4) {q r : Fin n → ℝ}
    (hq : ∀ i, IsFloat (q i)) {N : ℝ} (hN : Norm fl q N) (h0 : N ≠ 0) (hr : ∀ i, r i = fl (q i / N)) :
    Spec.UnitUpTo q r := by
  have u0 := ulp_pos
  obtain ⟨h1, h2⟩ := norm_bounds H hn hN
  have hE0 : 0 ≤ npNorm q := Real.sqrt_nonneg _
  have hE : 0 < npNorm q := by
    rcases eq_or_lt_of_le hE0 with h | h
    · rw [← h, mul_zero] at h1 h2; exact absurd (le_antisymm h2 h1) h0
    · exact h
  have hN0 : 0 < N := lt_of_lt_of_le
    (mul_pos (pow_pos (by linarith [ulp_small]) 3) hE) h1
  have hd : ∀ i, |r i - q i / npNorm q| ≤ 5 * ulp * (|q i| / npNorm q) := by
    intro i
    rw [hr i]
    exact quotient_err H hE h1 h2
  have e5 : 5 * ulp = 5 / 2 ^ 53 := by unfold ulp; ring
  refine ⟨fun i => ?_, ?_, ?_⟩
  · rw [hr i]
    have h3 : |q i / N| ≤ 1 := by
      rw [abs_div, abs_of_pos hN0, div_le_one hN0]; exact norm_ge H hq hN i
    rw [abs_le] at h3 ⊢
    exact ⟨H.float_le isFloat_one.neg h3.1, H.le_float isFloat_one h3.2⟩
  · rw [← e5]; exact hd
  · rw [← e5]
    exact length_of_direction (by linarith) (by linarith [ulp_small]) hE hd

/-- C167: the computed norm is zero for the zero vector only, which `normalize` hands back. -/
theorem C167_zero {fl : ℝ → ℝ} (H : Nearest fl) {n : ℕ} {q : Fin n → ℝ}
    (hq : ∀ i, IsFloat (q i)) {N : ℝ} (hN : Norm fl q N) : N = 0 ↔ q = 0 := by
  constructor
  · rintro rfl
    funext i
    have := norm_ge H hq hN i
    exact abs_eq_zero.1 (le_antisymm this (abs_nonneg _))
  · rintro rfl
    obtain ⟨s, hs, rfl⟩ := hN
    obtain ⟨h1, h2⟩ := hs.bounds H (pairs_nonneg _)
    have : exactDot (List.ofFn fun i : Fin n => ((0 : Fin n → ℝ) i, (0 : Fin n → ℝ) i)) = 0 := by
      rw [exactDot_ofFn]; simp [npNorm]
    rw [this, mul_zero] at h1 h2
    rw [le_antisymm h2 h1, Real.sqrt_zero, H.zero]

/-- C167: in binary64 arithmetic, however the norm is summed, `normalize` of a non-zero vector of
at most four floats has no component beyond 1, and the right direction and length up to five roundings. -/
theorem C167_unit {fl : ℝ → ℝ} (H : Nearest fl) {n : ℕ} (hn : n ≤ 4) {q r : Fin n → ℝ}
    (hq : ∀ i, IsFloat (q i)) (h0 : q ≠ 0) (h : Normalize fl q r) : Spec.UnitUpTo q r := by
  obtain ⟨N, hN, hr⟩ := h
  have hN0 : N ≠ 0 := fun h => h0 ((C167_zero H hq hN).1 h)
  rw [if_neg hN0] at hr
  exact quotient_unit H hn hq hN hN0 hr

/-- C167: the same for `normalize` of the simulation, which always returns numbers then. -/
theorem C167_sim {fl : ℝ → ℝ} (H : Nearest fl) {q r : V4} (hq : ∀ i, IsFloat (q i))
    (h : SimNormalize fl q r) : Spec.UnitUpTo q r := by
  obtain ⟨N, hN, hN0, hr⟩ := h
  exact quotient_unit H le_rfl hq hN hN0 hr

/-- C167: `error_angle` of an error quaternion never asks `acos` for a number beyond 1, although
it does not clip. -/
theorem C167_error_angle {fl : ℝ → ℝ} (H : Nearest fl) {qt qc e : V4} (h : QuatError fl qt qc e) :
    acosArg e = .ok |e 3| := by
  obtain ⟨a, b, -, -, h⟩ := h
  have hf : ∀ i, IsFloat (rawMult fl a b i) := by
    intro i
    fin_cases i <;> exact H.rep _
  exact if_pos ((C167_sim H hf h).component 3)

/-- C167: `quat_to_axis` never takes the root of a negative number. -/
theorem C167_axis {fl : ℝ → ℝ} (H : Nearest fl) {q : V4} (hq : ∀ i, IsFloat (q i)) {r : Py V3}
    (h : QuatToAxis fl q r) : ∃ v, r = .ok v := by
  obtain ⟨a, ha, hr⟩ := h
  have h1 := (C167_sim H hq ha).component 3
  have h2 : fl (a 3 * a 3) ≤ 1 := H.le_float isFloat_one (by nlinarith [abs_le.1 h1])
  have h3 : ¬ fl (1 - fl (a 3 * a 3)) < 0 := not_lt.2 (H.nonneg (by linarith))
  dsimp only at hr
  rw [if_neg h3] at hr
  split_ifs at hr with h4
  · exact ⟨_, hr⟩
  · exact ⟨_, hr⟩

/-- What the last assertion of `rotation_sequence_to_quaternion` asks for: a normalised quaternion has
a computed norm of exactly 1. -/
def C167_claim : Prop :=
  ∀ fl : ℝ → ℝ, Nearest fl → ∀ q : V4, (∀ i, IsFloat (q i)) → q ≠ 0 → ∀ r, Finish fl q r → ∃ a, r = .ok a

/-- C167: what the computed norm is, up to nine roundings. -/
theorem C167_norm_partial {fl : ℝ → ℝ} (H : Nearest fl) {q a : V4} (hq : ∀ i, IsFloat (q i))
    (h : SimNormalize fl q a) {N : ℝ} (hN : Norm fl a N) : |N - 1| ≤ 9 / 2 ^ 53 := by
  have h1 := (C167_sim H hq h).length
  obtain ⟨h2, h3⟩ := norm_bounds H le_rfl hN
  change |npNorm a - 1| ≤ _ at h1
  rw [abs_le] at h1
  have k1 : (1 - ulp) ^ 3 * (1 - 5 / 2 ^ 53) ≤ N :=
    le_trans (mul_le_mul_of_nonneg_left (by linarith [h1.1])
      (pow_nonneg (by linarith [ulp_small]) 3)) h2
  have k2 : N ≤ (1 + ulp) ^ 3 * (1 + 5 / 2 ^ 53) :=
    h3.trans (mul_le_mul_of_nonneg_left (by linarith [h1.2])
      (pow_nonneg (by linarith [ulp_pos]) 3))
  have k3 : 1 - 9 / 2 ^ 53 ≤ (1 - ulp) ^ 3 * (1 - 5 / 2 ^ 53) := by norm_num [ulp]
  have k4 : (1 + ulp) ^ 3 * (1 + 5 / 2 ^ 53) ≤ 1 + 9 / 2 ^ 53 := by norm_num [ulp]
  rw [abs_le]; constructor <;> linarith

theorem Fl.Nearest.eq_of_near_sqrt {fl : ℝ → ℝ} (H : Nearest fl) {x : ℝ} {m k : ℤ} (h1 : 2 ^ 52 < |m|)
    (h2 : |m| < 2 ^ 53) (h0 : 0 ≤ (m : ℝ) * 2 ^ k - 2 ^ (k - 1))
    (h3 : ((m : ℝ) * 2 ^ k - 2 ^ (k - 1)) ^ 2 < x) (h4 : x < ((m : ℝ) * 2 ^ k + 2 ^ (k - 1)) ^ 2) :
    fl (Real.sqrt x) = m * (2 : ℝ) ^ k := by
  apply H.eq_of_near h1 h2
  have hp : (0 : ℝ) < 2 ^ (k - 1) := by positivity
  have h5 := Real.lt_sqrt_of_sq_lt h3
  have h6 : Real.sqrt x < (m : ℝ) * 2 ^ k + 2 ^ (k - 1) := (Real.sqrt_lt' (by linarith)).2 h4
  rw [abs_lt]; constructor <;> linarith

/-- The sum of the squares of `(x, x, 0, 0)`, from left to right. -/
theorem dot_diag (fl : ℝ → ℝ) (x : ℝ) :
    Dot fl (List.ofFn fun i => ((![x, x, 0, 0] : V4) i, (![x, x, 0, 0] : V4) i))
      (fl (fl (fl (fl (x * x) + fl (x * x)) + fl (0 * 0)) + fl (0 * 0))) := by
  have := (((Dot.mul (fl := fl) x x).add (.mul x x)).add (.mul 0 0)).add (.mul 0 0)
  simpa [List.ofFn_succ] using this

theorem isFloat_diag (i : Fin 4) : IsFloat ((![1, 1, 0, 0] : V4) i) := by
  fin_cases i
  · exact isFloat_one
  · exact isFloat_one
  · exact isFloat_zero
  · exact isFloat_zero

/-- The quaternion `(1, 1, 0, 0)` is normalised to one whose computed norm is below 1. -/
theorem finish_diag {fl : ℝ → ℝ} (H : Nearest fl) : Finish fl ![1, 1, 0, 0] (.error .assertion) := by
  have f2 : IsFloat 2 := ⟨2, 0, by norm_num, by norm_num⟩
  have e1 : fl (fl (fl (fl ((1 : ℝ) * 1) + fl (1 * 1)) + fl (0 * 0)) + fl (0 * 0)) = 2 := by
    simp only [mul_one, mul_zero, H.one, H.zero, add_zero]
    rw [show (1 : ℝ) + 1 = 2 by norm_num, H.eq_self f2, H.eq_self f2, H.eq_self f2]
  have e2 : fl (Real.sqrt 2) = (6369051672525773 : ℤ) * (2 : ℝ) ^ (-52 : ℤ) :=
    H.eq_of_near_sqrt (by norm_num) (by norm_num) (by norm_num) (by norm_num) (by norm_num)
  have e3 : fl (1 / ((6369051672525773 : ℤ) * (2 : ℝ) ^ (-52 : ℤ)))
      = (6369051672525772 : ℤ) * (2 : ℝ) ^ (-53 : ℤ) :=
    H.eq_of_near (by norm_num) (by norm_num) (by norm_num [abs_lt])
  set a : ℝ := (6369051672525772 : ℤ) * (2 : ℝ) ^ (-53 : ℤ) with ha
  have e4 : fl (a * a) = (9007199254740990 : ℤ) * (2 : ℝ) ^ (-54 : ℤ) :=
    H.eq_of_near (by norm_num) (by norm_num) (by norm_num [abs_lt, ha])
  have e5 : fl (fl (fl (fl (a * a) + fl (a * a)) + fl (0 * 0)) + fl (0 * 0))
      = (9007199254740990 : ℤ) * (2 : ℝ) ^ (-53 : ℤ) := by
    have f : IsFloat ((9007199254740990 : ℤ) * (2 : ℝ) ^ (-53 : ℤ)) := ⟨_, _, by norm_num, rfl⟩
    rw [e4, mul_zero, H.zero, add_zero, add_zero,
      show ((9007199254740990 : ℤ) * (2 : ℝ) ^ (-54 : ℤ) + (9007199254740990 : ℤ) * (2 : ℝ) ^ (-54 : ℤ))
        = (9007199254740990 : ℤ) * (2 : ℝ) ^ (-53 : ℤ) by norm_num, H.eq_self f, H.eq_self f, H.eq_self f]
  have e6 : fl (Real.sqrt ((9007199254740990 : ℤ) * (2 : ℝ) ^ (-53 : ℤ)))
      = (9007199254740991 : ℤ) * (2 : ℝ) ^ (-53 : ℤ) :=
    H.eq_of_near_sqrt (by norm_num) (by norm_num) (by norm_num) (by norm_num) (by norm_num)
  refine ⟨![a, a, 0, 0], _, ⟨_, ⟨_, dot_diag fl 1, by rw [e1]⟩, ?_, ?_⟩, ⟨_, dot_diag fl a, rfl⟩, ?_⟩
  · rw [e2]; norm_num
  · rw [e2]
    intro i
    fin_cases i
    · exact e3.symm
    · exact e3.symm
    · change (0 : ℝ) = fl (0 / _); rw [zero_div, H.zero]
    · change (0 : ℝ) = fl (0 / _); rw [zero_div, H.zero]
  · rw [e5, e6, if_neg (by norm_num)]

/-- C167: the claim is false. -/
theorem C167_assertion_fails : ¬ C167_claim := by
  intro h
  obtain ⟨a, ha⟩ := h rn rn_nearest _ isFloat_diag (fun h => by simpa using congrFun h 0) _
    (finish_diag rn_nearest)
  cases ha

/-- The hypotheses of the theorems above: rounding to nearest exists, and `normalize` gives a result. -/
example : ∃ fl, Nearest fl ∧ ∃ r, SimNormalize fl ![1, 1, 0, 0] r ∧ Normalize fl ![1, 1, 0, 0] r := by
  obtain ⟨a, -, ⟨N, hN, h0, hr⟩, -, -⟩ := finish_diag rn_nearest
  exact ⟨rn, rn_nearest, a, ⟨N, hN, h0, hr⟩, N, hN, by rw [if_neg h0]; exact hr⟩

end Adcs
