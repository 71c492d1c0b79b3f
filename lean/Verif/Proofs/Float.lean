import Verif.Model.Float
import Mathlib.Algebra.Order.Archimedean.Basic
import Mathlib.Algebra.Order.Round
import Mathlib.Data.List.OfFn
import Mathlib.Tactic.Linarith
import Mathlib.Tactic.FieldSimp

set_option autoImplicit false

/-! # Lemmas about rounding to nearest -/

namespace Adcs.Fl

open Adcs

theorem ulp_pos : 0 < ulp := by unfold ulp; positivity

theorem ulp_small : ulp ≤ 1 / 1000000 := by unfold ulp; norm_num

/-- 53 bits and the number after the largest. -/
theorem isFloat_of_le {m : ℤ} (e : ℤ) (h : |m| ≤ 2 ^ 53) : IsFloat (m * (2 : ℝ) ^ e) := by
  rcases lt_or_eq_of_le h with h | h
  · exact ⟨m, e, h, rfl⟩
  · rcases abs_eq (by norm_num : (0 : ℤ) ≤ 2 ^ 53) |>.1 h with h | h
    · refine ⟨1, e + 53, by norm_num, ?_⟩
      rw [h, zpow_add₀ (by norm_num)]; push_cast; norm_num; ring
    · refine ⟨-1, e + 53, by norm_num, ?_⟩
      rw [h, zpow_add₀ (by norm_num)]; push_cast; norm_num; ring

theorem isFloat_zero : IsFloat 0 := ⟨0, 0, by norm_num, by simp⟩

theorem isFloat_one : IsFloat 1 := ⟨1, 0, by norm_num, by simp⟩

theorem IsFloat.neg {x : ℝ} (h : IsFloat x) : IsFloat (-x) := by
  obtain ⟨m, e, hm, rfl⟩ := h
  exact ⟨-m, e, by rwa [abs_neg], by push_cast; ring⟩

theorem IsFloat.abs {x : ℝ} (h : IsFloat x) : IsFloat |x| := by
  rcases abs_choice x with e | e <;> rw [e]
  · exact h
  · exact h.neg

theorem IsFloat.scale {x : ℝ} (h : IsFloat x) (k : ℤ) : IsFloat (x * (2 : ℝ) ^ k) := by
  obtain ⟨m, e, hm, rfl⟩ := h
  exact ⟨m, e + k, hm, by rw [zpow_add₀ (by norm_num)]; ring⟩

/-- The binade of a non-zero number. -/
theorem exists_binade {x : ℝ} (h : x ≠ 0) : ∃ e : ℤ, (2 : ℝ) ^ e ≤ |x| ∧ |x| < 2 ^ (e + 1) := by
  obtain ⟨e, he⟩ := exists_mem_Ico_zpow (abs_pos.2 h) (by norm_num : (1 : ℝ) < 2)
  exact ⟨e, he.1, he.2⟩

/-- Floats from `2 ^ e` on are multiples of `2 ^ (e - 52)`. -/
theorem IsFloat.grid {y : ℝ} (hy : IsFloat y) {e : ℤ} (h : (2 : ℝ) ^ e ≤ |y|) :
    ∃ k : ℤ, y = k * (2 : ℝ) ^ (e - 52) := by
  obtain ⟨m, c, hm, rfl⟩ := hy
  have hc : e - 52 ≤ c := by
    have h1 : (2 : ℝ) ^ e < 2 ^ (53 + c) := by
      refine lt_of_le_of_lt h ?_
      rw [abs_mul, abs_of_pos (by positivity : (0 : ℝ) < 2 ^ c), zpow_add₀ (by norm_num)]
      have : |(m : ℝ)| < 2 ^ 53 := by exact_mod_cast hm
      exact mul_lt_mul_of_pos_right (by exact_mod_cast this) (by positivity)
    have := (zpow_lt_zpow_iff_right₀ (by norm_num : (1 : ℝ) < 2)).1 h1
    omega
  obtain ⟨j, hj⟩ := Int.le.dest hc
  refine ⟨m * 2 ^ j, ?_⟩
  rw [← hj, zpow_add₀ (by norm_num)]
  push_cast
  rw [zpow_natCast]
  ring

/-- Below `2 ^ (e + 1)` some float is within half a unit of `2 ^ (e - 52)`. -/
theorem exists_float_near {x : ℝ} {e : ℤ} (h : |x| ≤ 2 ^ (e + 1)) :
    ∃ y, IsFloat y ∧ |x - y| ≤ 2 ^ (e - 53) := by
  have hp : (0 : ℝ) < 2 ^ (e - 52) := by positivity
  refine ⟨(round (x / 2 ^ (e - 52)) : ℤ) * (2 : ℝ) ^ (e - 52), isFloat_of_le _ ?_, ?_⟩
  · have h1 : |x / 2 ^ (e - 52)| ≤ 2 ^ 53 := by
      rw [abs_div, abs_of_pos hp, div_le_iff₀ hp]
      refine h.trans (le_of_eq ?_)
      rw [← zpow_natCast, ← zpow_add₀ (by norm_num)]
      congr 1; push_cast; ring
    have h2 := abs_sub_round (x / 2 ^ (e - 52))
    have h3 : |((round (x / 2 ^ (e - 52)) : ℤ) : ℝ)| < 2 ^ 53 + 1 := by
      have := abs_sub_abs_le_abs_sub ((round (x / 2 ^ (e - 52)) : ℤ) : ℝ) (x / 2 ^ (e - 52))
      rw [abs_sub_comm] at this
      linarith
    have h4 : |round (x / 2 ^ (e - 52))| < 2 ^ 53 + 1 := by exact_mod_cast h3
    omega
  · have h2 := abs_sub_round (x / 2 ^ (e - 52))
    have : x - (round (x / 2 ^ (e - 52)) : ℤ) * (2 : ℝ) ^ (e - 52)
        = (x / 2 ^ (e - 52) - round (x / 2 ^ (e - 52))) * 2 ^ (e - 52) := by
      field_simp
    rw [this, abs_mul, abs_of_pos hp]
    calc _ ≤ 1 / 2 * (2 : ℝ) ^ (e - 52) := by gcongr
      _ = 2 ^ (e - 53) := by
        rw [show e - 52 = (e - 53) + 1 by ring, zpow_add₀ (by norm_num)]; norm_num; ring

namespace Nearest

variable {fl : ℝ → ℝ} (H : Nearest fl)

include H

theorem eq_self {x : ℝ} (h : IsFloat x) : fl x = x := by
  have := H.near x x h
  rw [sub_self, abs_zero] at this
  have h0 := abs_eq_zero.1 (le_antisymm this (abs_nonneg _))
  linarith

theorem zero : fl 0 = 0 := H.eq_self isFloat_zero

theorem one : fl 1 = 1 := H.eq_self isFloat_one

theorem mono {x y : ℝ} (h : x ≤ y) : fl x ≤ fl y := by
  rcases eq_or_lt_of_le h with rfl | h
  · exact le_rfl
  by_contra hc
  push Not at hc
  have h1 := H.near x (fl y) (H.rep y)
  have h2 := H.near y (fl x) (H.rep x)
  have h3 := sq_le_sq.2 h1
  have h4 := sq_le_sq.2 h2
  nlinarith

theorem nonneg {x : ℝ} (h : 0 ≤ x) : 0 ≤ fl x := by rw [← H.zero]; exact H.mono h

theorem le_float {x y : ℝ} (hy : IsFloat y) (h : x ≤ y) : fl x ≤ y := by
  rw [← H.eq_self hy]; exact H.mono h

theorem float_le {x y : ℝ} (hy : IsFloat y) (h : y ≤ x) : y ≤ fl x := by
  rw [← H.eq_self hy]; exact H.mono h

theorem err_binade {x : ℝ} {e : ℤ} (h : |x| ≤ 2 ^ (e + 1)) : |x - fl x| ≤ 2 ^ (e - 53) := by
  obtain ⟨y, hy, hxy⟩ := exists_float_near h
  exact (H.near x y hy).trans hxy

/-- The relative error of one rounding. -/
theorem err (x : ℝ) : |fl x - x| ≤ ulp * |x| := by
  rcases eq_or_ne x 0 with rfl | h
  · simp [H.zero]
  obtain ⟨e, h1, h2⟩ := exists_binade h
  rw [abs_sub_comm]
  refine (H.err_binade h2.le).trans ?_
  rw [show e - 53 = (-53 : ℤ) + e by ring, zpow_add₀ (by norm_num)]
  have : (2 : ℝ) ^ (-53 : ℤ) = ulp := by unfold ulp; rw [zpow_neg]; norm_num
  rw [this]
  exact mul_le_mul_of_nonneg_left h1 ulp_pos.le

theorem le_mul {x : ℝ} (h : 0 ≤ x) : fl x ≤ (1 + ulp) * x := by
  have := abs_le.1 (H.err x); rw [abs_of_nonneg h] at this; linarith [this.2]

theorem mul_le {x : ℝ} (h : 0 ≤ x) : (1 - ulp) * x ≤ fl x := by
  have := abs_le.1 (H.err x); rw [abs_of_nonneg h] at this; linarith [this.1]

/-- A float with 53 bits closer than half a unit is the result. -/
theorem eq_of_near {x : ℝ} {m k : ℤ} (h1 : 2 ^ 52 < |m|) (h2 : |m| < 2 ^ 53)
    (h : |x - m * (2 : ℝ) ^ k| < 2 ^ (k - 1)) : fl x = m * (2 : ℝ) ^ k := by
  have hv : IsFloat (m * (2 : ℝ) ^ k) := ⟨m, k, h2, rfl⟩
  have hk : (0 : ℝ) < 2 ^ k := by positivity
  have hkk : (2 : ℝ) ^ k = 2 * 2 ^ (k - 1) := by
    rw [show k = (k - 1) + 1 by ring, zpow_add₀ (by norm_num)]; norm_num; ring
  have hw := H.near x _ hv
  have hd : |fl x - m * (2 : ℝ) ^ k| < 2 ^ k := by
    have := abs_add_le (fl x - x) (x - m * (2 : ℝ) ^ k)
    rw [show fl x - x + (x - m * (2 : ℝ) ^ k) = fl x - m * (2 : ℝ) ^ k by ring,
      abs_sub_comm (fl x) x] at this
    linarith
  have hbig : (2 : ℝ) ^ (52 + k) ≤ |fl x| := by
    have hm : (2 : ℝ) ^ 52 + 1 ≤ |(m : ℝ)| := by exact_mod_cast h1
    have h3 : |(m : ℝ) * 2 ^ k| = |(m : ℝ)| * 2 ^ k := by rw [abs_mul, abs_of_pos hk]
    have h4 := abs_sub_abs_le_abs_sub ((m : ℝ) * 2 ^ k) (fl x)
    rw [abs_sub_comm, h3] at h4
    rw [zpow_add₀ (by norm_num)]
    have : (2 : ℝ) ^ (52 : ℤ) = 2 ^ 52 := by norm_cast
    rw [this]
    nlinarith
  obtain ⟨j, hj⟩ := (H.rep x).grid hbig
  rw [show 52 + k - 52 = k by ring] at hj
  rw [hj, ← sub_mul, abs_mul, abs_of_pos hk] at hd
  have h5 : |(j : ℝ) - m| < 1 := by nlinarith
  have h6 : |j - m| < 1 := by exact_mod_cast h5
  have : j = m := by rw [abs_lt] at h6; omega
  rw [hj, this]

end Nearest

/-- Rounding to nearest exists: the next multiple of the unit of the binade. -/
noncomputable def rn (x : ℝ) : ℝ :=
  if h : x = 0 then 0 else
    (round (x / 2 ^ ((exists_binade h).choose - 52)) : ℤ) * (2 : ℝ) ^ ((exists_binade h).choose - 52)

theorem rn_nearest : Nearest rn := by
  have key : ∀ (x : ℝ) (e : ℤ) (k : ℤ),
      |x - (round (x / 2 ^ e) : ℤ) * (2 : ℝ) ^ e| ≤ |x - k * (2 : ℝ) ^ e| := by
    intro x e k
    have hp : (0 : ℝ) < 2 ^ e := by positivity
    have h1 : x - (round (x / 2 ^ e) : ℤ) * (2 : ℝ) ^ e = (x / 2 ^ e - round (x / 2 ^ e)) * 2 ^ e := by
      field_simp
    have h2 : x - k * (2 : ℝ) ^ e = (x / 2 ^ e - k) * 2 ^ e := by field_simp
    rw [h1, h2, abs_mul, abs_mul]
    exact mul_le_mul_of_nonneg_right (round_le _ _) (abs_nonneg _)
  constructor
  · intro x
    unfold rn
    split_ifs with h
    · exact isFloat_zero
    · obtain ⟨h1, h2⟩ := (exists_binade h).choose_spec
      set e := (exists_binade h).choose
      apply isFloat_of_le
      have hp : (0 : ℝ) < 2 ^ (e - 52) := by positivity
      have h3 : |x / 2 ^ (e - 52)| ≤ 2 ^ 53 := by
        rw [abs_div, abs_of_pos hp, div_le_iff₀ hp]
        refine h2.le.trans (le_of_eq ?_)
        rw [← zpow_natCast, ← zpow_add₀ (by norm_num)]
        congr 1; push_cast; ring
      have h4 := abs_sub_round (x / 2 ^ (e - 52))
      have h5 : |((round (x / 2 ^ (e - 52)) : ℤ) : ℝ)| < 2 ^ 53 + 1 := by
        have := abs_sub_abs_le_abs_sub ((round (x / 2 ^ (e - 52)) : ℤ) : ℝ) (x / 2 ^ (e - 52))
        rw [abs_sub_comm] at this
        linarith
      have h6 : |round (x / 2 ^ (e - 52))| < 2 ^ 53 + 1 := by exact_mod_cast h5
      omega
  · intro x y hy
    unfold rn
    split_ifs with h
    · subst h; simp
    · obtain ⟨h1, h2⟩ := (exists_binade h).choose_spec
      set e := (exists_binade h).choose
      rcases le_or_gt (2 ^ e) |y| with hy' | hy'
      · obtain ⟨k, rfl⟩ := hy.grid hy'
        exact key x _ k
      · have h52 : (2 : ℝ) ^ e = 4503599627370496 * 2 ^ (e - 52) := by
          rw [show (4503599627370496 : ℝ) = 2 ^ 52 by norm_num, ← zpow_natCast, ← zpow_add₀ (by norm_num)]; congr 1; push_cast; ring
        have h3 : |x| - 2 ^ e ≤ |x - y| := by
          have := abs_sub_abs_le_abs_sub x y; linarith
        refine le_trans ?_ h3
        rcases lt_or_ge x 0 with hx | hx
        · refine (key x _ (-2 ^ 52)).trans (le_of_eq ?_)
          rw [show (((-2 ^ 52 : ℤ)) : ℝ) = -4503599627370496 by norm_num, neg_mul, ← h52, sub_neg_eq_add, abs_of_neg hx, abs_of_nonpos]
          · ring
          · rw [abs_of_neg hx] at h1; linarith
        · refine (key x _ (2 ^ 52)).trans (le_of_eq ?_)
          rw [show (((2 ^ 52 : ℤ)) : ℝ) = 4503599627370496 by norm_num, ← h52, abs_of_nonneg hx, abs_of_nonneg]
          rw [abs_of_nonneg hx] at h1; linarith

/-! ## The root of a square -/

/-- Some float near the top of a binade. -/
theorem sqrt_mul_self_aux {fl : ℝ → ℝ} (H : Nearest fl) {x : ℝ} (hx : IsFloat x) {e : ℤ}
    (h1 : (2 : ℝ) ^ e ≤ x) (h2 : x < 2 ^ (e + 1)) : fl (Real.sqrt (fl (x * x))) = x := by
  have hp : (0 : ℝ) < 2 ^ e := by positivity
  have hx0 : 0 < x := lt_of_lt_of_le hp h1
  set u : ℝ := 2 ^ (e - 52) with hu
  have hu0 : 0 < u := by positivity
  have hpu : (2 : ℝ) ^ e = 2 ^ 52 * u := by
    rw [hu, ← zpow_natCast, ← zpow_add₀ (by norm_num)]; congr 1; push_cast; ring
  have hq : (2 : ℝ) ^ (e + e) = 2 ^ e * 2 ^ e := zpow_add₀ (by norm_num) _ _
  have he1 : (2 : ℝ) ^ (e + 1) = 2 * 2 ^ e := by rw [zpow_add₀ (by norm_num)]; norm_num; ring
  have hyn : 0 ≤ fl (x * x) := H.nonneg (by positivity)
  set y := fl (x * x) with hy
  have hs0 := Real.sqrt_nonneg y
  have hss := Real.mul_self_sqrt hyn
  set s := Real.sqrt y with hs
  -- the root misses `x` by less than half a unit
  have hclose : |s - x| < u / 2 := by
    have hfac : (s - x) * (s + x) = y - x * x := by nlinarith
    have hsx : 2 ^ e ≤ s + x := by linarith
    rcases lt_or_ge (x * x) (2 * (2 ^ e * 2 ^ e)) with hc | hc
    · -- the square lies in the lower binade
      have hb : |x * x - y| ≤ 2 ^ (e + e - 53) := by
        apply H.err_binade
        rw [abs_of_nonneg (by positivity), zpow_add₀ (by norm_num), hq]
        norm_num; linarith
      have hb' : (2 : ℝ) ^ (e + e - 53) = 2 ^ e * (u / 2) := by
        rw [hu, show e + e - 53 = e + (e - 53) by ring, zpow_add₀ (by norm_num),
          show e - 52 = (e - 53) + 1 by ring, zpow_add₀ (by norm_num)]
        norm_num
      have hlow : 2 ^ e * 2 ^ e ≤ y := by
        rw [hy]
        apply H.float_le
        · rw [← hq]; exact ⟨1, e + e, by norm_num, by simp⟩
        · nlinarith
      have hsl : 2 ^ e ≤ s := by
        rw [hs]; exact Real.le_sqrt_of_sq_le (by nlinarith)
      rw [abs_sub_comm, hb'] at hb
      have : |s - x| * (s + x) ≤ 2 ^ e * (u / 2) := by
        rw [← abs_of_nonneg (by linarith : 0 ≤ s + x), ← abs_mul, hfac]; exact hb
      nlinarith [abs_nonneg (s - x)]
    · have hb : |x * x - y| ≤ 2 ^ (e + e + 1 - 53) := by
        apply H.err_binade
        rw [abs_of_nonneg (by positivity), zpow_add₀ (by norm_num), zpow_add₀ (by norm_num), hq]
        norm_num; nlinarith
      have hb' : (2 : ℝ) ^ (e + e + 1 - 53) = 2 ^ e * u := by
        rw [hu, show e + e + 1 - 53 = e + (e - 52) by ring, zpow_add₀ (by norm_num)]
      have hlow : 2 * (2 ^ e * 2 ^ e) ≤ y := by
        rw [hy]
        apply H.float_le
        · rw [← hq]; exact ⟨2, e + e, by norm_num, by simp⟩
        · exact hc
      have hsl : 1.4 * 2 ^ e ≤ s := by
        rw [hs]; exact Real.le_sqrt_of_sq_le (by nlinarith)
      have hxl : 1.4 * 2 ^ e ≤ x := by nlinarith
      rw [abs_sub_comm, hb'] at hb
      have h3 : |s - x| * (s + x) ≤ 2 ^ e * u := by
        rw [← abs_of_nonneg (by linarith : 0 ≤ s + x), ← abs_mul, hfac]; exact hb
      have h4 : |s - x| * (2.8 * 2 ^ e) ≤ 2 ^ e * u :=
        le_trans (mul_le_mul_of_nonneg_left (by linarith) (abs_nonneg _)) h3
      have h5 : |s - x| * 2.8 ≤ u := by
        by_contra hcon
        push Not at hcon
        have := mul_lt_mul_of_pos_left hcon hp
        linarith
      linarith [abs_nonneg (s - x)]
  -- the rounded root is a multiple of the unit as well
  have hr := H.near s x hx
  have hd : |fl s - x| < u := by
    have := abs_add_le (fl s - s) (s - x)
    rw [show fl s - s + (s - x) = fl s - x by ring, abs_sub_comm (fl s) s] at this
    linarith
  obtain ⟨k, hk⟩ := hx.grid (e := e) (by rwa [abs_of_pos hx0])
  have hfl : 2 ^ e ≤ fl s := by
    have hpf : IsFloat ((2 : ℝ) ^ e) := ⟨1, e, by norm_num, by simp⟩
    apply H.float_le hpf
    rw [hs]
    apply Real.le_sqrt_of_sq_le
    rw [hy]
    apply H.float_le
    · rw [pow_two, ← hq]; exact ⟨1, e + e, by norm_num, by simp⟩
    · nlinarith
  obtain ⟨j, hj⟩ := (H.rep s).grid (e := e) (by rwa [abs_of_pos (by linarith)])
  rw [← hu] at hk hj
  rw [hj, hk, ← sub_mul, abs_mul, abs_of_pos hu0] at hd
  have h5 : |(j : ℝ) - k| < 1 := by nlinarith
  have h6 : |j - k| < 1 := by exact_mod_cast h5
  have : j = k := by rw [abs_lt] at h6; omega
  rw [hj, hk, this]

/-- The computed root of the computed square of a float is exactly its absolute value. -/
theorem sqrt_mul_self {fl : ℝ → ℝ} (H : Nearest fl) {x : ℝ} (hx : IsFloat x) :
    fl (Real.sqrt (fl (x * x))) = |x| := by
  rcases eq_or_ne x 0 with rfl | h
  · simp [H.zero]
  obtain ⟨e, h1, h2⟩ := exists_binade h
  have := sqrt_mul_self_aux H hx.abs h1 h2
  rwa [abs_mul_abs_self] at this

/-! ## Dot products of any order -/

variable {fl : ℝ → ℝ}

theorem Dot.isFloat (H : Nearest fl) {l : List (ℝ × ℝ)} {s : ℝ} (h : Dot fl l s) : IsFloat s := by
  induction h with
  | nil => exact isFloat_zero
  | mul x y => exact H.rep _
  | fma x y h ih => exact H.rep _
  | add h h' ih ih' => exact H.rep _
  | perm p h ih => exact ih

theorem Dot.nil_eq (H : Nearest fl) {l : List (ℝ × ℝ)} {s : ℝ} (h : Dot fl l s) (hl : l = []) :
    s = 0 := by
  induction h with
  | nil => rfl
  | mul x y => cases hl
  | fma x y h ih => cases hl
  | add h h' ih ih' =>
    rw [List.append_eq_nil_iff] at hl
    rw [ih hl.1, ih' hl.2, add_zero, H.zero]
  | perm p h ih => subst hl; exact ih p.eq_nil

/-- The sum of non-negative products is at least each rounded product. -/
theorem Dot.ge (H : Nearest fl) {l : List (ℝ × ℝ)} {s : ℝ} (h : Dot fl l s)
    (hl : ∀ p ∈ l, 0 ≤ p.1 * p.2) : 0 ≤ s ∧ ∀ p ∈ l, fl (p.1 * p.2) ≤ s := by
  induction h with
  | nil => exact ⟨le_rfl, by simp⟩
  | mul x y =>
    refine ⟨H.nonneg (hl (x, y) (by simp)), ?_⟩
    intro p hp
    rw [List.mem_singleton] at hp
    rw [hp]
  | @fma l s x y h ih =>
    have hxy : 0 ≤ x * y := hl (x, y) (by simp)
    obtain ⟨h0, h1⟩ := ih fun p hp => hl p (List.mem_cons_of_mem _ hp)
    refine ⟨H.nonneg (by linarith), ?_⟩
    intro p hp
    rcases List.mem_cons.1 hp with rfl | hp
    · exact H.mono (by dsimp only; linarith)
    · refine (h1 p hp).trans ?_
      exact H.float_le (h.isFloat H) (by linarith)
  | @add l l' s s' h h' ih ih' =>
    obtain ⟨h0, h1⟩ := ih fun p hp => hl p (List.mem_append_left _ hp)
    obtain ⟨h0', h1'⟩ := ih' fun p hp => hl p (List.mem_append_right _ hp)
    refine ⟨H.nonneg (by linarith), ?_⟩
    intro p hp
    rcases List.mem_append.1 hp with hp | hp
    · exact (h1 p hp).trans (H.float_le (h.isFloat H) (by linarith))
    · exact (h1' p hp).trans (H.float_le (h'.isFloat H) (by linarith))
  | perm p h ih =>
    obtain ⟨h0, h1⟩ := ih fun q hq => hl q (p.mem_iff.1 hq)
    exact ⟨h0, fun q hq => h1 q (p.mem_iff.2 hq)⟩

/-- The exact value. -/
def exactDot (l : List (ℝ × ℝ)) : ℝ := (l.map fun p => p.1 * p.2).sum

theorem exactDot_nonneg {l : List (ℝ × ℝ)} (hl : ∀ p ∈ l, 0 ≤ p.1 * p.2) : 0 ≤ exactDot l := by
  apply List.sum_nonneg
  intro x hx
  obtain ⟨p, hp, rfl⟩ := List.mem_map.1 hx
  exact hl p hp

/-- Relative error of a sum of `n` non-negative products in any order. -/
theorem Dot.bounds (H : Nearest fl) {l : List (ℝ × ℝ)} {s : ℝ} (h : Dot fl l s)
    (hl : ∀ p ∈ l, 0 ≤ p.1 * p.2) :
    (1 - ulp) ^ l.length * exactDot l ≤ s ∧ s ≤ (1 + ulp) ^ l.length * exactDot l := by
  have u0 := ulp_pos
  have u1 : 0 ≤ 1 - ulp := by linarith [ulp_small]
  have lo : ∀ {a b : ℕ}, a ≤ b → (1 - ulp) ^ b ≤ (1 - ulp) ^ a := fun hab =>
    pow_le_pow_of_le_one u1 (by linarith) hab
  have hi : ∀ {a b : ℕ}, a ≤ b → (1 + ulp) ^ a ≤ (1 + ulp) ^ b := fun hab =>
    pow_le_pow_right₀ (by linarith) hab
  induction h with
  | nil => simp [exactDot]
  | mul x y =>
    have hxy : 0 ≤ x * y := hl (x, y) (by simp)
    simp only [exactDot, List.map_cons, List.map_nil, List.sum_cons, List.sum_nil, add_zero,
      List.length_cons, List.length_nil, zero_add, pow_one]
    exact ⟨H.mul_le hxy, H.le_mul hxy⟩
  | @fma l s x y h ih =>
    have hxy : 0 ≤ x * y := hl (x, y) (by simp)
    have hl' : ∀ p ∈ l, 0 ≤ p.1 * p.2 := fun p hp => hl p (List.mem_cons_of_mem _ hp)
    obtain ⟨h1, h2⟩ := ih hl'
    have h0 := (h.ge H hl').1
    have he : exactDot ((x, y) :: l) = x * y + exactDot l := by simp [exactDot]
    have hE := exactDot_nonneg hl'
    rw [he, List.length_cons]
    constructor
    · refine le_trans ?_ (H.mul_le (by linarith))
      rw [pow_succ']
      rw [mul_assoc]
      apply mul_le_mul_of_nonneg_left _ u1
      rw [mul_add]
      have : (1 - ulp) ^ l.length ≤ 1 := pow_le_one₀ u1 (by linarith)
      nlinarith
    · refine (H.le_mul (by linarith)).trans ?_
      rw [pow_succ', mul_assoc]
      apply mul_le_mul_of_nonneg_left _ (by linarith)
      rw [mul_add]
      have : 1 ≤ (1 + ulp) ^ l.length := one_le_pow₀ (by linarith)
      nlinarith
  | @add l l' s s' h h' ih ih' =>
    have hl1 : ∀ p ∈ l, 0 ≤ p.1 * p.2 := fun p hp => hl p (List.mem_append_left _ hp)
    have hl2 : ∀ p ∈ l', 0 ≤ p.1 * p.2 := fun p hp => hl p (List.mem_append_right _ hp)
    obtain ⟨h1, h2⟩ := ih hl1
    obtain ⟨h1', h2'⟩ := ih' hl2
    have h0 := (h.ge H hl1).1
    have h0' := (h'.ge H hl2).1
    have hE := exactDot_nonneg hl1
    have hE' := exactDot_nonneg hl2
    have he : exactDot (l ++ l') = exactDot l + exactDot l' := by simp [exactDot]
    rw [he, List.length_append]
    rcases Nat.eq_zero_or_pos l.length with hz | hz
    · rw [List.length_eq_zero_iff] at hz
      rw [h.nil_eq H hz, zero_add, H.eq_self (h'.isFloat H)]
      subst hz
      simpa [exactDot] using ⟨h1', h2'⟩
    rcases Nat.eq_zero_or_pos l'.length with hz' | hz'
    · rw [List.length_eq_zero_iff] at hz'
      rw [h'.nil_eq H hz', add_zero, H.eq_self (h.isFloat H)]
      subst hz'
      simpa [exactDot] using ⟨h1, h2⟩
    obtain ⟨n, hn⟩ : ∃ n, l.length + l'.length = n + 1 := ⟨l.length + l'.length - 1, by omega⟩
    have hn1 : l.length ≤ n := by omega
    have hn2 : l'.length ≤ n := by omega
    rw [hn]
    constructor
    · refine le_trans ?_ (H.mul_le (by linarith))
      rw [pow_succ', mul_assoc]
      apply mul_le_mul_of_nonneg_left _ u1
      rw [mul_add]
      exact add_le_add ((mul_le_mul_of_nonneg_right (lo hn1) hE).trans h1)
        ((mul_le_mul_of_nonneg_right (lo hn2) hE').trans h1')
    · refine (H.le_mul (by linarith)).trans ?_
      rw [pow_succ', mul_assoc]
      apply mul_le_mul_of_nonneg_left _ (by linarith)
      rw [mul_add]
      exact add_le_add (h2.trans (mul_le_mul_of_nonneg_right (hi hn1) hE))
        (h2'.trans (mul_le_mul_of_nonneg_right (hi hn2) hE'))
  | @perm l l' s p h ih =>
    have he : exactDot l' = exactDot l := ((p.map _).sum_eq).symm
    rw [he, ← p.length_eq]
    exact ih fun q hq => hl q (p.mem_iff.1 hq)

end Adcs.Fl
