import Verif.Props.Float
import Mathlib.Analysis.Real.Pi.Bounds
import Mathlib.Analysis.SpecialFunctions.Trigonometric.Bounds

set_option autoImplicit false

/-! # C171: `rotation_sequence_to_quaternion` with rounding -/

namespace Adcs

open Fl

/-! ## Evaluating float operations -/

/-- The number `m * 2 ^ k`. -/
noncomputable def Fl.F (m k : ℤ) : ℝ := m * (2 : ℝ) ^ k

theorem Fl.Nearest.of_near {fl : ℝ → ℝ} (H : Nearest fl) {x : ℝ} {m k : ℤ} (h1 : 2 ^ 52 < |m|)
    (h2 : |m| < 2 ^ 53) (h : |x - F m k| < 2 ^ (k - 1)) : fl x = F m k := H.eq_of_near h1 h2 h

theorem Fl.Nearest.of_exact {fl : ℝ → ℝ} (H : Nearest fl) {x : ℝ} {m k : ℤ} (h2 : |m| < 2 ^ 53)
    (h : x = F m k) : fl x = F m k := by rw [h]; exact H.eq_self ⟨m, k, h2, rfl⟩

theorem Fl.Nearest.of_zero {fl : ℝ → ℝ} (H : Nearest fl) {x : ℝ} (h : x = 0) : fl x = 0 := by
  rw [h, H.zero]

/-- Near a power of two, where the floats below are closer. -/
theorem Fl.Nearest.of_pow {fl : ℝ → ℝ} (H : Nearest fl) {x : ℝ} {k : ℤ}
    (h : |x - F 4503599627370496 k| < 2 ^ (k - 2)) : fl x = F 4503599627370496 k := by
  have hF : F 4503599627370496 k = (2 : ℝ) ^ (52 + k) := by
    unfold F; rw [zpow_add₀ (by norm_num)]; norm_num
  have hv : IsFloat (F 4503599627370496 k) := ⟨4503599627370496, k, by norm_num, rfl⟩
  have hk : (0 : ℝ) < 2 ^ (k - 1) := by positivity
  have h2 : (2 : ℝ) ^ (k - 1) = 2 * 2 ^ (k - 2) := by
    rw [show k - 1 = (k - 2) + 1 by ring, zpow_add₀ (by norm_num)]; norm_num; ring
  have h52 : F 4503599627370496 k = 9007199254740992 * 2 ^ (k - 1) := by
    unfold F; rw [show k = (k - 1) + 1 by ring, zpow_add₀ (by norm_num)]; norm_num; ring
  have hw := H.near x _ hv
  have hd : |fl x - F 4503599627370496 k| < 2 ^ (k - 1) := by
    have := abs_add_le (fl x - x) (x - F 4503599627370496 k)
    rw [sub_add_sub_cancel, abs_sub_comm (fl x) x] at this
    linarith
  have hbig : (2 : ℝ) ^ (51 + k) ≤ |fl x| := by
    have h3 : (2 : ℝ) ^ (51 + k) = 4503599627370496 * 2 ^ (k - 1) := by
      rw [show (51 + k : ℤ) = 52 + (k - 1) by ring, zpow_add₀ (by norm_num)]; norm_num
    have h4 := abs_lt.1 hd
    rw [h3]
    refine le_trans ?_ (le_abs_self _)
    linarith [h4.1]
  obtain ⟨j, hj⟩ := (H.rep x).grid hbig
  rw [show 51 + k - 52 = k - 1 by ring] at hj
  rw [hj, h52, ← sub_mul, abs_mul, abs_of_pos hk] at hd
  have h5 : |(j : ℝ) - 9007199254740992| < 1 := by nlinarith
  have h6 : |j - 9007199254740992| < 1 := by exact_mod_cast h5
  have : j = 9007199254740992 := by rw [abs_lt] at h6; omega
  rw [hj, h52, this]
  norm_num

theorem sqrt_near {x v h : ℝ} (h0 : 0 < h) (h1 : 0 ≤ v - h) (h2 : (v - h) ^ 2 < x) (h3 : x < (v + h) ^ 2) :
    |Real.sqrt x - v| < h := by
  have h5 := Real.lt_sqrt_of_sq_lt h2
  have h6 : Real.sqrt x < v + h := (Real.sqrt_lt' (by linarith)).2 h3
  rw [abs_lt]; constructor <;> linarith

local macro "flz" : tactic => `(tactic| exact Fl.Nearest.of_zero ‹_› (by norm_num))
local macro "fle" : tactic => `(tactic| exact Fl.Nearest.of_exact ‹_› (by norm_num) (by norm_num [F]))
local macro "fln" : tactic => `(tactic|
  exact Fl.Nearest.of_near ‹_› (by norm_num) (by norm_num) (by norm_num [F, abs_lt]))
local macro "flp" : tactic => `(tactic| exact Fl.Nearest.of_pow ‹_› (by norm_num [F, abs_lt]))
local macro "fls" : tactic => `(tactic|
  exact Fl.Nearest.of_exact ‹_› (by norm_num)
    ((Real.sqrt_eq_iff_mul_self_eq (by norm_num [F]) (by norm_num [F])).2 (by norm_num [F])))
local macro "flq" : tactic => `(tactic|
  exact Fl.Nearest.of_near ‹_› (by norm_num) (by norm_num)
    (sqrt_near (by norm_num) (by norm_num [F]) (by norm_num [F]) (by norm_num [F])))
local macro "flr" : tactic => `(tactic|
  exact Fl.Nearest.of_pow ‹_›
    (sqrt_near (by norm_num) (by norm_num [F]) (by norm_num [F]) (by norm_num [F])))

/-- A sum of four squares, each fused into the sum from left to right. -/
theorem norm_of {fl : ℝ → ℝ} {a b c d s1 s2 s3 s4 n : ℝ} (h1 : fl (a * a + 0) = s1)
    (h2 : fl (b * b + s1) = s2) (h3 : fl (c * c + s2) = s3) (h4 : fl (d * d + s3) = s4)
    (hn : fl (Real.sqrt s4) = n) : Norm fl (![a, b, c, d] : V4) n := by
  refine ⟨s4, ?_, hn.symm⟩
  have := (((Dot.nil (fl := fl).fma a a).fma b b).fma c c).fma d d
  rw [h1, h2, h3, h4] at this
  refine Dot.perm ?_ this
  have e : (List.ofFn fun i => ((![a, b, c, d] : V4) i, (![a, b, c, d] : V4) i))
      = [(a, a), (b, b), (c, c), (d, d)] := by simp [List.ofFn_succ]
  rw [e]
  exact List.reverse_perm [(a, a), (b, b), (c, c), (d, d)]

theorem simNormalize_of {fl : ℝ → ℝ} {a b c d s1 s2 s3 s4 n a' b' c' d' : ℝ} (h1 : fl (a * a + 0) = s1)
    (h2 : fl (b * b + s1) = s2) (h3 : fl (c * c + s2) = s3) (h4 : fl (d * d + s3) = s4)
    (hn : fl (Real.sqrt s4) = n) (h0 : n ≠ 0) (ha : fl (a / n) = a') (hb : fl (b / n) = b')
    (hc : fl (c / n) = c') (hd : fl (d / n) = d') :
    SimNormalize fl ![a, b, c, d] ![a', b', c', d'] := by
  refine ⟨n, norm_of h1 h2 h3 h4 hn, h0, fun i => ?_⟩
  fin_cases i
  · exact ha.symm
  · exact hb.symm
  · exact hc.symm
  · exact hd.symm

section rows

variable {fl : ℝ → ℝ} {x1 y1 x2 y2 x3 y3 x4 y4 p1 p2 p3 p4 a b c : ℝ}

theorem rowEqA (h1 : fl (x1 * y1) = p1) (h2 : fl (x2 * y2) = p2) (h3 : fl (x3 * y3) = p3)
    (h4 : fl (x4 * y4) = p4) (h5 : fl (p1 + p2) = a) (h6 : fl (a + p3) = b) (h7 : fl (b - p4) = c) :
    fl (fl (fl (fl (x1 * y1) + fl (x2 * y2)) + fl (x3 * y3)) - fl (x4 * y4)) = c := by
  rw [h1, h2, h3, h4, h5, h6, h7]

theorem rowEqB (h1 : fl (x1 * y1) = p1) (h2 : fl (x2 * y2) = p2) (h3 : fl (x3 * y3) = p3)
    (h4 : fl (x4 * y4) = p4) (h5 : fl (p1 - p2) = a) (h6 : fl (a + p3) = b) (h7 : fl (b + p4) = c) :
    fl (fl (fl (fl (x1 * y1) - fl (x2 * y2)) + fl (x3 * y3)) + fl (x4 * y4)) = c := by
  rw [h1, h2, h3, h4, h5, h6, h7]

theorem rowEqC (h1 : fl (x1 * y1) = p1) (h2 : fl (x2 * y2) = p2) (h3 : fl (x3 * y3) = p3)
    (h4 : fl (x4 * y4) = p4) (h5 : fl (p1 + p2) = a) (h6 : fl (a - p3) = b) (h7 : fl (b + p4) = c) :
    fl (fl (fl (fl (x1 * y1) + fl (x2 * y2)) - fl (x3 * y3)) + fl (x4 * y4)) = c := by
  rw [h1, h2, h3, h4, h5, h6, h7]

theorem rowEqD (h1 : fl (x1 * y1) = p1) (h2 : fl (x2 * y2) = p2) (h3 : fl (x3 * y3) = p3)
    (h4 : fl (x4 * y4) = p4) (h5 : fl (p1 - p2) = a) (h6 : fl (a - p3) = b) (h7 : fl (b - p4) = c) :
    fl (fl (fl (fl (x1 * y1) - fl (x2 * y2)) - fl (x3 * y3)) - fl (x4 * y4)) = c := by
  rw [h1, h2, h3, h4, h5, h6, h7]

end rows

/-! ## The arithmetic of `rotation_sequence_to_quaternion([90, 0, 135])` -/

theorem seq_nz1 {fl : ℝ → ℝ} (H : Nearest fl) :
    SimNormalize fl ![F 6369051672525772 (-53), 0, 0, F 6369051672525773 (-53)]
      ![F 6369051672525772 (-53), 0, 0, F 6369051672525773 (-53)] :=
  simNormalize_of (s1 := F 9007199254740990 (-54)) (s2 := F 9007199254740990 (-54)) (s3 := F 9007199254740990 (-54)) (s4 := F 4503599627370496 (-52))
    (n := F 4503599627370496 (-52))
    (by fln) (by fle) (by fle) (by flp) (by fls) (by unfold F; norm_num)
    (by fle) (by flz) (by flz) (by fle)

theorem seq_nz2 {fl : ℝ → ℝ} (H : Nearest fl) :
    SimNormalize fl ![0, 0, 0, F 4503599627370496 (-52)]
      ![0, 0, 0, F 4503599627370496 (-52)] :=
  simNormalize_of (s1 := 0) (s2 := 0) (s3 := 0) (s4 := F 4503599627370496 (-52))
    (n := F 4503599627370496 (-52))
    (by flz) (by flz) (by flz) (by fle) (by fls) (by unfold F; norm_num)
    (by flz) (by flz) (by flz) (by fle)

theorem seq_nz3 {fl : ℝ → ℝ} (H : Nearest fl) :
    SimNormalize fl ![0, 0, F 8321567036706118 (-53), F 6893811853601124 (-54)]
      ![0, 0, F 8321567036706118 (-53), F 6893811853601124 (-54)] :=
  simNormalize_of (s1 := 0) (s2 := 0) (s3 := F 7688125463633382 (-53)) (s4 := F 4503599627370496 (-52))
    (n := F 4503599627370496 (-52))
    (by flz) (by flz) (by fln) (by flp) (by fls) (by unfold F; norm_num)
    (by flz) (by flz) (by fle) (by fle)

theorem seq_raw4 {fl : ℝ → ℝ} (H : Nearest fl) :
    rawMult fl ![0, 0, F 8321567036706118 (-53), F 6893811853601124 (-54)]
      ![0, 0, 0, F 4503599627370496 (-52)]
      = ![0, 0, F 8321567036706118 (-53), F 6893811853601124 (-54)] := by
  funext i
  fin_cases i
  · exact rowEqA
      (show fl (F 6893811853601124 (-54) * 0) = 0 from (by flz))
      (show fl (0 * F 4503599627370496 (-52)) = 0 from (by flz))
      (show fl (0 * 0) = 0 from (by flz))
      (show fl (F 8321567036706118 (-53) * 0) = 0 from (by flz))
      (show fl (0 + 0) = 0 from (by flz))
      (show fl (0 + 0) = 0 from (by flz))
      (show fl (0 - 0) = 0 from (by flz))
  · exact rowEqB
      (show fl (F 6893811853601124 (-54) * 0) = 0 from (by flz))
      (show fl (0 * 0) = 0 from (by flz))
      (show fl (0 * F 4503599627370496 (-52)) = 0 from (by flz))
      (show fl (F 8321567036706118 (-53) * 0) = 0 from (by flz))
      (show fl (0 - 0) = 0 from (by flz))
      (show fl (0 + 0) = 0 from (by flz))
      (show fl (0 + 0) = 0 from (by flz))
  · exact rowEqC
      (show fl (F 6893811853601124 (-54) * 0) = 0 from (by flz))
      (show fl (0 * 0) = 0 from (by flz))
      (show fl (0 * 0) = 0 from (by flz))
      (show fl (F 8321567036706118 (-53) * F 4503599627370496 (-52)) = F 8321567036706118 (-53) from (by fle))
      (show fl (0 + 0) = 0 from (by flz))
      (show fl (0 - 0) = 0 from (by flz))
      (show fl (0 + F 8321567036706118 (-53)) = F 8321567036706118 (-53) from (by fle))
  · exact rowEqD
      (show fl (F 6893811853601124 (-54) * F 4503599627370496 (-52)) = F 6893811853601124 (-54) from (by fle))
      (show fl (0 * 0) = 0 from (by flz))
      (show fl (0 * 0) = 0 from (by flz))
      (show fl (F 8321567036706118 (-53) * 0) = 0 from (by flz))
      (show fl (F 6893811853601124 (-54) - 0) = F 6893811853601124 (-54) from (by fle))
      (show fl (F 6893811853601124 (-54) - 0) = F 6893811853601124 (-54) from (by fle))
      (show fl (F 6893811853601124 (-54) - 0) = F 6893811853601124 (-54) from (by fle))

theorem seq_raw5 {fl : ℝ → ℝ} (H : Nearest fl) :
    rawMult fl ![0, 0, F 8321567036706118 (-53), F 6893811853601124 (-54)]
      ![F 6369051672525772 (-53), 0, 0, F 6369051672525773 (-53)]
      = ![F 4874661109905557 (-54), F 5884236481753339 (-53), F 5884236481753340 (-53), F 4874661109905558 (-54)] := by
  funext i
  fin_cases i
  · exact rowEqA
      (show fl (F 6893811853601124 (-54) * F 6369051672525772 (-53)) = F 4874661109905557 (-54) from (by fln))
      (show fl (0 * F 6369051672525773 (-53)) = 0 from (by flz))
      (show fl (0 * 0) = 0 from (by flz))
      (show fl (F 8321567036706118 (-53) * 0) = 0 from (by flz))
      (show fl (F 4874661109905557 (-54) + 0) = F 4874661109905557 (-54) from (by fle))
      (show fl (F 4874661109905557 (-54) + 0) = F 4874661109905557 (-54) from (by fle))
      (show fl (F 4874661109905557 (-54) - 0) = F 4874661109905557 (-54) from (by fle))
  · exact rowEqB
      (show fl (F 6893811853601124 (-54) * 0) = 0 from (by flz))
      (show fl (0 * 0) = 0 from (by flz))
      (show fl (0 * F 6369051672525773 (-53)) = 0 from (by flz))
      (show fl (F 8321567036706118 (-53) * F 6369051672525772 (-53)) = F 5884236481753339 (-53) from (by fln))
      (show fl (0 - 0) = 0 from (by flz))
      (show fl (0 + 0) = 0 from (by flz))
      (show fl (0 + F 5884236481753339 (-53)) = F 5884236481753339 (-53) from (by fle))
  · exact rowEqC
      (show fl (F 6893811853601124 (-54) * 0) = 0 from (by flz))
      (show fl (0 * 0) = 0 from (by flz))
      (show fl (0 * F 6369051672525772 (-53)) = 0 from (by flz))
      (show fl (F 8321567036706118 (-53) * F 6369051672525773 (-53)) = F 5884236481753340 (-53) from (by fln))
      (show fl (0 + 0) = 0 from (by flz))
      (show fl (0 - 0) = 0 from (by flz))
      (show fl (0 + F 5884236481753340 (-53)) = F 5884236481753340 (-53) from (by fle))
  · exact rowEqD
      (show fl (F 6893811853601124 (-54) * F 6369051672525773 (-53)) = F 4874661109905558 (-54) from (by fln))
      (show fl (0 * F 6369051672525772 (-53)) = 0 from (by flz))
      (show fl (0 * 0) = 0 from (by flz))
      (show fl (F 8321567036706118 (-53) * 0) = 0 from (by flz))
      (show fl (F 4874661109905558 (-54) - 0) = F 4874661109905558 (-54) from (by fle))
      (show fl (F 4874661109905558 (-54) - 0) = F 4874661109905558 (-54) from (by fle))
      (show fl (F 4874661109905558 (-54) - 0) = F 4874661109905558 (-54) from (by fle))

theorem seq_nz6 {fl : ℝ → ℝ} (H : Nearest fl) :
    SimNormalize fl ![F 4874661109905557 (-54), F 5884236481753339 (-53), F 5884236481753340 (-53), F 4874661109905558 (-54)]
      ![F 4874661109905558 (-54), F 5884236481753340 (-53), F 5884236481753341 (-53), F 4874661109905559 (-54)] :=
  simNormalize_of (s1 := F 5276295164430439 (-56)) (s2 := F 9007199254740990 (-54)) (s3 := F 8347662359187186 (-53)) (s4 := F 9007199254740991 (-53))
    (n := F 9007199254740991 (-53))
    (by fln) (by fln) (by fln) (by fln) (by flq) (by unfold F; norm_num)
    (by fln) (by fln) (by fln) (by fln)

theorem seq_nz7 {fl : ℝ → ℝ} (H : Nearest fl) :
    SimNormalize fl ![F 4874661109905558 (-54), F 5884236481753340 (-53), F 5884236481753341 (-53), F 4874661109905559 (-54)]
      ![F 4874661109905557 (-54), F 5884236481753339 (-53), F 5884236481753340 (-53), F 4874661109905558 (-54)] :=
  simNormalize_of (s1 := F 5276295164430442 (-56)) (s2 := F 4503599627370497 (-53)) (s3 := F 8347662359187190 (-53)) (s4 := F 4503599627370498 (-52))
    (n := F 4503599627370497 (-52))
    (by fln) (by fln) (by fln) (by fln) (by flq) (by unfold F; norm_num)
    (by fln) (by fln) (by fln) (by fln)

theorem seq_norm {fl : ℝ → ℝ} (H : Nearest fl) :
    Norm fl ![F 4874661109905557 (-54), F 5884236481753339 (-53), F 5884236481753340 (-53), F 4874661109905558 (-54)] (F 9007199254740991 (-53)) :=
  norm_of (s1 := F 5276295164430439 (-56)) (s2 := F 9007199254740990 (-54)) (s3 := F 8347662359187186 (-53)) (s4 := F 9007199254740991 (-53))
    (by fln) (by fln) (by fln) (by fln) (by flq)

/-! ## Sine and cosine -/

theorem float_pi {fl : ℝ → ℝ} (H : Nearest fl) : fl Real.pi = F 7074237752028440 (-51) := by
  refine H.of_near (by norm_num) (by norm_num) ?_
  have h1 := Real.pi_gt_d20
  have h2 := Real.pi_lt_d20
  rw [abs_lt]
  unfold F
  norm_num at h1 h2 ⊢
  constructor <;> linarith

theorem float_degree {fl : ℝ → ℝ} (H : Nearest fl) : fl (fl Real.pi / 180) = F 5030569068109113 (-58) := by
  rw [float_pi H]; fln

/-- The argument of sine and cosine for 90 degrees. -/
theorem float_half90 {fl : ℝ → ℝ} (H : Nearest fl) : fl (radians fl 90 / 2) = F 7074237752028440 (-53) := by
  have : radians fl 90 = F 7074237752028440 (-52) := by
    unfold radians; rw [float_degree H]; fln
  rw [this]; fle

theorem float_half135 {fl : ℝ → ℝ} (H : Nearest fl) :
    fl (radians fl 135 / 2) = F 5305678314021330 (-52) := by
  have : radians fl 135 = F 5305678314021330 (-51) := by
    unfold radians; rw [float_degree H]; fln
  rw [this]; fle

/-- Sine and cosine near a known angle. -/
theorem trig_near (x d : ℝ) (hd : |d| ≤ 1 / 10 ^ 15) :
    |Real.sin (x + d) - (Real.sin x + d * Real.cos x)| ≤ 1 / 10 ^ 25 ∧
    |Real.cos (x + d) - (Real.cos x + d * -Real.sin x)| ≤ 1 / 10 ^ 25 := by
  have hd2 : d ^ 2 ≤ 1 / 10 ^ 30 := by
    have := pow_le_pow_left₀ (abs_nonneg d) hd 2
    rw [sq_abs] at this
    refine this.trans (by norm_num)
  have hc : |Real.cos d - 1| ≤ 1 / 10 ^ 30 := by
    have h1 := Real.one_sub_sq_div_two_le_cos (x := d)
    have h2 := Real.cos_le_one d
    rw [abs_le]; constructor <;> linarith
  have hs : |Real.sin d - d| ≤ 1 / 10 ^ 30 := by
    have h1 := Real.sin_bound (x := d) (hd.trans (by norm_num))
    have h3 : |d| ^ 3 ≤ (1 / 10 ^ 15) ^ 3 := pow_le_pow_left₀ (abs_nonneg d) hd 3
    have h5 : |d| ^ 5 ≤ (1 / 10 ^ 15) ^ 5 := pow_le_pow_left₀ (abs_nonneg d) hd 5
    have h4 : |d ^ 3 / 6| ≤ (1 / 10 ^ 15) ^ 3 / 6 := by
      rw [abs_div, abs_pow]
      norm_num at h3 ⊢; linarith
    have h6 := abs_add_le (Real.sin d - (d - d ^ 3 / 6)) (-(d ^ 3 / 6))
    rw [abs_neg, show Real.sin d - (d - d ^ 3 / 6) + -(d ^ 3 / 6) = Real.sin d - d by ring] at h6
    norm_num at h4 h5 ⊢
    linarith
  have b : ∀ p q : ℝ, |p| ≤ 1 → |q| ≤ 1 →
      |p * (Real.cos d - 1) + q * (Real.sin d - d)| ≤ 1 / 10 ^ 25 := by
    intro p q hp hq
    refine (abs_add_le _ _).trans ?_
    rw [abs_mul, abs_mul]
    have h1 : |p| * |Real.cos d - 1| ≤ 1 * (1 / 10 ^ 30) :=
      mul_le_mul hp hc (abs_nonneg _) (by norm_num)
    have h2 : |q| * |Real.sin d - d| ≤ 1 * (1 / 10 ^ 30) :=
      mul_le_mul hq hs (abs_nonneg _) (by norm_num)
    norm_num at h1 h2 ⊢
    linarith
  constructor
  · have := b (Real.sin x) (Real.cos x) (Real.abs_sin_le_one x) (Real.abs_cos_le_one x)
    rwa [show Real.sin x * (Real.cos d - 1) + Real.cos x * (Real.sin d - d)
      = Real.sin (x + d) - (Real.sin x + d * Real.cos x) by rw [Real.sin_add]; ring] at this
  · have := b (Real.cos x) (-Real.sin x) (Real.abs_cos_le_one x)
      (by rw [abs_neg]; exact Real.abs_sin_le_one x)
    rwa [show Real.cos x * (Real.cos d - 1) + -Real.sin x * (Real.sin d - d)
      = Real.cos (x + d) - (Real.cos x + d * -Real.sin x) by rw [Real.cos_add]; ring] at this

/-- The float of `sin x + d cos x` for known bounds. -/
theorem trig_value {fl : ℝ → ℝ} (H : Nearest fl) {m k : ℤ} (h1 : 2 ^ 52 < |m|) (h2 : |m| < 2 ^ 53)
    {y s c d : ℝ} {s0 c0 d0 : ℝ} (hy : |y - (s + d * c)| ≤ 1 / 10 ^ 25)
    (hs : |s - s0| ≤ 1 / 10 ^ 19) (hc : |c - c0| ≤ 1 / 10 ^ 4) (hd : |d - d0| ≤ 1 / 10 ^ 19) (hc1 : |c| ≤ 1)
    (hd1 : |d0| ≤ 1 / 10 ^ 15)
    (h : |s0 + d0 * c0 - F m k| + 4 / 10 ^ 19 < 2 ^ (k - 1)) : fl y = F m k := by
  refine H.of_near h1 h2 (lt_of_le_of_lt ?_ h)
  have e : y - F m k = (y - (s + d * c)) + (s - s0) + (d - d0) * c + d0 * (c - c0)
      + (s0 + d0 * c0 - F m k) := by ring
  have h3 : |(d - d0) * c| ≤ 1 / 10 ^ 19 * 1 := by
    rw [abs_mul]; exact mul_le_mul hd hc1 (abs_nonneg _) (by norm_num)
  have h4 : |d0 * (c - c0)| ≤ 1 / 10 ^ 15 * (1 / 10 ^ 4) := by
    rw [abs_mul]; exact mul_le_mul hd1 hc (abs_nonneg _) (by norm_num)
  rw [e]
  have t1 := abs_add_le ((y - (s + d * c)) + (s - s0) + (d - d0) * c + d0 * (c - c0)) (s0 + d0 * c0 - F m k)
  have t2 := abs_add_le ((y - (s + d * c)) + (s - s0) + (d - d0) * c) (d0 * (c - c0))
  have t3 := abs_add_le ((y - (s + d * c)) + (s - s0)) ((d - d0) * c)
  have t4 := abs_add_le (y - (s + d * c)) (s - s0)
  linarith

theorem near_sqrt_two : |Real.sqrt 2 / 2 - 0.7071067811865475244008| ≤ 1 / 10 ^ 21 := by
  have h := sqrt_near (x := 2) (v := 1.4142135623730950488016) (h := 2 / 10 ^ 21)
    (by norm_num) (by norm_num) (by norm_num) (by norm_num)
  rw [abs_lt] at h
  rw [abs_le]
  norm_num at h ⊢
  constructor <;> linarith

theorem near_cos_eighth : |Real.sqrt (2 + Real.sqrt 2) / 2 - 0.9238795325112867561281| ≤ 1 / 10 ^ 19 := by
  have h2 := near_sqrt_two
  rw [abs_le] at h2
  norm_num at h2
  have h := sqrt_near (x := 2 + Real.sqrt 2) (v := 1.8477590650225735122563) (h := 1 / 10 ^ 19)
    (by norm_num) (by norm_num) (by norm_num; linarith) (by norm_num; linarith)
  rw [abs_lt] at h
  rw [abs_le]
  norm_num at h ⊢
  constructor <;> linarith

theorem near_sin_eighth : |Real.sqrt (2 - Real.sqrt 2) / 2 - 0.3826834323650897717284| ≤ 1 / 10 ^ 19 := by
  have h2 := near_sqrt_two
  rw [abs_le] at h2
  norm_num at h2
  have h := sqrt_near (x := 2 - Real.sqrt 2) (v := 0.7653668647301795434569) (h := 1 / 10 ^ 19)
    (by norm_num) (by norm_num) (by norm_num; linarith) (by norm_num; linarith)
  rw [abs_lt] at h
  rw [abs_le]
  norm_num at h ⊢
  constructor <;> linarith

theorem near_half90 : |F 7074237752028440 (-53) - Real.pi / 4 - (-0.0000000000000000306161699786838)|
    ≤ 1 / 10 ^ 19 := by
  have h1 := Real.pi_gt_d20
  have h2 := Real.pi_lt_d20
  unfold F
  rw [abs_le]
  norm_num at h1 h2 ⊢
  constructor <;> linarith

theorem near_half135 : |F 5305678314021330 (-52) - 3 * Real.pi / 8 - (-0.0000000000000000459242549680257)|
    ≤ 1 / 10 ^ 19 := by
  have h1 := Real.pi_gt_d20
  have h2 := Real.pi_lt_d20
  unfold F
  rw [abs_le]
  norm_num at h1 h2 ⊢
  constructor <;> linarith

theorem small_of_near {d d0 : ℝ} (h : |d - d0| ≤ 1 / 10 ^ 19) (h0 : |d0| ≤ 1 / 10 ^ 16) :
    |d| ≤ 1 / 10 ^ 15 := by
  have := abs_add_le (d - d0) d0
  rw [sub_add_cancel] at this
  norm_num at *
  linarith

theorem trig90 {fl : ℝ → ℝ} (H : Nearest fl) :
    fl (Real.sin (F 7074237752028440 (-53))) = F 6369051672525772 (-53) ∧
    fl (Real.cos (F 7074237752028440 (-53))) = F 6369051672525773 (-53) := by
  obtain ⟨t1, t2⟩ := trig_near (Real.pi / 4) (F 7074237752028440 (-53) - Real.pi / 4)
    (small_of_near near_half90 (by norm_num [abs_le]))
  rw [add_sub_cancel, Real.sin_pi_div_four, Real.cos_pi_div_four] at t1 t2
  have hs : |Real.sqrt 2 / 2| ≤ 1 := by
    rw [← Real.sin_pi_div_four]; exact Real.abs_sin_le_one _
  have hn := near_sqrt_two.trans (show (1 : ℝ) / 10 ^ 21 ≤ 1 / 10 ^ 19 by norm_num)
  have hn4 := near_sqrt_two.trans (show (1 : ℝ) / 10 ^ 21 ≤ 1 / 10 ^ 4 by norm_num)
  constructor
  · refine trig_value H (by norm_num) (by norm_num) t1 hn hn4 near_half90 hs (by norm_num [abs_le]) ?_
    rw [← lt_sub_iff_add_lt, abs_lt]
    norm_num [F]
  · refine trig_value H (c0 := -0.7071067811865475244008) (by norm_num) (by norm_num) t2 hn ?_ near_half90 (by rwa [abs_neg])
      (by norm_num [abs_le]) ?_
    · rw [← neg_add', abs_neg]; exact hn4
    rw [← lt_sub_iff_add_lt, abs_lt]
    norm_num [F]

theorem trig135 {fl : ℝ → ℝ} (H : Nearest fl) :
    fl (Real.sin (F 5305678314021330 (-52))) = F 8321567036706118 (-53) ∧
    fl (Real.cos (F 5305678314021330 (-52))) = F 6893811853601124 (-54) := by
  have e1 : Real.sin (3 * Real.pi / 8) = Real.sqrt (2 + Real.sqrt 2) / 2 := by
    rw [show 3 * Real.pi / 8 = Real.pi / 2 - Real.pi / 8 by ring, Real.sin_pi_div_two_sub,
      Real.cos_pi_div_eight]
  have e2 : Real.cos (3 * Real.pi / 8) = Real.sqrt (2 - Real.sqrt 2) / 2 := by
    rw [show 3 * Real.pi / 8 = Real.pi / 2 - Real.pi / 8 by ring, Real.cos_pi_div_two_sub,
      Real.sin_pi_div_eight]
  obtain ⟨t1, t2⟩ := trig_near (3 * Real.pi / 8) (F 5305678314021330 (-52) - 3 * Real.pi / 8)
    (small_of_near near_half135 (by norm_num [abs_le]))
  have hs := Real.abs_sin_le_one (3 * Real.pi / 8)
  have hc := Real.abs_cos_le_one (3 * Real.pi / 8)
  rw [add_sub_cancel] at t1 t2
  rw [e1] at t1 t2 hs
  rw [e2] at t1 t2 hc
  have w : (1 : ℝ) / 10 ^ 19 ≤ 1 / 10 ^ 4 := by norm_num
  constructor
  · refine trig_value H (by norm_num) (by norm_num) t1 near_cos_eighth (near_sin_eighth.trans w)
      near_half135 hc (by norm_num [abs_le]) ?_
    rw [← lt_sub_iff_add_lt, abs_lt]
    norm_num [F]
  · refine trig_value H (c0 := -0.9238795325112867561281) (by norm_num) (by norm_num) t2 near_sin_eighth ?_
      near_half135 (by rwa [abs_neg]) (by norm_num [abs_le]) ?_
    · rw [← neg_add', abs_neg]; exact near_cos_eighth.trans w
    rw [← lt_sub_iff_add_lt, abs_lt]
    norm_num [F]

theorem trig0 {fl : ℝ → ℝ} (H : Nearest fl) :
    fl (Real.sin (fl (radians fl 0 / 2))) = 0 ∧ fl (Real.cos (fl (radians fl 0 / 2))) = 1 := by
  have h : fl (radians fl 0 / 2) = 0 := by
    unfold radians; rw [zero_mul, H.zero, zero_div, H.zero]
  rw [h, Real.sin_zero, Real.cos_zero]
  exact ⟨H.zero, H.one⟩

/-! ## Sums of natural numbers are exact -/

theorem Dot.exact {fl : ℝ → ℝ} (H : Nearest fl) {l : List (ℝ × ℝ)} {s : ℝ} (h : Dot fl l s)
    (hl : ∀ p ∈ l, ∃ n : ℕ, p.1 * p.2 = n) (hb : exactDot l < 2 ^ 53) :
    (∃ n : ℕ, exactDot l = n) ∧ s = exactDot l := by
  have key : ∀ x : ℝ, (∃ n : ℕ, x = n) → x < 2 ^ 53 → fl x = x := by
    rintro x ⟨n, rfl⟩ hx
    have hn : n < 2 ^ 53 := by exact_mod_cast hx
    exact H.eq_self ⟨n, 0, by rw [Nat.abs_cast]; exact_mod_cast hn, by simp⟩
  have hnn : ∀ l : List (ℝ × ℝ), (∀ p ∈ l, ∃ n : ℕ, p.1 * p.2 = n) → 0 ≤ exactDot l := by
    intro l hl
    refine exactDot_nonneg fun p hp => ?_
    obtain ⟨n, hn⟩ := hl p hp
    rw [hn]; positivity
  induction h with
  | nil => exact ⟨⟨0, by simp [exactDot]⟩, by simp [exactDot]⟩
  | mul x y =>
    obtain ⟨n, hn⟩ := hl (x, y) (by simp)
    have e : exactDot [(x, y)] = x * y := by simp [exactDot]
    rw [e] at hb ⊢
    exact ⟨⟨n, hn⟩, key _ ⟨n, hn⟩ hb⟩
  | @fma l s x y h ih =>
    have hl' : ∀ p ∈ l, ∃ n : ℕ, p.1 * p.2 = n := fun p hp => hl p (List.mem_cons_of_mem _ hp)
    obtain ⟨n, hn⟩ := hl (x, y) (by simp)
    have e : exactDot ((x, y) :: l) = x * y + exactDot l := by simp [exactDot]
    dsimp only at hn
    rw [e] at hb ⊢
    have h0 : 0 ≤ x * y := by rw [hn]; positivity
    obtain ⟨⟨m, hm⟩, hs⟩ := ih hl' (by linarith)
    have hk : ∃ k : ℕ, x * y + exactDot l = k := ⟨n + m, by rw [hn, hm]; push_cast; rfl⟩
    exact ⟨hk, by rw [hs]; exact key _ hk hb⟩
  | @add l l' s s' h h' ih ih' =>
    have hl1 : ∀ p ∈ l, ∃ n : ℕ, p.1 * p.2 = n := fun p hp => hl p (List.mem_append_left _ hp)
    have hl2 : ∀ p ∈ l', ∃ n : ℕ, p.1 * p.2 = n := fun p hp => hl p (List.mem_append_right _ hp)
    have e : exactDot (l ++ l') = exactDot l + exactDot l' := by simp [exactDot]
    have n1 := hnn _ hl1
    have n2 := hnn _ hl2
    rw [e] at hb ⊢
    obtain ⟨⟨m, hm⟩, hs⟩ := ih hl1 (by linarith)
    obtain ⟨⟨m', hm'⟩, hs'⟩ := ih' hl2 (by linarith)
    have hk : ∃ k : ℕ, exactDot l + exactDot l' = k := ⟨m + m', by rw [hm, hm']; push_cast; rfl⟩
    exact ⟨hk, by rw [hs, hs']; exact key _ hk hb⟩
  | @perm l l' s p h ih =>
    have e : exactDot l = exactDot l' := (p.map _).sum_eq
    rw [← e] at hb ⊢
    exact ih (fun q hq => hl q (p.mem_iff.1 hq)) hb

theorem dot_exists (fl : ℝ → ℝ) (l : List (ℝ × ℝ)) : ∃ s, Dot fl l s := by
  induction l with
  | nil => exact ⟨0, .nil⟩
  | cons p l ih => obtain ⟨s, h⟩ := ih; exact ⟨_, .fma p.1 p.2 h⟩

/-- The computed norm of a coordinate axis is 1. -/
theorem norm_axis {fl : ℝ → ℝ} (H : Nearest fl) {n : ℕ} {q : Fin n → ℝ} {j : Fin n}
    (hq : q = Pi.single j 1) {N : ℝ} : Norm fl q N ↔ N = 1 := by
  have e : exactDot (List.ofFn fun i => (q i, q i)) = 1 := by
    unfold exactDot
    rw [List.map_ofFn, List.sum_ofFn, hq]
    simp [Pi.single_apply]
  have hall : ∀ p ∈ (List.ofFn fun i => (q i, q i)), ∃ n : ℕ, p.1 * p.2 = n := by
    intro p hp
    obtain ⟨i, rfl⟩ := (List.mem_ofFn' _ _).1 hp
    by_cases h : i = j
    · exact ⟨1, by rw [hq, h]; simp⟩
    · exact ⟨0, by rw [hq]; simp [h]⟩
  have key : ∀ s, Dot fl (List.ofFn fun i => (q i, q i)) s → s = 1 := fun s hs => by
    rw [(Dot.exact H hs hall (by rw [e]; norm_num)).2, e]
  constructor
  · rintro ⟨s, hs, rfl⟩
    rw [key s hs, Real.sqrt_one, H.one]
  · rintro rfl
    obtain ⟨s, hs⟩ := dot_exists fl (List.ofFn fun i => (q i, q i))
    exact ⟨s, hs, by rw [key s hs, Real.sqrt_one, H.one]⟩

theorem axisMap_single {c : Char} {x : V3} (h : Sim.axisMap c = .ok x) : ∃ j, x = Pi.single j 1 := by
  unfold Sim.axisMap at h
  split_ifs at h
  · exact ⟨0, by injection h with h; rw [← h]; ext i; fin_cases i <;> simp⟩
  · exact ⟨1, by injection h with h; rw [← h]; ext i; fin_cases i <;> simp⟩
  · exact ⟨2, by injection h with h; rw [← h]; ext i; fin_cases i <;> simp⟩

theorem simNormalize_axis {fl : ℝ → ℝ} (H : Nearest fl) {r : V4} :
    SimNormalize fl ![0, 0, 0, 1] r ↔ r = ![0, 0, 0, 1] := by
  have e : (![0, 0, 0, 1] : V4) = Pi.single 3 1 := by ext i; fin_cases i <;> simp
  have h1 : ∀ i, fl ((![0, 0, 0, 1] : V4) i / 1) = (![0, 0, 0, 1] : V4) i := by
    intro i
    rw [div_one]
    fin_cases i
    · exact H.zero
    · exact H.zero
    · exact H.zero
    · exact H.one
  constructor
  · rintro ⟨N, hN, -, hr⟩
    obtain rfl := (norm_axis H e).1 hN
    funext i
    rw [hr, h1]
  · rintro rfl
    exact ⟨1, (norm_axis H e).2 rfl, one_ne_zero, fun i => (h1 i).symm⟩

theorem axisAngle_zero {fl : ℝ → ℝ} (H : Nearest fl) {c : Char} {x : V3} (hx : Sim.axisMap c = .ok x)
    {r : V4} : AxisAngle fl x 0 r ↔ r = ![0, 0, 0, 1] := by
  obtain ⟨j, hj⟩ := axisMap_single hx
  obtain ⟨t1, t2⟩ := trig0 H
  have e : ∀ N : ℝ, (![fl (fl (x 0 / N) * 0), fl (fl (x 1 / N) * 0), fl (fl (x 2 / N) * 0), 1] : V4)
      = ![0, 0, 0, 1] := by intro N; simp only [mul_zero, H.zero]
  unfold AxisAngle
  rw [t1, t2]
  simp only [e, simNormalize_axis H]
  exact ⟨fun ⟨_, _, _, h⟩ => h, fun h => ⟨1, (norm_axis H hj).2 rfl, one_ne_zero, h⟩⟩

theorem quatMult_one {fl : ℝ → ℝ} (H : Nearest fl) {r : V4} :
    QuatMult fl ![0, 0, 0, 1] ![0, 0, 0, 1] r ↔ r = ![0, 0, 0, 1] := by
  have e : Fl.rawMult fl ![0, 0, 0, 1] ![0, 0, 0, 1] = ![0, 0, 0, 1] := by
    funext i
    fin_cases i <;> simp [Fl.rawMult, H.zero, H.one]
  unfold QuatMult
  simp only [simNormalize_axis H]
  constructor
  · rintro ⟨a, b, rfl, rfl, h⟩
    rwa [e, simNormalize_axis H] at h
  · intro h
    exact ⟨_, _, rfl, rfl, by rwa [e, simNormalize_axis H]⟩

/-! ## C171 -/

/-- What the callers rely on: three angles and three axes are accepted. -/
def C171_claim : Prop :=
  ∀ fl : ℝ → ℝ, Nearest fl → ∀ a1 a2 a3 : ℝ, IsFloat a1 → IsFloat a2 → IsFloat a3 → ∀ c1 c2 c3 : Char,
    ∀ r, RotationSequence fl a1 a2 a3 c1 c2 c3 r → ∃ q, r = .ok q

/-- C171: the three angles zero are accepted for every three axes, whatever the order of summation and
the rounding of ties, and give the identity. -/
theorem C171_zero {fl : ℝ → ℝ} (H : Nearest fl) {c1 c2 c3 : Char} (h1 : c1 = 'x' ∨ c1 = 'y' ∨ c1 = 'z')
    (h2 : c2 = 'x' ∨ c2 = 'y' ∨ c2 = 'z') (h3 : c3 = 'x' ∨ c3 = 'y' ∨ c3 = 'z') (r : Py V4) :
    RotationSequence fl 0 0 0 c1 c2 c3 r ↔ r = .ok ![0, 0, 0, 1] := by
  have ax : ∀ c : Char, c = 'x' ∨ c = 'y' ∨ c = 'z' → ∃ x, Sim.axisMap c = .ok x := by
    rintro c (rfl | rfl | rfl)
    · exact ⟨![1, 0, 0], by simp [Sim.axisMap]⟩
    · exact ⟨![0, 1, 0], by simp [Sim.axisMap]⟩
    · exact ⟨![0, 0, 1], by simp [Sim.axisMap]⟩
  have hN : ∀ N : ℝ, Norm fl (![0, 0, 0, 1] : V4) N ↔ N = 1 := fun N =>
    norm_axis H (j := 3) (by ext i; fin_cases i <;> simp)
  constructor
  · rintro ⟨x1, x2, x3, q1, q2, q3, t, t', e1, e2, e3, g1, g2, g3, m1, m2, a, N, n1, n2, rfl⟩
    rw [axisAngle_zero H e1] at g1
    rw [axisAngle_zero H e2] at g2
    rw [axisAngle_zero H e3] at g3
    subst g1 g2 g3
    rw [quatMult_one H] at m1
    subst m1
    rw [quatMult_one H] at m2
    subst m2
    rw [simNormalize_axis H] at n1
    subst n1
    rw [(hN N).1 n2, if_pos rfl]
  · rintro rfl
    obtain ⟨x1, e1⟩ := ax c1 h1
    obtain ⟨x2, e2⟩ := ax c2 h2
    obtain ⟨x3, e3⟩ := ax c3 h3
    exact ⟨x1, x2, x3, _, _, _, _, _, e1, e2, e3, (axisAngle_zero H e1).2 rfl, (axisAngle_zero H e2).2 rfl,
      (axisAngle_zero H e3).2 rfl, (quatMult_one H).2 rfl, (quatMult_one H).2 rfl, _, 1,
      (simNormalize_axis H).2 rfl, (hN 1).2 rfl, (if_pos rfl).symm⟩

/-- C171: what the function computes for any angles is a unit quaternion up to rounding, and the norm
that the assertion compares with 1 is off by at most `9 / 2 ^ 53`. Missing for the claim: an exact 1. -/
theorem C171_norm_partial {fl : ℝ → ℝ} (H : Nearest fl) {a1 a2 a3 : ℝ} {c1 c2 c3 : Char} {r : Py V4}
    (h : RotationSequence fl a1 a2 a3 c1 c2 c3 r) :
    ∃ (q : V4) (N : ℝ), Norm fl q N ∧ (∀ i, |q i| ≤ 1) ∧ |Real.sqrt (∑ i, q i ^ 2) - 1| ≤ 5 / 2 ^ 53 ∧
      |N - 1| ≤ 9 / 2 ^ 53 ∧ (N = 1 → r = .ok q) ∧ (N ≠ 1 → r = .error .assertion) := by
  obtain ⟨x1, x2, x3, q1, q2, q3, t, t', -, -, -, -, -, -, -, m2, a, N, n1, n2, rfl⟩ := h
  obtain ⟨p, q, -, -, M, -, -, ht⟩ := m2
  have hf : ∀ i, IsFloat (t' i) := fun i => by rw [ht i]; exact H.rep _
  have hu := C167_sim H hf n1
  exact ⟨a, N, n2, hu.component, hu.length, C167_norm_partial H hf n1 n2, fun h => if_pos h, fun h => if_neg h⟩

/-- The case `[90, 0, 135]` about `x`, `y`, `z`: the products of a dot product fused into the sum
from left to right. -/
theorem sequence_90_0_135 {fl : ℝ → ℝ} (H : Nearest fl) :
    RotationSequence fl 90 0 135 'x' 'y' 'z' (.error .assertion) := by
  have n1 : ∀ (q : V3) (j : Fin 3), q = Pi.single j 1 → Norm fl q 1 := fun q j h => (norm_axis H h).2 rfl
  have f1 : (1 : ℝ) = F 4503599627370496 (-52) := by norm_num [F]
  obtain ⟨s1, k1⟩ := trig90 H
  obtain ⟨s2, k2⟩ := trig0 H
  obtain ⟨s3, k3⟩ := trig135 H
  have g1 : AxisAngle fl ![1, 0, 0] 90 ![F 6369051672525772 (-53), 0, 0, F 6369051672525773 (-53)] := by
    refine ⟨1, n1 _ 0 (by ext i; fin_cases i <;> simp), one_ne_zero, ?_⟩
    rw [float_half90 H, s1, k1]
    have : fl (F 6369051672525772 (-53)) = F 6369051672525772 (-53) := by fle
    simpa [H.zero, H.one, this] using seq_nz1 H
  have g2 : AxisAngle fl ![0, 1, 0] 0 ![0, 0, 0, F 4503599627370496 (-52)] := by
    rw [← f1]
    exact (axisAngle_zero H (c := 'y') (by simp [Sim.axisMap])).2 rfl
  have g3 : AxisAngle fl ![0, 0, 1] 135 ![0, 0, F 8321567036706118 (-53), F 6893811853601124 (-54)] := by
    refine ⟨1, n1 _ 2 (by ext i; fin_cases i <;> simp), one_ne_zero, ?_⟩
    rw [float_half135 H, s3, k3]
    have : fl (F 8321567036706118 (-53)) = F 8321567036706118 (-53) := by fle
    simpa [H.zero, H.one, this] using seq_nz3 H
  refine ⟨_, _, _, _, _, _, _, _, by simp [Sim.axisMap], by simp [Sim.axisMap], by simp [Sim.axisMap],
    g1, g2, g3, ⟨_, _, seq_nz3 H, seq_nz2 H, ?_⟩, ⟨_, _, seq_nz3 H, seq_nz1 H, ?_⟩, _, _, seq_nz7 H, seq_norm H, ?_⟩
  · rw [seq_raw4 H]; exact seq_nz3 H
  · rw [seq_raw5 H]; exact seq_nz6 H
  · rw [if_neg]; norm_num [F]

/-- C171: the claim is false: 90 degrees about x, then 135 degrees about z, is refused. -/
theorem C171_accept_fails : ¬ C171_claim := by
  intro h
  have f : ∀ n : ℕ, n < 2 ^ 53 → IsFloat n := fun n hn =>
    ⟨n, 0, by rw [Nat.abs_cast]; exact_mod_cast hn, by simp⟩
  obtain ⟨q, hq⟩ := h rn rn_nearest 90 0 135 (by exact_mod_cast f 90 (by norm_num)) isFloat_zero
    (by exact_mod_cast f 135 (by norm_num)) 'x' 'y' 'z' _ (sequence_90_0_135 rn_nearest)
  cases hq

/-- A case of C171: zero angles about `z`, `y`, `z` with the rounding `rn`. -/
example : RotationSequence rn 0 0 0 'z' 'y' 'z' (.ok ![0, 0, 0, 1]) :=
  (C171_zero rn_nearest (by simp) (by simp) (by simp) _).2 rfl

end Adcs
