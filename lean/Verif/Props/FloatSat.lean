import Verif.Proofs.Float
import Verif.Proofs.Basic

set_option autoImplicit false

/-! # C168: saturation with rounding -/

namespace Adcs

open Fl

/-- A number at most one rounding above a float is rounded at most to the next float. -/
theorem Fl.Nearest.le_next {fl : ℝ → ℝ} (H : Nearest fl) {L z : ℝ} (hL : IsFloat L) (h0 : 0 < L)
    (h : |z| ≤ (1 + ulp) * L) : |fl z| ≤ (1 + 2 * ulp) * L := by
  obtain ⟨e, h1, h2⟩ := exists_binade h0.ne'
  obtain ⟨k, hk⟩ := hL.grid h1
  rw [abs_of_pos h0] at h1 h2
  set p : ℝ := 2 ^ (e - 52) with hp
  have hp0 : 0 < p := by positivity
  have he : (2 : ℝ) ^ e = 2 ^ 52 * p := by
    rw [hp, ← zpow_natCast, ← zpow_add₀ (by norm_num)]; congr 1; push_cast; ring
  have he1 : (2 : ℝ) ^ (e + 1) = 2 ^ 53 * p := by
    rw [zpow_add₀ (by norm_num), he]; norm_num; ring
  have hu : ulp * 2 ^ 53 = 1 := by norm_num [ulp]
  have hnext : L + p ≤ (1 + 2 * ulp) * L := by
    have : p = 2 * ulp * 2 ^ e := by rw [he]; linear_combination (-p) * hu
    have h3 : 2 * ulp * 2 ^ e ≤ 2 * ulp * L := mul_le_mul_of_nonneg_left h1 (by linarith [ulp_pos])
    linarith
  have hz : |z| ≤ L + p := by
    have h3 : ulp * L ≤ ulp * (2 ^ 53 * p) := mul_le_mul_of_nonneg_left (by linarith) ulp_pos.le
    have h4 : ulp * (2 ^ 53 * p) = p := by rw [← mul_assoc, hu, one_mul]
    linarith
  have hf : IsFloat (L + p) := by
    have hkb : k < 2 ^ 53 := by
      have : (k : ℝ) < 2 ^ 53 := by
        by_contra hc
        push Not at hc
        have := mul_le_mul_of_nonneg_right hc hp0.le
        rw [← hk, ← he1] at this
        linarith
      exact_mod_cast this
    have hk0 : 0 < k := by
      have : (0 : ℝ) < k := by
        by_contra hc
        push Not at hc
        have := mul_le_mul_of_nonneg_right hc hp0.le
        rw [← hk] at this
        linarith
      exact_mod_cast this
    have : L + p = ((k + 1 : ℤ) : ℝ) * 2 ^ (e - 52) := by rw [hk]; push_cast; ring
    rw [this]
    apply isFloat_of_le
    rw [abs_of_pos (by omega)]
    omega
  refine le_trans ?_ hnext
  rw [abs_le] at hz ⊢
  exact ⟨H.float_le hf.neg hz.1, H.le_float hf hz.2⟩

/-- What a user of `saturation` relies on: no component beyond the limit. -/
def C168_claim : Prop :=
  ∀ fl : ℝ → ℝ, Nearest fl → ∀ (n : ℕ) (x y : Fin n → ℝ) (L : ℝ), IsFloat L → 0 < L →
    (∀ i, IsFloat (x i)) → saturation fl x L = .ok y → ∀ i, |y i| ≤ L

/-- The cases of a call. -/
theorem saturation_cases {fl : ℝ → ℝ} {n : ℕ} {x y : Fin n → ℝ} {L : ℝ}
    (h : saturation fl x L = .ok y) :
    ((∀ i, |x i| ≤ L) ∧ y = x) ∨
    ∃ m, L < m ∧ (∀ i, |x i| ≤ m) ∧ (∃ i, |x i| = m) ∧ ∀ i, y i = fl (fl (L * x i) / m) := by
  unfold saturation npMaxAbs at h
  split_ifs at h with hn
  · dsimp only at h
    have hmax : ∀ i, |x i| ≤ Finset.univ.sup' hn fun i => |x i| := fun i =>
      Finset.le_sup' (fun i => |x i|) (Finset.mem_univ i)
    obtain ⟨j, -, hj⟩ := Finset.exists_mem_eq_sup' hn fun i => |x i|
    set m := Finset.univ.sup' hn fun i => |x i|
    split_ifs at h with h1 h2
    · right
      exact ⟨m, h1, hmax, ⟨j, hj.symm⟩, fun i => by rw [← Except.ok.inj h]⟩
    · left
      exact ⟨fun i => (hmax i).trans (not_lt.1 h1), (Except.ok.inj h).symm⟩

/-- C168: a vector within the limit is returned unchanged. -/
theorem C168_unchanged {fl : ℝ → ℝ} {n : ℕ} {x y : Fin n → ℝ} {L : ℝ}
    (h : saturation fl x L = .ok y) (hx : ∀ i, |x i| ≤ L) : y = x := by
  rcases saturation_cases h with ⟨-, h⟩ | ⟨m, hm, -, ⟨i, hi⟩, -⟩
  · exact h
  · exact absurd (hx i) (by rw [hi]; exact not_le.2 hm)

/-- C168 (partial): the limit is kept up to the next float, that is up to a factor `1 + 2 ^ -52`, and each
component is the one of exact arithmetic up to `3 / 2 ^ 53` of its size. -/
theorem C168_limit_partial {fl : ℝ → ℝ} (H : Nearest fl) {n : ℕ} {x y : Fin n → ℝ} {L : ℝ}
    (hL : IsFloat L) (h0 : 0 < L) (h : saturation fl x L = .ok y) :
    (∀ i, |y i| ≤ (1 + 1 / 2 ^ 52) * L) ∧
    ∃ c, 0 < c ∧ c ≤ 1 ∧ ∀ i, |c * x i| ≤ L ∧ |y i - c * x i| ≤ 3 / 2 ^ 53 * |c * x i| := by
  have u0 := ulp_pos
  have e2 : 1 + 2 * ulp = 1 + 1 / 2 ^ 52 := by norm_num [ulp]
  have e3 : (3 : ℝ) / 2 ^ 53 = 3 * ulp := by norm_num [ulp]
  rcases saturation_cases h with ⟨hx, rfl⟩ | ⟨m, hm, hmax, -, hy⟩
  · refine ⟨fun i => (hx i).trans ?_, 1, one_pos, le_rfl, fun i => ?_⟩
    · rw [← e2]; nlinarith
    · rw [one_mul, sub_self, abs_zero]
      exact ⟨hx i, by positivity⟩
  · have hm0 : 0 < m := h0.trans hm
    have key : ∀ i, |fl (L * x i) - L * x i| ≤ ulp * (L * |x i|) := by
      intro i
      have := H.err (L * x i)
      rwa [abs_mul, abs_of_pos h0] at this
    have hq : ∀ i, |fl (L * x i) / m - L * x i / m| ≤ ulp * (L * |x i| / m) := by
      intro i
      rw [← sub_div, abs_div, abs_of_pos hm0, ← mul_div_assoc]
      exact div_le_div_of_nonneg_right (key i) hm0.le
    have hle : ∀ i, L * |x i| / m ≤ L := by
      intro i
      rw [div_le_iff₀ hm0]
      exact mul_le_mul_of_nonneg_left (hmax i) h0.le
    have habs : ∀ i, |L * x i / m| = L * |x i| / m := by
      intro i; rw [abs_div, abs_mul, abs_of_pos h0, abs_of_pos hm0]
    have hqa : ∀ i, |fl (L * x i) / m| ≤ (1 + ulp) * (L * |x i| / m) := by
      intro i
      have := abs_sub_abs_le_abs_sub (fl (L * x i) / m) (L * x i / m)
      rw [habs i] at this
      linarith [hq i]
    refine ⟨fun i => ?_, L / m, by positivity, (div_le_one hm0).2 hm.le, fun i => ?_⟩
    · rw [hy i, ← e2]
      apply H.le_next hL h0
      exact (hqa i).trans (mul_le_mul_of_nonneg_left (hle i) (by linarith))
    · have ec : L / m * x i = L * x i / m := by ring
      rw [ec, habs i, hy i, e3]
      refine ⟨hle i, ?_⟩
      have h1 := H.err (fl (L * x i) / m)
      have h2 := abs_add_le (fl (fl (L * x i) / m) - fl (L * x i) / m)
        (fl (L * x i) / m - L * x i / m)
      rw [sub_add_sub_cancel] at h2
      have h3 : ulp * |fl (L * x i) / m| ≤ ulp * (2 * (L * |x i| / m)) := by
        apply mul_le_mul_of_nonneg_left _ u0.le
        refine (hqa i).trans (mul_le_mul_of_nonneg_right (by linarith [ulp_small]) ?_)
        have := abs_nonneg (x i); positivity
      linarith [hq i]

/-- With the torque limit 0.0005 of the examples, the command 0.007669 is reduced to the float after
the limit. -/
theorem saturation_over {fl : ℝ → ℝ} (H : Nearest fl) :
    saturation fl ![fl 0.007669] (fl 0.0005)
      = .ok ![(4611686018427389 : ℤ) * (2 : ℝ) ^ (-63 : ℤ)] ∧
    fl 0.0005 = (4611686018427388 : ℤ) * (2 : ℝ) ^ (-63 : ℤ) := by
  have eL : fl 0.0005 = (4611686018427388 : ℤ) * (2 : ℝ) ^ (-63 : ℤ) :=
    H.eq_of_near (by norm_num) (by norm_num) (by norm_num [abs_lt])
  have em : fl 0.007669 = (8841755018829909 : ℤ) * (2 : ℝ) ^ (-60 : ℤ) :=
    H.eq_of_near (by norm_num) (by norm_num) (by norm_num [abs_lt])
  have ep : fl (((4611686018427388 : ℤ) * (2 : ℝ) ^ (-63 : ℤ)) *
      ((8841755018829909 : ℤ) * (2 : ℝ) ^ (-60 : ℤ))) = (4526978569640914 : ℤ) * (2 : ℝ) ^ (-70 : ℤ) :=
    H.eq_of_near (by norm_num) (by norm_num) (by norm_num [abs_lt])
  have eq : fl (((4526978569640914 : ℤ) * (2 : ℝ) ^ (-70 : ℤ)) /
      ((8841755018829909 : ℤ) * (2 : ℝ) ^ (-60 : ℤ))) = (4611686018427389 : ℤ) * (2 : ℝ) ^ (-63 : ℤ) :=
    H.eq_of_near (by norm_num) (by norm_num) (by norm_num [abs_lt])
  refine ⟨?_, eL⟩
  have hmax : npMaxAbs ![fl 0.007669] = .ok ((8841755018829909 : ℤ) * (2 : ℝ) ^ (-60 : ℤ)) := by
    rw [em]
    unfold npMaxAbs
    rw [dif_pos ⟨0, Finset.mem_univ _⟩]
    congr 1
    have hab : |((8841755018829909 : ℤ) : ℝ) * (2 : ℝ) ^ (-60 : ℤ)|
        = (8841755018829909 : ℤ) * (2 : ℝ) ^ (-60 : ℤ) := abs_of_pos (by positivity)
    apply le_antisymm
    · apply Finset.sup'_le
      intro i _
      fin_cases i
      exact hab.le
    · refine hab.symm.le.trans ?_
      exact Finset.le_sup' (fun i => |(![((8841755018829909 : ℤ) : ℝ) * (2 : ℝ) ^ (-60 : ℤ)]
        : Fin 1 → ℝ) i|) (Finset.mem_univ 0)
  unfold saturation
  rw [hmax]
  dsimp only
  rw [if_pos (by rw [eL]; norm_num), if_neg (by norm_num)]
  congr 1
  funext i
  fin_cases i
  change fl (fl (fl 0.0005 * fl 0.007669) / _) = _
  rw [eL, em, ep, eq]
  rfl

/-- C168: the claim is false. -/
theorem C168_limit_fails : ¬ C168_claim := by
  intro h
  obtain ⟨h1, h2⟩ := saturation_over rn_nearest
  have := h rn rn_nearest 1 _ _ _ (rn_nearest.rep _) (by rw [h2]; positivity)
    (fun i => by fin_cases i; exact rn_nearest.rep _) h1 0
  rw [h2] at this
  change |((4611686018427389 : ℤ) : ℝ) * (2 : ℝ) ^ (-63 : ℤ)| ≤ _ at this
  norm_num at this

/-- The hypotheses of `C168_limit_partial`, with a vector that is cut. -/
example : ∃ fl y, Nearest fl ∧ 0 < fl 0.0005 ∧ saturation fl ![fl 0.007669] (fl 0.0005) = .ok y := by
  obtain ⟨h1, h2⟩ := saturation_over rn_nearest
  exact ⟨rn, _, rn_nearest, by rw [h2]; positivity, h1⟩

end Adcs
