import Verif.Proofs.Slew

set_option autoImplicit false

/-! # Turns about one axis that swing about the attitude opposite to the command -/

namespace Adcs

open Quat Vec
open scoped Matrix

theorem PlaneFlow.small {alpha gamma T : ℝ} {x a b : ℝ → ℝ} (h : PlaneFlow alpha gamma x a b T) {t : ℝ}
    (ht : t ∈ Set.Icc 0 T) : |x t| ≤ 1 ∧ |a t| ≤ 1 := by
  have := h.unit t ht
  constructor
  · rw [← sq_le_one_iff_abs_le_one]; nlinarith [sq_nonneg (a t)]
  · rw [← sq_le_one_iff_abs_le_one]; nlinarith [sq_nonneg (x t)]

theorem PlaneFlow.energy {alpha gamma T : ℝ} {x a b : ℝ → ℝ} (h : PlaneFlow alpha gamma x a b T) {t : ℝ}
    (ht : t ∈ Set.Ico 0 T) : HasDerivAt (fun t => b t ^ 2 / 2 - 2 * alpha * x t) (-gamma * b t ^ 2) t := by
  refine (((h.derivB t ht).fun_pow 2).div_const 2 |>.fun_sub ((h.derivX t ht).const_mul (2 * alpha))).congr_deriv ?_
  simp only [Nat.cast_ofNat, Nat.add_one_sub_one, pow_one]
  ring

theorem PlaneFlow.energyCont {alpha gamma T : ℝ} {x a b : ℝ → ℝ} (h : PlaneFlow alpha gamma x a b T) :
    ContinuousOn (fun t => b t ^ 2 / 2 - 2 * alpha * x t) (Set.Icc 0 T) :=
  ((h.contB.pow 2).div_const 2).sub (continuousOn_const.mul h.contX)

/-- The energy does not grow. -/
theorem PlaneFlow.below {alpha gamma T : ℝ} (hg : 0 ≤ gamma) {x a b : ℝ → ℝ} (h : PlaneFlow alpha gamma x a b T)
    {t : ℝ} (ht : t ∈ Set.Icc 0 T) : b t ^ 2 / 2 - 2 * alpha * x t ≤ b 0 ^ 2 / 2 - 2 * alpha * x 0 := by
  have := anti_flow h.energyCont (fun t ht => ⟨_, h.energy ⟨ht.1.le, ht.2⟩, by nlinarith [sq_nonneg (b t)]⟩)
    ⟨le_rfl, ht.1.trans ht.2⟩ ht ht.1
  exact this

/-- It is lost slowly as long as the turn is on the far side. -/
theorem PlaneFlow.above {alpha gamma T : ℝ} (ha : 0 < alpha) (hg : 0 ≤ gamma) {x a b : ℝ → ℝ}
    (h : PlaneFlow alpha gamma x a b T) (hx : ∀ t ∈ Set.Icc 0 T, x t ≤ 0) {t : ℝ} (ht : t ∈ Set.Icc 0 T) :
    Real.exp (-(2 * gamma) * t) * (b 0 ^ 2 / 2 - 2 * alpha * x 0) ≤ b t ^ 2 / 2 - 2 * alpha * x t := by
  refine lower_flow (f := fun t => b t ^ 2 / 2 - 2 * alpha * x t) (k := 2 * gamma) h.energyCont (fun t ht => ?_) ht
  refine ⟨_, h.energy ⟨ht.1.le, ht.2⟩, ?_⟩
  have h1 := hx t ⟨ht.1.le, ht.2.le⟩
  have h2 : 0 ≤ gamma * (alpha * -x t) := mul_nonneg hg (mul_nonneg ha.le (by linarith))
  nlinarith

theorem bend_le {alpha gamma x a b B : ℝ} (ha : 0 < alpha) (hg : 0 ≤ gamma) (hx : |x| ≤ 1) (haa : |a| ≤ 1)
    (hB : |b| ≤ B) :
    -0.5 * (0.5 * (x * b) * b + a * (-alpha * a - gamma * b)) ≤ (B ^ 2 / 2 + alpha + gamma * B) / 2 := by
  have hB0 : 0 ≤ B := (abs_nonneg b).trans hB
  have hb2 : b ^ 2 ≤ B ^ 2 := by rw [← sq_abs b]; gcongr
  have hx' := abs_le.1 hx
  have h1 : -(x * b ^ 2) ≤ B ^ 2 := by nlinarith [sq_nonneg b]
  have h2 : alpha * a ^ 2 ≤ alpha := by
    have : a ^ 2 ≤ 1 := by rw [← sq_abs a]; exact pow_le_one₀ (abs_nonneg a) haa
    nlinarith
  have h3 : a * b ≤ B := by
    calc a * b ≤ |a| * |b| := by rw [← abs_mul]; exact le_abs_self _
      _ ≤ 1 * B := mul_le_mul haa hB (abs_nonneg b) zero_le_one
      _ = B := one_mul B
  have h4 := mul_le_mul_of_nonneg_left h3 hg
  nlinarith

/-- A turn that goes to the far side stays there for a while. -/
theorem PlaneFlow.leaves {alpha gamma T B β : ℝ} (ha : 0 < alpha) (hg : 0 ≤ gamma) {x a b : ℝ → ℝ}
    (h : PlaneFlow alpha gamma x a b T) (hx0 : x 0 = 0) (hβ : β ≤ a 0 * b 0) (hB0 : 0 ≤ B)
    (hB : b 0 ^ 2 + 4 * alpha ≤ B ^ 2) {t : ℝ} (ht : t ∈ Set.Icc 0 T) :
    x t ≤ -(β / 2) * t + (B ^ 2 / 2 + alpha + gamma * B) / 2 * t ^ 2 / 2 := by
  obtain ⟨M, hM⟩ : ∃ M, M = (B ^ 2 / 2 + alpha + gamma * B) / 2 := ⟨_, rfl⟩
  have hb : ∀ t ∈ Set.Icc 0 T, |b t| ≤ B := by
    intro t ht
    refine abs_le_of_sq_le_sq ?_ hB0
    have h1 := h.below hg ht
    have h2 := (abs_le.1 (h.small ht).1).2
    rw [hx0] at h1
    nlinarith
  have hD : ∀ t ∈ Set.Icc 0 T, -0.5 * (a t * b t) ≤ -(β / 2) + M * t := by
    intro t ht
    have := mono_flow (f := fun t => M * t - -0.5 * (a t * b t)) (T := T)
      ((continuousOn_const.mul continuousOn_id).sub (continuousOn_const.mul (h.contA.mul h.contB)))
      (fun t ht => by
        have ht' : t ∈ Set.Ico 0 T := ⟨ht.1.le, ht.2⟩
        have hs := h.small ⟨ht.1.le, ht.2.le⟩
        refine ⟨_, ((hasDerivAt_id t).const_mul M).fun_sub
          (((h.derivA t ht').fun_mul (h.derivB t ht')).const_mul (-0.5)), ?_⟩
        have := bend_le ha hg hs.1 hs.2 (hb t ⟨ht.1.le, ht.2.le⟩)
        rw [hM]
        linarith) ⟨le_rfl, ht.1.trans ht.2⟩ ht ht.1
    simp only [mul_zero, zero_sub] at this
    linarith
  have := mono_flow (f := fun t => -(β / 2) * t + M * t ^ 2 / 2 - x t) (T := T)
    (((continuousOn_const.mul continuousOn_id).add ((continuousOn_const.mul (continuousOn_id.pow 2)).div_const 2)).sub h.contX)
    (fun t ht => by
      refine ⟨_, ((((hasDerivAt_id t).const_mul (-(β / 2))).fun_add
        ((((hasDerivAt_id t).fun_pow 2).const_mul M).div_const 2)).fun_sub (h.derivX t ⟨ht.1.le, ht.2⟩)), ?_⟩
      have := hD t ⟨ht.1.le, ht.2.le⟩
      simp only [id, Nat.cast_ofNat, Nat.add_one_sub_one, pow_one, mul_one]
      linarith) ⟨le_rfl, ht.1.trans ht.2⟩ ht ht.1
  simp only [mul_zero, hx0, ne_eq, OfNat.ofNat_ne_zero, not_false_eq_true, zero_pow, zero_div, add_zero, sub_zero] at this
  rw [← hM]
  linarith

/-- A turn that goes to the far side stays there to the end, or comes back not before some time. -/
theorem PlaneFlow.next {alpha gamma L B β τ : ℝ} (ha : 0 < alpha) (hg : 0 ≤ gamma) (hL : 0 ≤ L) {x a b : ℝ → ℝ}
    (h : PlaneFlow alpha gamma x a b L) (hx0 : x 0 = 0) (hβ0 : 0 < β) (hβ : β ≤ a 0 * b 0) (hB0 : 0 ≤ B)
    (hB : b 0 ^ 2 + 4 * alpha ≤ B ^ 2) (hτ : 0 < τ) (hτM : (B ^ 2 / 2 + alpha + gamma * B) * τ ≤ β) :
    (∀ t ∈ Set.Icc 0 L, x t ≤ 0) ∨ ∃ t1 ∈ Set.Icc τ L, x t1 = 0 ∧ ∀ t ∈ Set.Icc 0 t1, x t ≤ 0 := by
  have hM : 0 < B ^ 2 / 2 + alpha + gamma * B := by positivity
  have hlv : ∀ t ∈ Set.Icc 0 L, t ≤ τ → x t ≤ 0 ∧ (0 < t → x t < 0) := by
    intro t ht htτ
    have h1 := h.leaves ha hg hx0 hβ hB0 hB ht
    have h2 : (B ^ 2 / 2 + alpha + gamma * B) * t ≤ β := (mul_le_mul_of_nonneg_left htτ hM.le).trans hτM
    have h3 := mul_le_mul_of_nonneg_left h2 ht.1
    refine ⟨?_, fun htp => ?_⟩
    · nlinarith [mul_nonneg hβ0.le ht.1]
    · nlinarith [mul_pos hβ0 htp]
  set S := Set.Icc τ L ∩ x ⁻¹' Set.Ici 0 with hS
  have hcont : ContinuousOn x (Set.Icc τ L) := h.contX.mono (Set.Icc_subset_Icc_left hτ.le)
  have hcl : IsClosed S := hcont.preimage_isClosed_of_isClosed isClosed_Icc isClosed_Ici
  by_cases hne : S.Nonempty
  · right
    have hbd : BddBelow S := ⟨τ, fun t ht => ht.1.1⟩
    have hmem := hcl.csInf_mem hne hbd
    set t1 := sInf S with ht1
    have hlow : ∀ t ∈ Set.Icc 0 L, t < t1 → x t ≤ 0 := by
      intro t ht htt
      rcases le_total t τ with hc | hc
      · exact (hlv t ht hc).1
      · by_contra hpos
        exact absurd (csInf_le hbd (show t ∈ S from ⟨⟨hc, ht.2⟩, (not_le.1 hpos).le⟩)) (not_le.2 htt)
    have hτneg := (hlv τ ⟨hτ.le, hmem.1.1.trans hmem.1.2⟩ le_rfl).2 hτ
    obtain ⟨r, hr, hxr⟩ := intermediate_value_Icc hmem.1.1 (hcont.mono (Set.Icc_subset_Icc_right hmem.1.2))
      (show (0 : ℝ) ∈ Set.Icc (x τ) (x t1) from ⟨hτneg.le, hmem.2⟩)
    have hrt : r = t1 := le_antisymm hr.2 (csInf_le hbd ⟨⟨hr.1, hr.2.trans hmem.1.2⟩, hxr.ge⟩)
    refine ⟨t1, hmem.1, hrt ▸ hxr, fun t ht => ?_⟩
    rcases ht.2.lt_or_eq with hlt | heq
    · exact hlow t ⟨ht.1, ht.2.trans hmem.1.2⟩ hlt
    · rw [heq, ← hrt, hxr]
  · left
    intro t ht
    rcases le_total t τ with hc | hc
    · exact (hlv t ht hc).1
    · by_contra hpos
      exact hne ⟨t, ⟨hc, ht.2⟩, (not_le.1 hpos).le⟩

end Adcs
