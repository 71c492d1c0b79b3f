import Verif.Model.Structure
import Verif.Proofs.Basic
import Mathlib.Tactic.NormNum

set_option autoImplicit false

/-! # C37-C38: magnetorquers -/

namespace Adcs

open Str

/-- The moments a torquer can be asked for: any for the linear models, up to the top of the parabola
for the saturating rod. -/
def MomentInRange (t : Magnetorquer) (m : ℝ) : Prop :=
  t.mtType = "Square" ∨ t.mtType = "LinearRod" ∨ (t.mtType = "Rod" ∧ |m| ≤ 3481 / 2750)

theorem npSign_mul_abs (m : ℝ) : npSign m * |m| = m := by
  unfold npSign
  split_ifs with h1 h2
  · rw [abs_of_neg h1]; ring
  · simp [h2]
  · rw [abs_of_nonneg (not_lt.1 h1)]; ring

theorem npSign_cases (m : ℝ) : (m = 0 ∧ npSign m = 0) ∨ (m < 0 ∧ npSign m = -1) ∨ (0 < m ∧ npSign m = 1) := by
  unfold npSign
  split_ifs with h1 h2
  · exact .inr (.inl ⟨h1, rfl⟩)
  · exact .inl ⟨h2, rfl⟩
  · exact .inr (.inr ⟨lt_of_le_of_ne (not_lt.1 h1) (Ne.symm h2), rfl⟩)

/-- The rod's parabola evaluated at the current of `getCurrent`. -/
theorem rod_error {m s : ℝ} (hm0 : 0 ≤ m) (hs0 : 0 ≤ s) (hs : s ^ 2 = 3481 - 2750 * m) :
    |2.36 * (0.0181818 * (59 - s)) - 1.1 * (0.0181818 * (59 - s)) ^ 2 - m| ≤ 1e-6 * m := by
  have h59 : s ≤ 59 := by nlinarith
  have hmm : m = (3481 - s ^ 2) / 2750 := by linarith
  rw [abs_le]
  subst hmm
  constructor <;> nlinarith

/-- `C37`: the moment produced by the commanded current points along the axis and differs from the
command by at most one part in a million. -/
theorem C37_current (mtType : String) (axis : V3) (maxA : ℝ) (t : Magnetorquer)
    (ht : Magnetorquer.init mtType axis maxA = .ok t) (m : ℝ) (hm : MomentInRange t m) :
    ∃ I k, t.getCurrent m = .ok I ∧ t.actuate I = .ok (k • axis) ∧ |k - m| ≤ 1e-6 * |m| := by
  have hax : t.axis = axis := by
    unfold Magnetorquer.init at ht
    simp only at ht
    split at ht
    · cases ht
    · cases ht; rfl
  rcases hm with h | h | ⟨h, hr⟩
  · refine ⟨m * 0.631313, m * 0.631313 * 1.584, by simp [Magnetorquer.getCurrent, h], ?_, ?_⟩
    · simp only [Magnetorquer.actuate, mtActuate, h, if_true, hax]
      congr 1; funext i; simp only [Pi.smul_apply, smul_eq_mul]; ring
    · have : m * 0.631313 * 1.584 - m = (-(208 / 1000000000)) * m := by norm_num; ring
      rw [this, abs_mul]
      apply mul_le_mul_of_nonneg_right _ (abs_nonneg m)
      rw [abs_neg, abs_of_nonneg] <;> norm_num
  · refine ⟨m * 0.5347593, 1.87 * (m * 0.5347593), by simp [Magnetorquer.getCurrent, h], ?_, ?_⟩
    · simp only [Magnetorquer.actuate, mtActuate, h, hax, String.reduceEq, if_false, if_true]
      congr 1; funext i; simp only [Pi.smul_apply, smul_eq_mul]; ring
    · have : 1.87 * (m * 0.5347593) - m = (-(109 / 1000000000)) * m := by norm_num; ring
      rw [this, abs_mul]
      apply mul_le_mul_of_nonneg_right _ (abs_nonneg m)
      rw [abs_neg, abs_of_nonneg] <;> norm_num
  · have hnn : ¬ (3481 - 2750 * |m| < 0) := by
      rw [not_lt]; linarith [(le_div_iff₀ (by norm_num : (0:ℝ) < 2750)).1 hr]
    set s := Real.sqrt (3481 - 2750 * |m|) with hs
    have hs0 : 0 ≤ s := Real.sqrt_nonneg _
    have hs2 : s ^ 2 = 3481 - 2750 * |m| := Real.sq_sqrt (not_lt.1 hnn)
    have he := rod_error (abs_nonneg m) hs0 hs2
    have h59 : s ≤ 59 := by nlinarith [abs_nonneg m]
    set J := 0.0181818 * (59 - s) with hJ
    have hJ0 : 0 ≤ J := by rw [hJ]; apply mul_nonneg <;> linarith
    refine ⟨npSign m * 0.0181818 * (59 - s), (2.36 * J - 1.1 * J ^ 2) * npSign m, ?_, ?_, ?_⟩
    · simp [Magnetorquer.getCurrent, h, npSqrt, hnn, hs]
    · simp only [Magnetorquer.actuate, mtActuate, h, hax, String.reduceEq, if_false, if_true]
      congr 1; funext i
      simp only [Pi.smul_apply, smul_eq_mul]
      have hI : npSign m * 0.0181818 * (59 - s) = npSign m * J := by rw [hJ]; ring
      rw [hI]
      rcases npSign_cases m with ⟨h0, h1⟩ | ⟨h0, h1⟩ | ⟨h0, h1⟩
      · rw [h1]; simp
      · rw [h1]
        have hJpos : 0 < J := by
          rw [hJ]; apply mul_pos (by norm_num)
          have : 0 < |m| := abs_pos.2 h0.ne
          nlinarith
        have : npSign (-1 * J) = -1 := by unfold npSign; rw [if_pos (by linarith)]
        rw [this, abs_of_nonpos (by linarith)]; ring
      · rw [h1]
        have hJpos : 0 < J := by
          rw [hJ]; apply mul_pos (by norm_num)
          have : 0 < |m| := abs_pos.2 h0.ne'
          nlinarith
        have : npSign (1 * J) = 1 := by
          unfold npSign; rw [if_neg (by linarith), if_neg (by linarith)]
        rw [this, abs_of_nonneg (by linarith)]; ring
    · rcases npSign_cases m with ⟨h0, h1⟩ | ⟨h0, h1⟩ | ⟨h0, h1⟩
      · rw [h1, h0]; simp
      · rw [h1]; rw [abs_of_neg h0] at he ⊢
        rw [abs_le] at he ⊢
        constructor <;> linarith [he.1, he.2]
      · rw [h1]; rw [abs_of_pos h0] at he ⊢
        rw [abs_le] at he ⊢
        constructor <;> linarith [he.1, he.2]

/-- `C37`: a rod with a unit axis and a maximum current up to twice that of the top of its parabola never
reports a maximum moment outside its range, so a command within the maximum is answered. -/
theorem C37_rod_max_in_range (axis : V3) (hax : npNorm axis = 1) (maxA : ℝ) (h0 : 0 ≤ maxA)
    (h1 : maxA ≤ 118 / 55) (t : Magnetorquer) (ht : Magnetorquer.init "Rod" axis maxA = .ok t) (m : ℝ)
    (hm : |m| ≤ t.maxM) : MomentInRange t m := by
  right; right
  have e : t.mtType = "Rod" ∧ t.maxM = npNorm (fun i => axis i * (2.36 * |maxA| - 1.1 * maxA ^ 2) * npSign maxA) := by
    simp [Magnetorquer.init, mtActuate] at ht
    subst ht
    exact ⟨rfl, rfl⟩
  refine ⟨e.1, hm.trans ?_⟩
  rw [e.2]
  have : (fun i => axis i * (2.36 * |maxA| - 1.1 * maxA ^ 2) * npSign maxA) =
      ((2.36 * |maxA| - 1.1 * maxA ^ 2) * npSign maxA) • axis := by
    funext i; simp only [Pi.smul_apply, smul_eq_mul]; ring
  rw [this, npNorm_smul, hax, mul_one, abs_mul]
  have hs : |npSign maxA| ≤ 1 := by
    rcases npSign_cases maxA with ⟨-, h⟩ | ⟨-, h⟩ | ⟨-, h⟩ <;> rw [h] <;> norm_num
  have hb : |2.36 * |maxA| - 1.1 * maxA ^ 2| ≤ 3481 / 2750 := by
    rw [abs_of_nonneg h0, abs_le]
    constructor <;> nlinarith [sq_nonneg (maxA - 59 / 55)]
  calc _ ≤ 3481 / 2750 * 1 := mul_le_mul hb hs (abs_nonneg _) (by norm_num)
    _ = _ := by ring

/-- `C37`: a moment beyond the top of the rod's parabola has no current (the code computes nan). -/
theorem C37_rod_out_of_range (axis : V3) (maxA m : ℝ) (t : Magnetorquer)
    (ht : Magnetorquer.init "Rod" axis maxA = .ok t) (hm : 3481 / 2750 < |m|) :
    t.getCurrent m = .error .nonFinite := by
  have e : t.mtType = "Rod" := by
    simp [Magnetorquer.init, mtActuate] at ht
    subst ht; rfl
  have : 3481 - 2750 * |m| < 0 := by linarith [(div_lt_iff₀ (by norm_num : (0:ℝ) < 2750)).1 hm]
  simp [Magnetorquer.getCurrent, e, npSqrt, this]

/-- `C37`: an unknown type cannot be constructed. -/
theorem C37_unknown_type (s : String) (h1 : s ≠ "Square") (h2 : s ≠ "Rod") (h3 : s ≠ "LinearRod")
    (axis : V3) (maxA : ℝ) : Magnetorquer.init s axis maxA = .error .unboundLocal := by
  simp [Magnetorquer.init, mtActuate, h1, h2, h3]

/-- A saturating rod and a moment in its range. -/
example : ∃ t, Magnetorquer.init "Rod" ![1, 0, 0] 0.5 = .ok t ∧ MomentInRange t (-1) := by
  refine ⟨_, rfl, .inr (.inr ⟨rfl, ?_⟩)⟩
  norm_num

/-! ## Distribution -/

theorem pyForall_ok {n : ℕ} {α : Type} {f : Fin n → Py α} {g : Fin n → α} :
    pyForall f = .ok g ↔ ∀ i, f i = .ok (g i) := by
  induction n with
  | zero =>
    simp only [pyForall]
    constructor
    · intro _ i; exact i.elim0
    · intro _; congr 1; funext i; exact i.elim0
  | succ n ih =>
    unfold pyForall
    constructor
    · intro h
      split at h
      · cases h
      · rename_i a ha
        split at h
        · cases h
        · rename_i g' hg
          cases h
          intro i
          refine Fin.cases ?_ (fun j => ?_) i
          · simpa using ha
          · simpa using ih.1 hg j
    · intro h
      rw [h 0]
      have := (ih (f := fun i => f i.succ) (g := fun i => g i.succ)).2 (fun i => h i.succ)
      simp only [this]
      congr 1
      exact Fin.cons_self_tail g

theorem pyForall_error {n : ℕ} {α : Type} {f : Fin n → Py α} {e : Exc} (h : pyForall f = .error e) :
    ∃ i, f i = .error e := by
  induction n with
  | zero => simp [pyForall] at h
  | succ n ih =>
    unfold pyForall at h
    split at h
    · rename_i e' he; cases h; exact ⟨0, he⟩
    · split at h
      · rename_i hg; cases h
        obtain ⟨i, hi⟩ := ih hg
        exact ⟨i.succ, hi⟩
      · cases h

/-- `C38` as claimed: whatever the command, the currents are those of a multiple of the command, between
zero and the whole of it, and within every torquer's maximum. -/
def DistributeSound : Prop :=
  ∀ (n : ℕ) (torquers : Fin n → Magnetorquer) (m I : Fin n → ℝ), (∀ i, 0 < (torquers i).maxM) →
    distribute torquers m = .ok I →
    ∃ k, 0 ≤ k ∧ k ≤ 1 ∧ (∀ i, |k * m i| ≤ (torquers i).maxM) ∧
      ∀ i, (torquers i).getCurrent (k * m i) = .ok (I i)

/-- Three square coils with 1 A. -/
noncomputable def coil (axis : V3) : Magnetorquer :=
  { mtType := "Square", axis := axis, maxA := 1, maxM := 1.584, R := some 14.9 }

theorem coil_init : Magnetorquer.init "Square" ![1, 0, 0] 1 = .ok (coil ![1, 0, 0]) := by
  simp only [Magnetorquer.init, mtActuate, if_true, coil, Except.ok.injEq, Magnetorquer.mk.injEq]
  refine ⟨trivial, trivial, trivial, ?_, trivial⟩
  unfold npNorm
  rw [Fin.sum_univ_three]
  simp
  rw [Real.sqrt_sq] <;> norm_num

/-- `C38` does not hold: a command of a hundredth of the maximum on the negative axis is answered with
the full maximum in the opposite direction. -/
theorem C38_distribute_fails : ¬ DistributeSound := by
  intro H
  have hd : distribute (fun _ : Fin 1 => coil ![1, 0, 0]) ![-0.01584] = .ok ![1.584 * 0.631313] := by
    have h1 : scaleMoment (fun _ : Fin 1 => coil ![1, 0, 0]) ![-0.01584] = .ok ![1.584] := by
      have : pyForall (fun i : Fin 1 => ratio (coil ![1, 0, 0]).maxM ((![-0.01584] : Fin 1 → ℝ) i)) =
          .ok fun _ => ((-100 : ℝ) : WithTop ℝ) := by
        rw [pyForall_ok]
        intro i
        fin_cases i
        simp [ratio, coil]
        norm_num
      have h2 : (((-100 : ℝ) : WithTop ℝ) < 1) := by
        rw [← WithTop.coe_one, WithTop.coe_lt_coe]; norm_num
      unfold scaleMoment
      rw [this]
      simp only [Finset.univ_nonempty, dif_pos, Finset.inf'_const, h2, if_true, WithTop.untopD_coe]
      congr 1
      funext i; fin_cases i; simp; norm_num
    unfold distribute
    rw [h1, pyForall_ok]
    intro i
    fin_cases i
    simp [Magnetorquer.getCurrent, coil]
  obtain ⟨k, h0, h1, -, h3⟩ := H 1 _ _ _ (by intro i; norm_num [coil]) hd
  have := h3 0
  simp [Magnetorquer.getCurrent, coil] at this
  norm_num at this
  linarith

/-- `C38`, and the limit is exceeded too: a command for two coils whose first component is a small
negative number asks the second for three hundred times its maximum. -/
theorem C38_over_limit : ∃ (m I : Fin 2 → ℝ),
    distribute (fun _ : Fin 2 => coil ![1, 0, 0]) m = .ok I ∧
    (∀ i, |m i| ≤ 3 * (coil ![1, 0, 0]).maxM) ∧
    (coil ![1, 0, 0]).actuate (I 1) = .ok ((-(475.2 * 0.631313 * 1.584) : ℝ) • (![1, 0, 0] : V3)) := by
  refine ⟨![-0.01584, 4.752], ![1.584 * 0.631313, -475.2 * 0.631313], ?_, ?_, ?_⟩
  · have h1 : scaleMoment (fun _ : Fin 2 => coil ![1, 0, 0]) ![-0.01584, 4.752] =
        .ok ![1.584, -475.2] := by
      have : pyForall (fun i : Fin 2 => ratio (coil ![1, 0, 0]).maxM ((![-0.01584, 4.752] : Fin 2 → ℝ) i)) =
          .ok fun i => (((![-100, 1 / 3] : Fin 2 → ℝ) i : ℝ) : WithTop ℝ) := by
        rw [pyForall_ok]
        intro i
        fin_cases i <;> simp [ratio, coil] <;> norm_num
      unfold scaleMoment
      rw [this]
      have hinf : Finset.univ.inf' Finset.univ_nonempty
          (fun i => (((![-100, 1 / 3] : Fin 2 → ℝ) i : ℝ) : WithTop ℝ)) = ((-100 : ℝ) : WithTop ℝ) := by
        apply le_antisymm
        · exact Finset.inf'_le (b := 0) _ (Finset.mem_univ _)
        · apply Finset.le_inf'
          intro i _
          fin_cases i
          · simp
          · simp only [WithTop.coe_le_coe]; simp; norm_num
      have h2 : (((-100 : ℝ) : WithTop ℝ) < 1) := by
        rw [← WithTop.coe_one, WithTop.coe_lt_coe]; norm_num
      simp only [Finset.univ_nonempty, dif_pos, hinf, h2, if_true, WithTop.untopD_coe]
      congr 1
      funext i; fin_cases i <;> simp <;> norm_num
    unfold distribute
    rw [h1, pyForall_ok]
    intro i
    fin_cases i <;> simp [Magnetorquer.getCurrent, coil]
  · intro i; fin_cases i <;> simp [coil] <;> norm_num
  · simp only [Magnetorquer.actuate, mtActuate, coil, if_true]
    congr 1; funext i; fin_cases i <;> simp

/-- `C38` for commands without a negative component. -/
theorem C38_distribute_partial {n : ℕ} (torquers : Fin n → Magnetorquer) (m I : Fin n → ℝ)
    (hM : ∀ i, 0 < (torquers i).maxM) (hm : ∀ i, 0 ≤ m i) (h : distribute torquers m = .ok I) :
    ∃ k, 0 ≤ k ∧ k ≤ 1 ∧ (∀ i, |k * m i| ≤ (torquers i).maxM) ∧
      (∀ i, (torquers i).getCurrent (k * m i) = .ok (I i)) ∧
      ((∀ i, m i ≤ (torquers i).maxM) → k = 1) := by
  unfold distribute at h
  split at h
  · cases h
  rename_i m' hs
  rw [pyForall_ok] at h
  unfold scaleMoment at hs
  split at hs
  · cases hs
  rename_i r hr
  rw [pyForall_ok] at hr
  have hrat : ∀ i, r i = if m i = 0 then ⊤ else (((torquers i).maxM / m i : ℝ) : WithTop ℝ) := by
    intro i
    have := hr i
    unfold ratio at this
    rw [if_neg (hM i).ne'] at this
    split_ifs at this ⊢ <;> simp only [Except.ok.injEq] at this <;> exact this.symm
  split_ifs at hs with hne
  have hle : ∀ i, Finset.univ.inf' hne r ≤ r i := fun i => Finset.inf'_le _ (Finset.mem_univ i)
  obtain ⟨j, -, hj⟩ := Finset.exists_mem_eq_inf' hne r
  rcases hfac : Finset.univ.inf' hne r with _ | factor
  · have hz : ∀ i, m i = 0 := by
      intro i
      have := hle i
      rw [hrat i] at this
      by_contra hc
      rw [if_neg hc, hfac] at this
      exact absurd (top_le_iff.1 this) (WithTop.coe_ne_top)
    have hs' : m = m' := by
      simp only [hfac, Except.ok.injEq] at hs
      rwa [if_neg] at hs
      rw [hfac]; exact not_lt.2 le_top
    subst hs'
    refine ⟨1, by norm_num, le_rfl, ?_, by simpa using h, fun _ => rfl⟩
    intro i; rw [hz i]; simpa using (hM i).le
  · change _ = ((factor : ℝ) : WithTop ℝ) at hfac
    rw [hfac] at hle hj
    have hmj : m j ≠ 0 := by
      intro hc; rw [hrat j, if_pos hc] at hj; simp at hj
    have hmjpos : 0 < m j := lt_of_le_of_ne (hm j) (Ne.symm hmj)
    rw [hrat j, if_neg hmj, WithTop.coe_inj] at hj
    have hf0 : 0 < factor := by rw [hj]; exact div_pos (hM j) hmjpos
    have hfm : ∀ i, factor * m i ≤ (torquers i).maxM := by
      intro i
      have := hle i
      rw [hrat i] at this
      by_cases hc : m i = 0
      · rw [hc]; simpa using (hM i).le
      · rw [if_neg hc, WithTop.coe_le_coe, le_div_iff₀ (lt_of_le_of_ne (hm i) (Ne.symm hc))] at this
        exact this
    simp only [hfac, Except.ok.injEq, ← WithTop.coe_one, WithTop.coe_lt_coe, WithTop.untopD_coe] at hs
    split_ifs at hs with hlt
    · refine ⟨factor, hf0.le, hlt.le, ?_, ?_, ?_⟩
      · intro i; rw [abs_of_nonneg (mul_nonneg hf0.le (hm i))]; exact hfm i
      · intro i; rw [mul_comm]; subst hs; exact h i
      · intro hall
        exfalso
        have := hall j
        rw [hj, div_lt_one hmjpos] at hlt
        linarith
    · subst hs
      refine ⟨1, by norm_num, le_rfl, ?_, by simpa using h, fun _ => rfl⟩
      intro i
      rw [one_mul, abs_of_nonneg (hm i)]
      have := hfm i
      have := hm i
      nlinarith

/-- `C38`: for a command with a negative component every current is computed for a negative multiple of
the command (or from a component of size zero): the whole moment is reversed. -/
theorem C38_reversed {n : ℕ} (torquers : Fin n → Magnetorquer) (m I : Fin n → ℝ)
    (hM : ∀ i, 0 < (torquers i).maxM) (i : Fin n) (hm : m i < 0) (h : distribute torquers m = .ok I) :
    ∃ k, k < 0 ∧ ∀ i, (torquers i).getCurrent (k * m i) = .ok (I i) := by
  unfold distribute at h
  split at h
  · cases h
  rename_i m' hs
  rw [pyForall_ok] at h
  unfold scaleMoment at hs
  split at hs
  · cases hs
  rename_i r hr
  rw [pyForall_ok] at hr
  have hri : r i = (((torquers i).maxM / m i : ℝ) : WithTop ℝ) := by
    have := hr i
    unfold ratio at this
    rw [if_neg hm.ne, Except.ok.injEq] at this
    exact this.symm
  split_ifs at hs with hne
  have hle : Finset.univ.inf' hne r ≤ r i := Finset.inf'_le _ (Finset.mem_univ i)
  have hneg : (torquers i).maxM / m i < 0 := div_neg_of_pos_of_neg (hM i) hm
  rcases hfac : Finset.univ.inf' hne r with _ | factor
  · rw [hfac, hri] at hle
    exact absurd (top_le_iff.1 hle) (WithTop.coe_ne_top)
  · change _ = ((factor : ℝ) : WithTop ℝ) at hfac
    rw [hfac, hri, WithTop.coe_le_coe] at hle
    have hf : factor < 0 := lt_of_le_of_lt hle hneg
    simp only [hfac, Except.ok.injEq, ← WithTop.coe_one, WithTop.coe_lt_coe, WithTop.untopD_coe] at hs
    rw [if_pos (by linarith)] at hs
    subst hs
    exact ⟨factor, hf, fun i => by rw [mul_comm]; exact h i⟩

/-- The hypotheses of `C38_distribute_partial` are met by a command that is scaled down. -/
example : ∃ I, distribute (fun _ : Fin 1 => coil ![1, 0, 0]) ![3] = .ok I ∧
    ∀ i : Fin 1, 0 ≤ (![3] : Fin 1 → ℝ) i := by
  refine ⟨![3 * (1.584 / 3) * 0.631313], ?_, by intro i; fin_cases i; simp⟩
  have h1 : scaleMoment (fun _ : Fin 1 => coil ![1, 0, 0]) ![3] = .ok ![3 * (1.584 / 3)] := by
    have : pyForall (fun i : Fin 1 => ratio (coil ![1, 0, 0]).maxM ((![3] : Fin 1 → ℝ) i)) =
        .ok fun _ => ((1.584 / 3 : ℝ) : WithTop ℝ) := by
      rw [pyForall_ok]; intro i; fin_cases i; simp [ratio, coil]
    have h2 : (((1.584 / 3 : ℝ) : WithTop ℝ) < 1) := by
      rw [← WithTop.coe_one, WithTop.coe_lt_coe]; norm_num
    unfold scaleMoment
    rw [this]
    simp only [Finset.univ_nonempty, dif_pos, Finset.inf'_const, h2, if_true, WithTop.untopD_coe]
    congr 1
    funext i; fin_cases i; simp
  unfold distribute
  rw [h1, pyForall_ok]
  intro i
  fin_cases i
  simp [Magnetorquer.getCurrent, coil]

end Adcs
