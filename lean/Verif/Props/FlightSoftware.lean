import Verif.Model.FlightSoftware
import Verif.Props.SimQuat
import Mathlib.Analysis.Real.Pi.Bounds
import Mathlib.Algebra.Order.Floor.Semiring

set_option autoImplicit false

/-! # C88-C90, C113, C114, C118: the flight software of the simulation -/

namespace Adcs

open scoped Matrix
open Sim Obs

/-- The matrix `G` of ADCS_Simulation_Basilisk.py, lines 183-185, for the direction cosines `xy` and `z`. -/
def wheelMatrix (xy z : ℝ) : Matrix (Fin 3) (Fin 4) ℝ :=
  !![xy, xy, -xy, -xy; xy, -xy, -xy, xy; -z, -z, -z, -z]

/-- Its pseudoinverse for `xy = z = 1/2`. -/
noncomputable def exPinv : Matrix (Fin 4) (Fin 3) ℝ := (wheelMatrix (1/2) (1/2))ᵀ

/-- A flight software with four wheels and a proportional gain. -/
noncomputable def exFsw : Fsw :=
  Fsw.init exPinv 0.1 4.2946e-6 (Matrix.fromCols 1 1)

theorem fswForall_ok {n : ℕ} {α : Type} {f : Fin n → Py α} {g : Fin n → α}
    (h : Str.pyForall f = .ok g) (i : Fin n) : f i = .ok (g i) := by
  induction n with
  | zero => exact i.elim0
  | succ n ih =>
    rw [Str.pyForall] at h
    split at h
    · cases h
    · rename_i a ha
      split at h
      · cases h
      · rename_i g' hg
        cases h
        refine Fin.cases ?_ (fun j => ?_) i
        · simpa using ha
        · simpa using ih hg j

theorem fswForall_of_ok {n : ℕ} {α : Type} {f : Fin n → Py α} {g : Fin n → α}
    (h : ∀ i, f i = .ok (g i)) : Str.pyForall f = .ok g := by
  induction n with
  | zero => rw [Str.pyForall]; congr 1; funext i; exact i.elim0
  | succ n ih =>
    rw [Str.pyForall]
    simp only [h 0, ih (fun i => h i.succ)]
    congr 1
    funext i
    refine Fin.cases ?_ (fun j => ?_) i <;> simp

theorem clamp_abs {f : Fsw} (h : 0 ≤ f.maxTorque) (x : ℝ) : |f.clamp x| ≤ f.maxTorque := by
  rw [Fsw.clamp, abs_le]
  exact ⟨le_max_left _ _, max_le (by linarith) (min_le_right _ _)⟩

/-- The clamped value lies between zero and the unclamped one. -/
theorem clamp_between {f : Fsw} (h : 0 ≤ f.maxTorque) (x : ℝ) :
    (0 ≤ f.clamp x ∧ f.clamp x ≤ x) ∨ (x ≤ f.clamp x ∧ f.clamp x ≤ 0) := by
  unfold Fsw.clamp
  rcases le_total 0 x with hx | hx
  · left
    refine ⟨le_max_of_le_right (le_min hx h), max_le (by linarith) (min_le_left _ _)⟩
  · right
    refine ⟨?_, max_le (by linarith) (le_trans (min_le_left _ _) hx)⟩
    rw [min_eq_left (by linarith)]; exact le_max_right _ _

/-- C88: the check always finishes when the wheels have inertia and the time step is not zero. -/
theorem C88_total {f : Fsw} (hI : f.rwInertia ≠ 0) (ht : f.updateTime ≠ 0) (τ v : Fin 4 → ℝ) :
    ∃ f', f.checkTorqueVals τ v = .ok f' := by
  have : ∀ i, ∃ x, f.checkTorque (τ i) (v i) = .ok x := fun i => by
    simp only [Fsw.checkTorque, npDiv, hI, ht, if_false]
    split
    · exact ⟨_, rfl⟩
    · exact ⟨_, rfl⟩
  choose g hg using this
  exact ⟨_, by simp only [Fsw.checkTorqueVals, fswForall_of_ok hg]; rfl⟩

/-- C88: no wheel is commanded more than the greatest torque. -/
theorem C88_limit {f f' : Fsw} (h : 0 ≤ f.maxTorque) {τ v : Fin 4 → ℝ}
    (hc : f.checkTorqueVals τ v = .ok f') (i : Fin 4) : |f'.torqueVals i| ≤ f.maxTorque := by
  rw [Fsw.checkTorqueVals] at hc
  split at hc
  · cases hc
  · rename_i g hg
    cases hc
    have hi := fswForall_ok hg i
    show |g i| ≤ _
    unfold Fsw.checkTorque at hi
    split at hi
    · cases hi
    · dsimp only at hi
      split at hi
      · split at hi
        · cases hi
        · rw [← Except.ok.inj hi]; exact clamp_abs h _
      · rw [← Except.ok.inj hi]; exact clamp_abs h _

/-- C88: a wheel within the speed limit is within it after the step. -/
theorem C88_speed {f f' : Fsw} (h : 0 ≤ f.maxTorque) (hI : 0 < f.rwInertia) (ht : 0 < f.updateTime)
    {τ v : Fin 4 → ℝ} (hc : f.checkTorqueVals τ v = .ok f') (i : Fin 4) (hv : |v i| ≤ f.maxSpeed) :
    |v i + f'.torqueVals i / f.rwInertia * f.updateTime| ≤ f.maxSpeed := by
  have hm : 0 ≤ f.maxSpeed := le_trans (abs_nonneg _) hv
  have hk : 0 < f.updateTime / f.rwInertia := div_pos ht hI
  have step : ∀ x, x / f.rwInertia * f.updateTime = f.updateTime / f.rwInertia * x := fun x => by ring
  rw [Fsw.checkTorqueVals] at hc
  split at hc
  · cases hc
  · rename_i g hg
    cases hc
    have hi := fswForall_ok hg i
    show |v i + g i / f.rwInertia * f.updateTime| ≤ _
    simp only [Fsw.checkTorque, npDiv, hI.ne', ht.ne', if_false] at hi
    rw [step]
    generalize hkd : f.updateTime / f.rwInertia = k at hk
    obtain ⟨hv1, hv2⟩ := abs_le.1 hv
    split at hi
    · rename_i hover
      rw [← Except.ok.inj hi]
      set s := if v i ≠ 0 then npSign (v i) else npSign (τ i) with hs
      set x := (s * f.maxSpeed - v i) * f.rwInertia / f.updateTime with hx
      have hkx : k * x = s * f.maxSpeed - v i := by rw [hx, ← hkd]; field_simp
      have hs1 : |s * f.maxSpeed| ≤ f.maxSpeed := by
        rw [abs_mul, abs_of_nonneg hm]
        have : |s| ≤ 1 := by
          rw [hs]; unfold npSign; split_ifs <;> norm_num
        nlinarith
      obtain ⟨hs2, hs3⟩ := abs_le.1 hs1
      rw [abs_le]
      rcases clamp_between h x with ⟨c1, c2⟩ | ⟨c1, c2⟩
      · constructor <;> nlinarith
      · constructor <;> nlinarith
    · rename_i hover
      rw [← Except.ok.inj hi]
      rw [step, hkd, gt_iff_lt, not_lt, abs_le] at hover
      rw [abs_le]
      rcases clamp_between h (τ i) with ⟨c1, c2⟩ | ⟨c1, c2⟩
      · constructor <;> nlinarith
      · constructor <;> nlinarith

/-- C88, last part: the commanded torque never has the sign opposite to the request. -/
def C88_sign_claim : Prop :=
  ∀ f : Fsw, 0 < f.maxTorque → 0 < f.rwInertia → 0 < f.updateTime → ∀ (τ v : Fin 4 → ℝ) (f' : Fsw),
    f.checkTorqueVals τ v = .ok f' → (∀ i, |v i| ≤ f.maxSpeed) → ∀ i, 0 ≤ τ i * f'.torqueVals i

/-- C88 holds for a wheel that is at rest or already turning the way it is asked to, and for one that the
request would not take past the limit. -/
theorem C88_sign_partial {f f' : Fsw} (h : 0 ≤ f.maxTorque) (hI : 0 < f.rwInertia)
    (ht : 0 < f.updateTime) {τ v : Fin 4 → ℝ} (hc : f.checkTorqueVals τ v = .ok f') (i : Fin 4)
    (hv : |v i| ≤ f.maxSpeed)
    (hcase : 0 ≤ τ i * v i ∨ |v i + τ i / f.rwInertia * f.updateTime| ≤ f.maxSpeed) :
    0 ≤ τ i * f'.torqueVals i := by
  rw [Fsw.checkTorqueVals] at hc
  split at hc
  · cases hc
  · rename_i g hg
    cases hc
    have hi := fswForall_ok hg i
    show 0 ≤ τ i * g i
    simp only [Fsw.checkTorque, npDiv, hI.ne', ht.ne', if_false] at hi
    have hsame : ∀ x, 0 ≤ τ i * x → 0 ≤ τ i * f.clamp x := by
      intro x hx
      rcases clamp_between h x with ⟨c1, c2⟩ | ⟨c1, c2⟩
      · rcases c1.eq_or_lt with c | c
        · rw [← c]; simp
        · exact mul_nonneg (by by_contra hn; push Not at hn; nlinarith) c1
      · rcases c2.eq_or_lt with c | c
        · rw [c]; simp
        · exact mul_nonneg_of_nonpos_of_nonpos (by by_contra hn; push Not at hn; nlinarith) c2
    obtain ⟨hv1, hv2⟩ := abs_le.1 hv
    split at hi
    · rename_i hover
      rw [← Except.ok.inj hi]
      apply hsame
      rcases hcase with hcase | hcase
      · set s := if v i ≠ 0 then npSign (v i) else npSign (τ i) with hs
        rw [mul_div_assoc, show τ i * ((s * f.maxSpeed - v i) * (f.rwInertia / f.updateTime)) =
          (τ i * (s * f.maxSpeed - v i)) * (f.rwInertia / f.updateTime) by ring]
        refine mul_nonneg ?_ (div_pos hI ht).le
        rcases lt_trichotomy (v i) 0 with hvi | hvi | hvi
        · have : s = -1 := by rw [hs, if_pos hvi.ne]; simp [npSign, hvi]
          rw [this]
          exact mul_nonneg_of_nonpos_of_nonpos (by by_contra hn; push Not at hn; nlinarith)
            (by linarith)
        · have hs' : s = npSign (τ i) := by rw [hs, if_neg (by simp [hvi])]
          rw [hvi, sub_zero, hs']
          rcases lt_trichotomy (τ i) 0 with h1 | h1 | h1
          · have : npSign (τ i) = -1 := by simp [npSign, h1]
            rw [this]; nlinarith
          · simp [h1]
          · have : npSign (τ i) = 1 := by simp [npSign, h1.not_gt, h1.ne']
            rw [this]; nlinarith
        · have : s = 1 := by rw [hs, if_pos hvi.ne']; simp [npSign, hvi.not_gt, hvi.ne']
          rw [this]
          exact mul_nonneg (by by_contra hn; push Not at hn; nlinarith) (by linarith)
      · exact absurd hcase (not_le.2 hover)
    · rw [← Except.ok.inj hi]
      exact hsame _ (mul_self_nonneg _)

/-- C88 fails for a wheel that would be driven past the limit on the other side: it is sped up instead. -/
theorem C88_sign_fails : ¬ C88_sign_claim := by
  intro h
  let f : Fsw := Fsw.init 0 1 1 0
  have hpi := Real.pi_gt_three
  have hpi' := Real.pi_lt_d2
  have hm : f.maxSpeed = 10000 * (2 * Real.pi / 60) := rfl
  have hc : ∀ i : Fin 4, f.checkTorque ((fun _ => -10000 : Fin 4 → ℝ) i) ((fun _ => 1 : Fin 4 → ℝ) i) =
      .ok ((fun _ => 0.01 : Fin 4 → ℝ) i) := by
    intro i
    have h1 : |(1 : ℝ) + -10000 / 1 * 1| > f.maxSpeed := by
      rw [hm, abs_of_neg (by norm_num)]; linarith
    have hreq : f.clamp ((1 * f.maxSpeed - 1) * 1 / 1) = 0.01 := by
      rw [Fsw.clamp]
      change max (-(0.01 : ℝ)) (min _ 0.01) = _
      rw [min_eq_right, max_eq_right]
      · norm_num
      · rw [hm]; linarith
    have hs : npSign (1 : ℝ) = 1 := by norm_num [npSign]
    have e : f.checkTorque (-10000) 1 = .ok (f.clamp ((1 * f.maxSpeed - 1) * 1 / 1)) := by
      have e1 : f.rwInertia = 1 := rfl
      have e2 : f.updateTime = 1 := rfl
      simp only [Fsw.checkTorque, npDiv, e1, e2, one_ne_zero, if_false, if_pos h1, ne_eq,
        not_false_eq_true, if_true, hs]
    rw [hreq] at e
    exact e
  have hok : f.checkTorqueVals (fun _ => -10000) (fun _ => 1) =
      .ok { f with torqueVals := fun _ => 0.01 } := by
    simp only [Fsw.checkTorqueVals, fswForall_of_ok hc]
  have := h f (by norm_num [f, Fsw.init]) (by norm_num [f, Fsw.init]) (by norm_num [f, Fsw.init]) _ _ _ hok
    (fun i => by rw [hm, abs_one]; linarith) 0
  norm_num at this

/-- The flight software of the example meets the hypotheses of C88. -/
example : 0 ≤ exFsw.maxTorque ∧ 0 < exFsw.rwInertia ∧ 0 < exFsw.updateTime ∧
    ∃ f', exFsw.checkTorqueVals ![1, -2, 3, 0] ![0, 100, -1000, 5] = .ok f' := by
  refine ⟨by norm_num [exFsw, Fsw.init], by norm_num [exFsw, Fsw.init], by norm_num [exFsw, Fsw.init],
    C88_total (by norm_num [exFsw, Fsw.init]) (by norm_num [exFsw, Fsw.init]) _ _⟩

/-! ### C89 -/

/-- The torque that `UpdateState` computes from an error quaternion, lines 96-97 and 111. -/
noncomputable def errorTorque (f : Fsw) (q : V4) (ω : V3) : V3 :=
  let (e, f) := f.checkHemi q
  f.quaternionController e ω

/-- C89: the torque is the same for an attitude error and its negative. -/
def C89_claim : Prop := ∀ (f : Fsw) (q : V4) (ω : V3), errorTorque f q ω = errorTorque f (-q) ω

/-- The flip of the hemisphere is undone by the sign in the controller. -/
theorem errorTorque_eq (f : Fsw) (q : V4) (ω : V3) :
    errorTorque f q ω = -(f.K *ᵥ Sum.elim ![q 0, q 1, q 2] (ω - f.omegaTarget)) := by
  have e : ∀ v : V3, (fun i => v i * (-1 : ℝ) ^ 0) = v := fun v => by funext i; simp
  unfold errorTorque Fsw.checkHemi
  split
  · rename_i a b h
    split at h
    · cases h
      simp only [Fsw.quaternionController, Matrix.neg_mulVec]
      rw [e]
    · cases h
      simp only [Fsw.quaternionController, Matrix.neg_mulVec]
      congr 3
      funext i
      fin_cases i <;> simp

/-- C89 holds for an error exactly if the gain ignores its vector part. -/
theorem C89_torque_partial (f : Fsw) (q : V4) (ω : V3) :
    errorTorque f q ω = errorTorque f (-q) ω ↔ f.K *ᵥ Sum.elim ![q 0, q 1, q 2] 0 = 0 := by
  rw [errorTorque_eq, errorTorque_eq]
  have e : (Sum.elim ![(-q) 0, (-q) 1, (-q) 2] (ω - f.omegaTarget) : I6 → ℝ) =
      Sum.elim ![q 0, q 1, q 2] (ω - f.omegaTarget) - (2 : ℝ) • Sum.elim ![q 0, q 1, q 2] 0 := by
    funext i
    rcases i with i | i
    · fin_cases i <;> simp <;> ring
    · simp
  rw [e, Matrix.mulVec_sub, Matrix.mulVec_smul]
  constructor
  · intro h
    have h2 : (2 : ℝ) • (f.K *ᵥ Sum.elim ![q 0, q 1, q 2] 0) = 0 := by
      have := neg_injective h
      simpa using this.symm
    exact (smul_eq_zero.1 h2).resolve_left two_ne_zero
  · intro h; rw [h]; simp

/-- C89 fails: with a proportional gain the negative of an error gives the opposite torque, which turns the
satellite the long way round. -/
theorem C89_short_way_fails : ¬ C89_claim := by
  intro h
  have := (C89_torque_partial exFsw ![0.6, 0, 0, 0.8] 0).1 (h _ _ _)
  have h0 := congrFun this 0
  have : exFsw.K = Matrix.fromCols 1 1 := rfl
  rw [this, Matrix.fromCols_mulVec_sumElim, Matrix.one_mulVec, Matrix.one_mulVec] at h0
  norm_num at h0

/-! ### C90 -/

/-- C90: the mode changes to precise only below 30 degrees and to slew only above 40 degrees. -/
theorem C90_changes (f : Fsw) (a : ℝ) (h : (f.modeCheck a).mode ≠ f.mode) :
    (f.mode = .slew ∧ (f.modeCheck a).mode = .precise ∧ a < 30) ∨
      (f.mode = .precise ∧ (f.modeCheck a).mode = .slew ∧ 40 < a) := by
  unfold Fsw.modeCheck at *
  split_ifs at * with h1 h2
  · exact .inl ⟨h1.2, rfl, h1.1⟩
  · exact .inr ⟨h2.2, rfl, h2.1⟩
  · exact absurd rfl h

/-- C90: and it does change there. -/
theorem C90_reacts (f : Fsw) (a : ℝ) :
    (a < 30 → (f.modeCheck a).mode = .precise) ∧ (40 < a → (f.modeCheck a).mode = .slew) := by
  unfold Fsw.modeCheck
  constructor
  · intro h
    cases hm : f.mode
    · simp [h, hm]
    · simp [hm, show ¬ 40 < a by linarith]
  · intro h
    cases hm : f.mode
    · simp [hm, show ¬ a < 30 by linarith]
    · simp [hm, h]

/-- The flight software after the first `n` calls of `mode_check` with the angles `a`. -/
noncomputable def modeRun (f : Fsw) (a : ℕ → ℝ) : ℕ → Fsw
  | 0 => f
  | n + 1 => (modeRun f a n).modeCheck (a n)

/-- The `n`-th call changes the mode. -/
def ChangesAt (f : Fsw) (a : ℕ → ℝ) (n : ℕ) : Prop := (modeRun f a (n + 1)).mode ≠ (modeRun f a n).mode

/-- C90: between two successive changes the angle moves by more than 10 degrees. -/
theorem C90_gap (f : Fsw) (a : ℕ → ℝ) {i j : ℕ} (hij : i < j) (hi : ChangesAt f a i) (hj : ChangesAt f a j)
    (hb : ∀ k, i < k → k < j → ¬ ChangesAt f a k) : 10 < |a j - a i| := by
  have hconst : ∀ k, i + 1 ≤ k → k ≤ j → (modeRun f a k).mode = (modeRun f a (i + 1)).mode := by
    intro k h1
    induction k, h1 using Nat.le_induction with
    | base => intro _; rfl
    | succ k hk ih =>
      intro h2
      rw [← ih (by omega)]
      by_contra hne
      exact hb k (by omega) (by omega) hne
  have hm := hconst j hij le_rfl
  rcases C90_changes _ _ hi with ⟨-, h2, h3⟩ | ⟨-, h2, h3⟩ <;>
    rcases C90_changes _ _ hj with ⟨g1, -, g3⟩ | ⟨g1, -, g3⟩
  · rw [hm] at g1; rw [modeRun] at g1; rw [g1] at h2; cases h2
  · rw [lt_abs]; left; linarith
  · rw [lt_abs]; right; linarith
  · rw [hm] at g1; rw [modeRun] at g1; rw [g1] at h2; cases h2

open Classical in
/-- C90: over any history, each change after the first has cost at least 10 degrees of motion. -/
theorem C90_variation (f : Fsw) (a : ℕ → ℝ) (n : ℕ) :
    10 * (((Finset.range (n + 1)).filter (ChangesAt f a)).card - 1 : ℝ) ≤
      ∑ k ∈ Finset.range n, |a (k + 1) - a k| := by
  have inv : ∀ n, ((Finset.range (n + 1)).filter (ChangesAt f a) = ∅) ∨
      ∃ L, ChangesAt f a L ∧ L ≤ n ∧ (∀ k, L < k → k ≤ n → ¬ ChangesAt f a k) ∧
        10 * (((Finset.range (n + 1)).filter (ChangesAt f a)).card - 1 : ℝ) + |a n - a L| ≤
          ∑ k ∈ Finset.range n, |a (k + 1) - a k| := by
    intro n
    induction n with
    | zero =>
      by_cases h : ChangesAt f a 0
      · right
        exact ⟨0, h, le_rfl, fun k h1 h2 => absurd h1 (by omega), by simp [Finset.filter_singleton, h]⟩
      · left; simp [Finset.filter_singleton, h]
    | succ n ih =>
      rw [Finset.range_add_one (n := n + 1), Finset.filter_insert, Finset.sum_range_succ]
      by_cases h : ChangesAt f a (n + 1)
      · right
        refine ⟨n + 1, h, le_rfl, fun k h1 h2 => absurd h1 (by omega), ?_⟩
        rw [if_pos h, Finset.card_insert_of_notMem (by simp)]
        rcases ih with h0 | ⟨L, hL, hLn, hbet, hsum⟩
        · rw [h0]
          have : 0 ≤ ∑ k ∈ Finset.range n, |a (k + 1) - a k| :=
            Finset.sum_nonneg fun _ _ => abs_nonneg _
          have := abs_nonneg (a (n + 1) - a n)
          simp
          linarith
        · have hg := C90_gap f a (show L < n + 1 by omega) hL h
            (fun k h1 h2 => hbet k h1 (by omega))
          have htri := abs_sub_le (a (n + 1)) (a n) (a L)
          rw [sub_self, abs_zero]
          push_cast
          linarith
      · rw [if_neg h]
        rcases ih with h0 | ⟨L, hL, hLn, hbet, hsum⟩
        · left; exact h0
        · right
          refine ⟨L, hL, by omega, fun k h1 h2 => ?_, ?_⟩
          · rcases Nat.lt_or_ge n k with hk | hk
            · rw [show k = n + 1 by omega]; exact h
            · exact hbet k h1 hk
          · have htri := abs_sub_le (a (n + 1)) (a n) (a L)
            linarith
  rcases inv n with h | ⟨L, -, -, -, h⟩
  · rw [h]
    have : 0 ≤ ∑ k ∈ Finset.range n, |a (k + 1) - a k| := Finset.sum_nonneg fun _ _ => abs_nonneg _
    simp
    linarith
  · have := abs_nonneg (a n - a L)
    linarith

/-- A history with two changes: 20 degrees, then 50 degrees. -/
example : ChangesAt exFsw (fun n => if n = 0 then 20 else 50) 0 ∧
    ChangesAt exFsw (fun n => if n = 0 then 20 else 50) 1 := by
  have h0 : exFsw.mode = .slew := rfl
  have h1 : (exFsw.modeCheck 20).mode = .precise := (C90_reacts _ _).1 (by norm_num)
  constructor
  · simp [ChangesAt, modeRun, h0, h1]
  · have h2 : ((exFsw.modeCheck 20).modeCheck 50).mode = .slew := (C90_reacts _ _).2 (by norm_num)
    simp [ChangesAt, modeRun, h1, h2]

/-! ### C113 -/

/-- One time step of wheels that follow the commanded torques. -/
noncomputable def wheelStep (f : Fsw) (v : Fin 4 → ℝ) : Fin 4 → ℝ :=
  fun i => v i + f.torqueVals i / f.rwInertia * f.updateTime

/-- `n` rounds of `zero_wheel_speeds` and a time step lead from `v` to `w`. -/
inductive ZeroRun : ℕ → Fsw → (Fin 4 → ℝ) → Fsw → (Fin 4 → ℝ) → Prop
  | nil (f : Fsw) (v : Fin 4 → ℝ) : ZeroRun 0 f v f v
  | step {n : ℕ} {f g h : Fsw} {v w : Fin 4 → ℝ} (hrun : ZeroRun n f v g w)
      (hz : g.zeroWheelSpeeds w = .ok h) : ZeroRun (n + 1) f v h (wheelStep h w)

theorem zeroStep_abs {f g : Fsw} (hI : 0 < f.rwInertia) (ht : 0 < f.updateTime) (hm : 0 < f.maxTorque)
    {v : Fin 4 → ℝ} (h : f.zeroWheelSpeeds v = .ok g) (i : Fin 4) :
    |wheelStep g v i| = max 0 (|v i| - f.maxTorque * f.updateTime / f.rwInertia) := by
  rw [Fsw.zeroWheelSpeeds, if_neg ht.ne'] at h
  cases h
  simp only [wheelStep, Fsw.clamp]
  have hk : 0 < f.updateTime / f.rwInertia := div_pos ht hI
  have step : ∀ x, x / f.rwInertia * f.updateTime = f.updateTime / f.rwInertia * x := fun x => by ring
  rw [step, mul_div_assoc f.maxTorque]
  have hx : f.updateTime / f.rwInertia * (-f.rwInertia * v i / f.updateTime) = -v i := by field_simp
  generalize hkd : f.updateTime / f.rwInertia = k at *
  generalize -f.rwInertia * v i / f.updateTime = x at *
  rcases le_total x f.maxTorque with h1 | h1
  · rw [min_eq_left h1]
    rcases le_total (-f.maxTorque) x with h2 | h2
    · rw [max_eq_right h2, hx, add_neg_cancel, abs_zero, max_eq_left]
      rw [sub_nonpos, abs_le]; constructor <;> nlinarith
    · rw [max_eq_left h2]
      have hv : 0 ≤ v i - f.maxTorque * k := by nlinarith
      have hv' : 0 ≤ v i := by nlinarith
      rw [abs_of_nonneg hv', max_eq_right hv, show v i + k * -f.maxTorque = v i - f.maxTorque * k by ring,
        abs_of_nonneg hv]
  · rw [min_eq_right h1, max_eq_right (by linarith)]
    have hv : v i + f.maxTorque * k ≤ 0 := by nlinarith
    have hv' : v i ≤ 0 := by nlinarith
    rw [abs_of_nonpos hv', mul_comm k, abs_of_nonpos hv, max_eq_right (by linarith)]
    ring

/-- C113: zeroing the wheels slows every wheel by the greatest torque until it stands, without overshoot. -/
theorem C113_speed {n : ℕ} {f g : Fsw} {v w : Fin 4 → ℝ} (hI : 0 < f.rwInertia) (ht : 0 < f.updateTime)
    (hm : 0 < f.maxTorque) (h : ZeroRun n f v g w) (i : Fin 4) :
    |w i| = max 0 (|v i| - n * (f.maxTorque * f.updateTime / f.rwInertia)) := by
  suffices H : g.rwInertia = f.rwInertia ∧ g.updateTime = f.updateTime ∧ g.maxTorque = f.maxTorque ∧
      |w i| = max 0 (|v i| - n * (f.maxTorque * f.updateTime / f.rwInertia)) from H.2.2.2
  induction h with
  | nil f v => simp
  | @step n f g h v w hrun hz ih =>
    obtain ⟨i1, i2, i3, i4⟩ := ih hI ht hm
    have hs := zeroStep_abs (by rw [i1]; exact hI) (by rw [i2]; exact ht) (by rw [i3]; exact hm) hz i
    rw [i1, i2, i3, i4] at hs
    have hz' := hz
    rw [Fsw.zeroWheelSpeeds, if_neg (by rw [i2]; exact ht.ne')] at hz'
    cases hz'
    refine ⟨i1, i2, i3, ?_⟩
    rw [hs]
    have hk : 0 < f.maxTorque * f.updateTime / f.rwInertia := div_pos (mul_pos hm ht) hI
    generalize f.maxTorque * f.updateTime / f.rwInertia = k at *
    push_cast
    rcases le_total 0 (|v i| - n * k) with h1 | h1
    · rw [max_eq_right h1]; congr 1; ring
    · rw [max_eq_left h1, max_eq_left, max_eq_left] <;> linarith

/-- C113: so all wheels stand after finitely many rounds, which are always possible. -/
theorem C113_stops {f : Fsw} (hI : 0 < f.rwInertia) (ht : 0 < f.updateTime) (hm : 0 < f.maxTorque)
    (v : Fin 4 → ℝ) : ∃ N, ∀ n ≥ N, ∃ g, ZeroRun n f v g 0 := by
  have run : ∀ n, ∃ g w, ZeroRun n f v g w ∧ g.updateTime = f.updateTime := by
    intro n
    induction n with
    | zero => exact ⟨f, v, .nil f v, rfl⟩
    | succ n ih =>
      obtain ⟨g, w, h, h'⟩ := ih
      have hz : g.zeroWheelSpeeds w = .ok { g with
          torqueVals := fun i => g.clamp (-g.rwInertia * w i / g.updateTime) } := by
        rw [Fsw.zeroWheelSpeeds, if_neg (by rw [h']; exact ht.ne')]
      exact ⟨_, _, .step h hz, h'⟩
  have hk : 0 < f.maxTorque * f.updateTime / f.rwInertia := div_pos (mul_pos hm ht) hI
  obtain ⟨N, hN⟩ := exists_nat_gt ((∑ i, |v i|) / (f.maxTorque * f.updateTime / f.rwInertia))
  refine ⟨N, fun n hn => ?_⟩
  obtain ⟨g, w, h, -⟩ := run n
  have : w = 0 := by
    funext i
    have hs := C113_speed hI ht hm h i
    rw [div_lt_iff₀ hk] at hN
    have hle : |v i| ≤ ∑ i, |v i| := Finset.single_le_sum (fun i _ => abs_nonneg (v i)) (Finset.mem_univ i)
    have hn' : (N : ℝ) ≤ n := by exact_mod_cast hn
    rw [max_eq_left (by nlinarith), abs_eq_zero] at hs
    exact hs
  rw [this] at h
  exact ⟨g, h⟩

example : 0 < exFsw.rwInertia ∧ 0 < exFsw.updateTime ∧ 0 < exFsw.maxTorque := by
  refine ⟨?_, ?_, ?_⟩ <;> norm_num [exFsw, Fsw.init]

/-! ### C114 -/

/-- `P` is the Moore-Penrose pseudoinverse of `G`. -/
structure Spec.IsPinv {m n : ℕ} (G : Matrix (Fin m) (Fin n) ℝ) (P : Matrix (Fin n) (Fin m) ℝ) : Prop where
  gpg : G * P * G = G
  pgp : P * G * P = P
  gp : (G * P)ᵀ = G * P
  pg : (P * G)ᵀ = P * G

/-- The pseudoinverse of the wheel matrix is a right inverse. -/
theorem wheelMatrix_right {xy z : ℝ} (hxy : xy ≠ 0) (hz : z ≠ 0) {P : Matrix (Fin 4) (Fin 3) ℝ}
    (h : Spec.IsPinv (wheelMatrix xy z) P) : wheelMatrix xy z * P = 1 := by
  set G := wheelMatrix xy z with hG
  have hGG : G * Gᵀ = Matrix.diagonal ![4 * xy ^ 2, 4 * xy ^ 2, 4 * z ^ 2] := by
    ext i j
    fin_cases i <;> fin_cases j <;>
      simp [hG, wheelMatrix, Matrix.mul_apply, Fin.sum_univ_four, Matrix.diagonal] <;> ring
  have hdet : IsUnit (G * Gᵀ).det := by
    rw [hGG, Matrix.det_diagonal, Fin.prod_univ_three, isUnit_iff_ne_zero]
    simp [hxy, hz]
  have : (G * P) * (G * Gᵀ) = 1 * (G * Gᵀ) := by
    rw [← Matrix.mul_assoc, h.gpg, one_mul]
  have h2 := congrArg (fun M => M * (G * Gᵀ)⁻¹) this
  simpa [Matrix.mul_assoc, Matrix.mul_nonsing_inv _ hdet,
    Matrix.mul_nonsing_inv_cancel_right _ _ hdet] using h2

/-- C114: for the wheels of the simulation, the reaction of the wheels on the body is the requested torque. -/
theorem C114_realises {xy z : ℝ} (hxy : xy ≠ 0) (hz : z ≠ 0) {P : Matrix (Fin 4) (Fin 3) ℝ}
    (h : Spec.IsPinv (wheelMatrix xy z) P) (dt I : ℝ) (K : Matrix (Fin 3) I6 ℝ) (τ : V3) :
    -(wheelMatrix xy z *ᵥ (Fsw.init P dt I K).convertTorque τ) = τ := by
  have hg : (Fsw.init P dt I K).Gpinv = -P := rfl
  rw [Fsw.convertTorque, hg, Matrix.neg_mulVec, Matrix.mulVec_neg, neg_neg, Matrix.mulVec_mulVec,
    wheelMatrix_right hxy hz h, Matrix.one_mulVec]

/-- C114: among all wheel torques with that reaction, the one that is asked for has the least norm. -/
theorem C114_least {G : Matrix (Fin 3) (Fin 4) ℝ} {P : Matrix (Fin 4) (Fin 3) ℝ}
    (h : Spec.IsPinv G P) (dt I : ℝ) (K : Matrix (Fin 3) I6 ℝ) (τ : V3) (w : Fin 4 → ℝ)
    (hw : -(G *ᵥ w) = τ) : npNorm ((Fsw.init P dt I K).convertTorque τ) ≤ npNorm w := by
  have hg : (Fsw.init P dt I K).Gpinv = -P := rfl
  have e : (Fsw.init P dt I K).convertTorque τ = (P * G) *ᵥ w := by
    rw [Fsw.convertTorque, hg, ← hw, Matrix.neg_mulVec, Matrix.mulVec_neg, neg_neg, Matrix.mulVec_mulVec]
  rw [e]
  set c := (P * G) *ᵥ w
  have horth : c ⬝ᵥ (w - c) = 0 := by
    have hcc : (P * G) *ᵥ c = c := by
      rw [Matrix.mulVec_mulVec, ← Matrix.mul_assoc, h.pgp]
    have h1 : c ⬝ᵥ w = w ⬝ᵥ c := dotProduct_comm _ _
    have h2 : c ⬝ᵥ c = w ⬝ᵥ c := by
      calc c ⬝ᵥ c = ((P * G) *ᵥ w) ⬝ᵥ c := rfl
        _ = (w ᵥ* (P * G)ᵀ) ⬝ᵥ c := by rw [Matrix.vecMul_transpose]
        _ = w ⬝ᵥ ((P * G) *ᵥ c) := by rw [h.pg]; exact (Matrix.dotProduct_mulVec w _ c).symm
        _ = w ⬝ᵥ c := by rw [hcc]
    rw [dotProduct_sub, h1, h2, sub_self]
  have hsq : npNorm c ^ 2 ≤ npNorm w ^ 2 := by
    rw [npNorm_sq_dot, npNorm_sq_dot, npDot_eq_dotProduct, npDot_eq_dotProduct]
    have hw' : w = c + (w - c) := by abel
    have h0 : 0 ≤ (w - c) ⬝ᵥ (w - c) := Finset.sum_nonneg fun i _ => mul_self_nonneg _
    have : w ⬝ᵥ w = c ⬝ᵥ c + (w - c) ⬝ᵥ (w - c) := by
      conv_lhs => rw [hw']
      rw [add_dotProduct, dotProduct_add, dotProduct_add, horth, dotProduct_comm (w - c) c, horth]
      ring
    linarith
  exact (pow_le_pow_iff_left₀ (npNorm_nonneg _) (npNorm_nonneg _) two_ne_zero).1 hsq

/-- The pseudoinverse of the example is one. -/
example : Spec.IsPinv (wheelMatrix (1/2) (1/2)) exPinv := by
  have h : wheelMatrix (1/2) (1/2) * exPinv = 1 := by
    ext i j
    fin_cases i <;> fin_cases j <;>
      simp [exPinv, wheelMatrix, Matrix.mul_apply, Fin.sum_univ_four] <;> norm_num
  refine ⟨by rw [h, Matrix.one_mul], by rw [Matrix.mul_assoc, h, Matrix.mul_one], by rw [h, Matrix.transpose_one], ?_⟩
  rw [exPinv, Matrix.transpose_mul, Matrix.transpose_transpose]

/-! ### C118 -/

/-- The second target of `UpdateState`: a turn of 270 degrees about y. -/
noncomputable def secondTarget : V4 := rawMult (aaq ![0, 1, 0] 180) (aaq ![0, 1, 0] 90)

theorem yAxis_norm : npNorm (![0, 1, 0] : V3) = 1 := npNorm_vec3 (by norm_num)

theorem secondTarget_norm : npNorm secondTarget = 1 := by
  rw [secondTarget, npNorm_rawMult, aaq_norm yAxis_norm, aaq_norm yAxis_norm, one_mul]

/-- What stays the same over calls of `UpdateState`. -/
structure SameSetup (f g : Fsw) : Prop where
  Gpinv : g.Gpinv = f.Gpinv
  rwInertia : g.rwInertia = f.rwInertia
  updateTime : g.updateTime = f.updateTime
  omegaTarget : g.omegaTarget = f.omegaTarget
  maxTorque : g.maxTorque = f.maxTorque
  maxSpeed : g.maxSpeed = f.maxSpeed
  K : g.K = f.K
  mode : g.mode = f.mode

theorem checkHemi_3 (f : Fsw) {q : V4} (h : npNorm q = 1) :
    |(f.checkHemi q).1 3| ≤ 1 ∧ npNorm (f.checkHemi q).1 = 1 := by
  have hu := (isUnit4_iff q).2 h
  unfold IsUnit4 at hu
  have h3 : |q 3| ≤ 1 := by
    rw [← sq_le_one_iff_abs_le_one]; linarith [sq_nonneg (q 0), sq_nonneg (q 1), sq_nonneg (q 2)]
  unfold Fsw.checkHemi
  split
  · exact ⟨h3, h⟩
  · refine ⟨by simpa using h3, ?_⟩
    rw [show -q = (-1 : ℝ) • q by simp, npNorm_smul, h]; norm_num

/-- One call of `UpdateState` for a non-zero reading and a non-zero target. -/
theorem updateState_step {f : Fsw} (hI : f.rwInertia ≠ 0) (ht : f.updateTime ≠ 0) (hq : f.qTarget ≠ 0)
    {reading : V4} (hr : reading ≠ 0) (ω : V3) (v : Fin 4 → ℝ) :
    ∃ err g, quatError f.qTarget (toScalarLast reading) = .ok err ∧ npNorm err = 1 ∧
      f.updateState reading ω v = (.ok (), g) ∧ SameSetup f g ∧
      (g.qTarget = f.qTarget ∨
        (g.qTarget = secondTarget ∧ errorAngle (f.checkHemi err).1 = .ok 0 ∧ ω = 0)) ∧
      ∃ f₀ g₀, SameSetup f f₀ ∧ f₀.checkTorqueVals (f.convertTorque (errorTorque f err ω)) v = .ok g₀ ∧
        g₀.torqueVals = g.torqueVals := by
  have hl : toScalarLast reading ≠ 0 := by
    intro h; apply hr
    exact vec4_ext (by simpa [toScalarLast] using congrFun h 3) (by simpa [toScalarLast] using congrFun h 0)
      (by simpa [toScalarLast] using congrFun h 1) (by simpa [toScalarLast] using congrFun h 2)
  set q := toScalarLast reading with hqd
  set Q := (npNorm q)⁻¹ • q with hQ
  have hQn : npNorm Q = 1 := npNorm_inv_smul hl
  have hcQ : quatConjugate Q = (npNorm q)⁻¹ • quatConjugate q := by
    apply vec4_ext <;> simp [quatConjugate, hQ]
  set err := (npNorm f.qTarget * npNorm (quatConjugate q))⁻¹ • rawMult f.qTarget (quatConjugate q) with herr
  have he1 : quatError f.qTarget q = .ok err := quatMult_eq hq (conj_ne_zero hl)
  have he2 : quatError f.qTarget Q = .ok err := by
    rw [quatError, quatMult_eq hq (conj_ne_zero (ne_zero_of_norm hQn)), npNorm_conj, hQn, mul_one, hcQ, herr,
      npNorm_conj]
    congr 1
    have := rawMult_smul 1 (npNorm q)⁻¹ f.qTarget (quatConjugate q)
    rw [one_smul, one_mul] at this
    rw [this, smul_smul, mul_inv]
  have hen : npNorm err = 1 := by
    have h1 := npNorm_pos hq
    have h2 := npNorm_pos (conj_ne_zero hl)
    rw [herr, npNorm_smul, npNorm_rawMult, abs_of_pos (by positivity)]
    field_simp
  obtain ⟨hc3, hcn⟩ := checkHemi_3 f hen
  set f1 := (f.checkHemi err).2 with hf1
  set e1 := (f.checkHemi err).1 with hed
  have hs1 : SameSetup f f1 ∧ f1.qTarget = f.qTarget := by
    rw [hf1]; unfold Fsw.checkHemi; split <;> exact ⟨⟨rfl, rfl, rfl, rfl, rfl, rfl, rfl, rfl⟩, rfl⟩
  set a := 2 * Real.arccos |e1 3| * 180 / Real.pi with ha
  have hea : errorAngle e1 = .ok a := by rw [errorAngle, if_pos hc3]
  classical
  set f2 := if a = 0 ∧ ω = 0 then { f1 with qTarget := secondTarget } else f1 with hf2
  have hs2 : SameSetup f f2 ∧ (f2.qTarget = f.qTarget ∨
      (f2.qTarget = secondTarget ∧ errorAngle e1 = .ok 0 ∧ ω = 0)) ∧ f2.signFlipped = f1.signFlipped := by
    obtain ⟨⟨h1, h2, h3, h4, h5, h6, h7, h8⟩, h9⟩ := hs1
    rw [hf2]
    split
    · rename_i h
      exact ⟨⟨h1, h2, h3, h4, h5, h6, h7, h8⟩, .inr ⟨rfl, by rw [hea, h.1], h.2⟩, rfl⟩
    · exact ⟨⟨h1, h2, h3, h4, h5, h6, h7, h8⟩, .inl h9, rfl⟩
  obtain ⟨hs2, hs2q, hs2s⟩ := hs2
  have htorque : f2.quaternionController e1 ω = errorTorque f err ω := by
    have : errorTorque f err ω = f1.quaternionController e1 ω := rfl
    rw [this]
    unfold Fsw.quaternionController
    rw [hs2.K, hs1.1.K, hs2.omegaTarget, hs1.1.omegaTarget, hs2s]
  have hconv : f2.convertTorque (errorTorque f err ω) = f.convertTorque (errorTorque f err ω) := by
    unfold Fsw.convertTorque; rw [hs2.Gpinv]
  obtain ⟨g, hg⟩ := C88_total (f := f2) (by rw [hs2.rwInertia]; exact hI) (by rw [hs2.updateTime]; exact ht)
    (f.convertTorque (errorTorque f err ω)) v
  have hgs : SameSetup f g ∧ g.qTarget = f2.qTarget := by
    have := hg
    rw [Fsw.checkTorqueVals] at this
    split at this
    · cases this
    · cases this; exact ⟨⟨hs2.1, hs2.2, hs2.3, hs2.4, hs2.5, hs2.6, hs2.7, hs2.8⟩, rfl⟩
  refine ⟨err, g, he1, hen, ?_, hgs.1, by rw [hgs.2]; exact hs2q, f2, g, hs2, hg, rfl⟩
  have hQv : Sim.normalize q = .ok Q := npVDiv_norm hl
  have ht2 : quatMult (aaq ![0, 1, 0] 180) (aaq ![0, 1, 0] 90) = .ok secondTarget :=
    quatMult_unit (aaq_norm yAxis_norm _) (aaq_norm yAxis_norm _)
  unfold Fsw.updateState
  simp only [← hqd, hQv, axisAngle_unit yAxis_norm, he2, ht2]
  simp only [← hed, ← hf1, hea]
  rw [← hf2]
  simp only [htorque, hconv, hg]

/-- The flight software after calls of `UpdateState` with the readings of the list. -/
noncomputable def fswRun (f : Fsw) : List (V4 × V3 × (Fin 4 → ℝ)) → Fsw
  | [] => f
  | (q, ω, v) :: rest => fswRun (f.updateState q ω v).2 rest

/-- C118: over any history of non-zero star tracker readings no call of `UpdateState` fails, the target is
the initial one or the second one, every commanded torque is within the limit, and the mode stays as it was
(`mode_check` is never called). -/
theorem C118_history {f : Fsw} (hI : f.rwInertia ≠ 0) (ht : f.updateTime ≠ 0) (hq : f.qTarget ≠ 0)
    (hm : 0 ≤ f.maxTorque) (h0 : ∀ i, |f.torqueVals i| ≤ f.maxTorque)
    (l : List (V4 × V3 × (Fin 4 → ℝ))) (hl : ∀ r ∈ l, r.1 ≠ 0) :
    SameSetup f (fswRun f l) ∧
    ((fswRun f l).qTarget = f.qTarget ∨ (fswRun f l).qTarget = secondTarget) ∧
    (∀ i, |(fswRun f l).torqueVals i| ≤ f.maxTorque) ∧
    ∀ q ω v, q ≠ 0 → ((fswRun f l).updateState q ω v).1 = .ok () := by
  suffices H : ∀ g : Fsw, SameSetup f g → (g.qTarget = f.qTarget ∨ g.qTarget = secondTarget) →
      (∀ i, |g.torqueVals i| ≤ f.maxTorque) →
      SameSetup f (fswRun g l) ∧
      ((fswRun g l).qTarget = f.qTarget ∨ (fswRun g l).qTarget = secondTarget) ∧
      (∀ i, |(fswRun g l).torqueVals i| ≤ f.maxTorque) ∧
      ∀ q ω v, q ≠ 0 → ((fswRun g l).updateState q ω v).1 = .ok () from
    H f ⟨rfl, rfl, rfl, rfl, rfl, rfl, rfl, rfl⟩ (.inl rfl) h0
  have hne : ∀ g : Fsw, (g.qTarget = f.qTarget ∨ g.qTarget = secondTarget) → g.qTarget ≠ 0 := by
    rintro g (h | h)
    · rw [h]; exact hq
    · rw [h]; exact ne_zero_of_norm secondTarget_norm
  induction l with
  | nil =>
    intro g hs hT hτ
    refine ⟨hs, hT, hτ, fun q ω v hq0 => ?_⟩
    obtain ⟨_, g', _, _, h, _⟩ := updateState_step (by rw [hs.rwInertia]; exact hI)
      (by rw [hs.updateTime]; exact ht) (hne g hT) hq0 ω v
    simp only [fswRun, h]
  | cons r l ih =>
    intro g hs hT hτ
    obtain ⟨q, ω, v⟩ := r
    obtain ⟨_, g', _, _, h, hs', hT', f₀, g₀, hf₀, hc, hv⟩ := updateState_step
      (by rw [hs.rwInertia]; exact hI) (by rw [hs.updateTime]; exact ht) (hne g hT)
      (hl (q, ω, v) (by simp)) ω v
    simp only [fswRun, h]
    refine ih (fun r hr => hl r (by simp [hr])) g' ?_ ?_ ?_
    · exact ⟨hs'.1.trans hs.1, hs'.2.trans hs.2, hs'.3.trans hs.3, hs'.4.trans hs.4, hs'.5.trans hs.5,
        hs'.6.trans hs.6, hs'.7.trans hs.7, hs'.8.trans hs.8⟩
    · rcases hT' with h1 | ⟨h1, -⟩
      · rw [h1]; exact hT
      · exact .inr h1
    · intro i
      rw [← hv]
      have hmx : f₀.maxTorque = f.maxTorque := hf₀.maxTorque.trans hs.maxTorque
      have := C88_limit (by rw [hmx]; exact hm) hc i
      rwa [hmx] at this

/-- C118: the target is changed only when the reading is the same attitude as the target and the rate is zero. -/
theorem C118_switch {f : Fsw} (hI : f.rwInertia ≠ 0) (ht : f.updateTime ≠ 0) (hq : f.qTarget ≠ 0)
    {reading : V4} (hr : reading ≠ 0) (ω : V3) (v : Fin 4 → ℝ)
    (h : (f.updateState reading ω v).2.qTarget ≠ f.qTarget) :
    ω = 0 ∧ ∀ w, Spec.turn (Spec.toHLast ((npNorm f.qTarget)⁻¹ • f.qTarget)) w =
      Spec.turn (Spec.toHLast ((npNorm (toScalarLast reading))⁻¹ • toScalarLast reading)) w := by
  obtain ⟨err, g, he, hen, hu, -, hT, -⟩ := updateState_step hI ht hq hr ω v
  rw [hu] at h
  rcases hT with hT | ⟨-, hT, hω⟩
  · exact absurd hT h
  · refine ⟨hω, ?_⟩
    have hl : toScalarLast reading ≠ 0 := by
      intro h; apply hr
      exact vec4_ext (by simpa [toScalarLast] using congrFun h 3)
        (by simpa [toScalarLast] using congrFun h 0) (by simpa [toScalarLast] using congrFun h 1)
        (by simpa [toScalarLast] using congrFun h 2)
    obtain ⟨r, a, h1, h2, -, -, h3⟩ := C91_error hq hl
    rw [he] at h1
    cases h1
    apply h3.1
    have : errorAngle (f.checkHemi err).1 = errorAngle err := by
      unfold Fsw.checkHemi; split <;> simp [errorAngle]
    rw [this, h2] at hT
    exact Except.ok.inj hT

/-- The example and a history of one reading meet the hypotheses of C118. -/
example : exFsw.rwInertia ≠ 0 ∧ exFsw.updateTime ≠ 0 ∧ exFsw.qTarget ≠ 0 ∧ 0 ≤ exFsw.maxTorque ∧
    (∀ i, |exFsw.torqueVals i| ≤ exFsw.maxTorque) ∧ (![1, 0, 0, 0] : V4) ≠ 0 := by
  refine ⟨by norm_num [exFsw, Fsw.init], by norm_num [exFsw, Fsw.init], ?_, by norm_num [exFsw, Fsw.init],
    fun i => ?_, ?_⟩
  · intro h; have := congrFun h 3; norm_num [exFsw, Fsw.init] at this
  · norm_num [exFsw, Fsw.init]
  · intro h; have := congrFun h 0; norm_num at this

end Adcs
