import Verif.Model.Manager
import Verif.Proofs.ExampleSat
import Verif.Props.MagControl
import Verif.Proofs.AttFilter
import Mathlib.Analysis.Real.Pi.Bounds

set_option autoImplicit false

/-! # Lemmas about the manager and the pair of filters -/

namespace Adcs

open Str Ctl Sens JDay Quat Vec Dyn Man
open scoped Matrix

/-! ## A satellite with four wheels on a pyramid -/

theorem exSat4_built : ∃ sat : Satellite, sat.nMt = 3 ∧ sat.totalMoment.PosDef ∧
    Built sat 2 ![0.1, 0.1, 0.2] 0.8 2.2 ∧
    RWSystem.init (mkWheels (pyramid (Real.pi / 4) 0) (fun _ => 1e-5) (fun _ => 2e-6)) 0.002 false
      = .ok sat.rw := by
  have hs : Real.sin (Real.pi / 4) ≠ 0 := by rw [Real.sin_pi_div_four]; positivity
  have hc : Real.cos (Real.pi / 4) ≠ 0 := by rw [Real.cos_pi_div_four]; positivity
  have ha : ∀ i, npNorm (pyramid (Real.pi / 4) 0 i) = 1 := by
    intro i
    have h1 := Real.sin_sq_add_cos_sq (Real.pi / 4)
    have h2 := Real.sin_sq_add_cos_sq (0 + (i : ℕ) * (Real.pi / 2))
    rw [npNorm_eq_one, Fin.sum_univ_three]
    simp only [pyramid, Matrix.cons_val_zero, Matrix.cons_val_one, cons3_2]
    linear_combination h1 + Real.cos (Real.pi / 4) ^ 2 * h2
  obtain ⟨rw', hrw⟩ := (C39_constructible (pyramid (Real.pi / 4) 0) (fun _ => 1e-5) (fun _ => 2e-6)
    (fun _ => by norm_num) 0.002 false).2 (pyramid_spans _ _ hc hs)
  obtain ⟨sat, h0, h1, -⟩ := C42_inertia (pyramid (Real.pi / 4) 0) (fun _ => 1e-5) (fun _ => 2e-6) ha
    (fun _ => by norm_num) (fun _ => by norm_num) 0.002 false rw' hrw 2 ![0.1, 0.1, 0.2] 0.8 2.2
    ![0.0125, 0.0124, 0.0062] 0 (by intro i; fin_cases i <;> norm_num)
    (fun i : Fin 3 => coil (exAxes i)) []
  obtain ⟨-, -, e⟩ := satInit_eq h0
  refine ⟨sat, ?_, h1, ⟨_, _, _, _, _, _, _, h0⟩, ?_⟩
  · rw [e]
  · rw [e]; exact hrw

theorem exSat4 : ∃ sat : Satellite, sat.nMt = 3 ∧ sat.totalMoment.PosDef ∧
    RWSystem.init (mkWheels (pyramid (Real.pi / 4) 0) (fun _ => 1e-5) (fun _ => 2e-6)) 0.002 false
      = .ok sat.rw := by
  obtain ⟨sat, h1, h2, -, h3⟩ := exSat4_built
  exact ⟨sat, h1, h2, h3⟩

theorem rwInit_n {n : ℕ} {wh : Fin n → Wheel} {maxT : ℝ} {lim : Bool} {s : RWSystem}
    (h : RWSystem.init wh maxT lim = .ok s) : s.n = n := by
  rw [rwInit_eq h]

theorem managerInit_eq {model : CtlModel} {h3 : model.sat.nMt = 3} {c : JClock}
    (hc : model.clock = some c) : ∃ m, Manager.init model h3 = .ok m ∧ m.magCmd = 0 ∧
      m.rwCmd = zeros4 ∧ m.mag.sat = model.sat ∧ m.mag.bangBang = false ∧
      m.rw.clock = c ∧ m.rw.gamma = 2 * 0.707 * 0.1 ∧ m.rw.alpha = 2 * 0.1 ^ 2 := by
  obtain ⟨mag, hmag, hs, hb⟩ : ∃ mag, MagController.init model h3 false = .ok mag ∧
      mag.sat = model.sat ∧ mag.bangBang = false := by
    refine ⟨_, by unfold MagController.init; rw [hc], rfl, rfl⟩
  obtain ⟨rw', hrw, h1, h2, h4⟩ : ∃ r, RwController.init model 0.707 0.1 = .ok r ∧ r.clock = c ∧
      r.gamma = 2 * 0.707 * 0.1 ∧ r.alpha = 2 * 0.1 ^ 2 := by
    refine ⟨_, by unfold RwController.init; rw [hc]; simp only; rw [if_neg (by norm_num)], rfl, rfl, rfl⟩
  unfold Manager.init
  split
  · rename_i e he; rw [hmag] at he; cases he
  · rename_i mag' he
    obtain rfl : mag = mag' := Except.ok.inj (hmag.symm.trans he)
    split
    · rename_i e he'; rw [hrw] at he'; cases he'
    · rename_i r he'
      obtain rfl : rw' = r := Except.ok.inj (hrw.symm.trans he')
      exact ⟨_, rfl, rfl, rfl, hs, hb, h1, h2, h4⟩

/-- A manager with the wheels on the pyramid. -/
theorem exManager : ∃ (model : CtlModel) (h3 : model.sat.nMt = 3) (m : Manager),
    Manager.init model h3 = .ok m ∧ m.mag.sat.rw.n = 4 ∧
    RWSystem.init (mkWheels (pyramid (Real.pi / 4) 0) (fun _ => 1e-5) (fun _ => 2e-6)) 0.002 false
      = .ok m.mag.sat.rw := by
  obtain ⟨sat, h3, -, hrw⟩ := exSat4
  obtain ⟨m, hm, -, -, hs, -⟩ := managerInit_eq (model := ⟨sat, some exClock, none⟩) (h3 := h3) rfl
  refine ⟨_, h3, m, hm, ?_, ?_⟩
  · rw [hs]; exact rwInit_n hrw
  · rw [hs]; exact hrw

/-! ## Spindown -/

/-- The speed of the null motion. -/
noncomputable def nullSpeed (w : Fin 4 → ℝ) : ℝ := (-w 0 + w 1 - w 2 + w 3) / 2

theorem null4_eq : null4 = (1 / 2 : ℝ) • ![-1, 1, -1, 1] := by
  funext i; fin_cases i <;> norm_num [null4]

theorem sum_null4 (w : Fin 4 → ℝ) : ∑ i, w i * null4 i = nullSpeed w := by
  simp [Fin.sum_univ_four, null4, nullSpeed]; ring

theorem npNorm_null4 : npNorm null4 = 1 := by
  rw [npNorm_eq_one, Fin.sum_univ_four]; norm_num [null4]

theorem nullSpeed_add_smul (w v : Fin 4 → ℝ) (t : ℝ) :
    nullSpeed (w + t • v) = nullSpeed w + t * nullSpeed v := by
  simp [nullSpeed]; ring

theorem nullSpeed_null4 : nullSpeed null4 = 1 := by norm_num [nullSpeed, null4]

/-- The command of SPINDOWN. -/
noncomputable def spinCmd (w : Fin 4 → ℝ) : Fin 4 → ℝ :=
  if |nullSpeed w| < 0.00001 then if npNorm w < 0.01 then 0 else (-spinMult) • w
  else (-nullSpeed w) • null4

theorem spindown_four (w : Fin 4 → ℝ) : spindown w = .ok ⟨4, spinCmd w⟩ := by
  have h : npNorm (-nullSpeed w • null4) = |nullSpeed w| := by
    rw [npNorm_smul, npNorm_null4, mul_one, abs_neg]
  simp only [spindown, dif_pos, Fin.cast_eq_self, sum_null4, h, spinCmd, zeros4]
  split_ifs
  · rfl
  · rw [smul_neg, neg_smul]
  · rfl

theorem spindown_cast {n : ℕ} (h : n = 4) (whl : Fin n → ℝ) :
    spindown whl = .ok ⟨4, spinCmd fun i => whl (i.cast h.symm)⟩ := by
  subst h; exact spindown_four whl

theorem spinMult_pos : 0 < spinMult := by unfold spinMult; linarith [kBbq_pos]

theorem spinMult_lt : spinMult < 1 := by
  unfold spinMult kBbq; have := Real.pi_lt_d2; norm_num; linarith

/-- The wheels under the commands of SPINDOWN. -/
noncomputable def spinSeq (dt : ℝ) (w : Fin 4 → ℝ) : ℕ → Fin 4 → ℝ
  | 0 => w
  | k + 1 => spinSeq dt w k + dt • spinCmd (spinSeq dt w k)

theorem npNorm_zero4 : npNorm (0 : Fin 4 → ℝ) = 0 := npNorm_eq_zero.2 rfl

theorem spinSeq_stops {dt : ℝ} (h0 : 0 < dt) (h2 : dt < 2) {w : ℕ → Fin 4 → ℝ}
    (hw : ∀ k, w (k + 1) = w k + dt • spinCmd (w k)) :
    ∃ K, ∀ k ≥ K, spinCmd (w k) = 0 ∧ npNorm (w k) < 0.01 ∧ w k = w K := by
  -- the null motion dies out
  have hc1 : |1 - dt| < 1 := abs_lt.2 ⟨by linarith, by linarith⟩
  obtain ⟨K1, hK1⟩ : ∃ K, |nullSpeed (w K)| < 0.00001 := by
    by_contra hno
    push Not at hno
    have hn : ∀ k, nullSpeed (w k) = (1 - dt) ^ k * nullSpeed (w 0) := by
      intro k
      induction k with
      | zero => simp
      | succ k ih =>
        rw [hw, spinCmd, if_neg (not_lt.2 (hno k)), nullSpeed_add_smul, ← zero_add (_ • null4),
          nullSpeed_add_smul, nullSpeed_null4]
        have : nullSpeed 0 = 0 := by simp [nullSpeed]
        rw [this, ih]; ring
    have ht : Filter.Tendsto (fun k => (1 - dt) ^ k * nullSpeed (w 0)) Filter.atTop (nhds (0 * nullSpeed (w 0))) :=
      (tendsto_pow_atTop_nhds_zero_of_abs_lt_one hc1).mul_const _
    rw [zero_mul] at ht
    obtain ⟨k, hk⟩ := (Metric.tendsto_atTop.1 ht 0.00001 (by norm_num))
    have := hk k le_rfl
    rw [Real.dist_0_eq_abs, ← hn] at this
    exact absurd this (not_lt.2 (hno k))
  -- and stays so
  have hp := spinMult_pos
  have hl := spinMult_lt
  have hc2 : |1 - dt * spinMult| < 1 := abs_lt.2 ⟨by nlinarith, by nlinarith⟩
  have hstep : ∀ k, |nullSpeed (w k)| < 0.00001 → 0.01 ≤ npNorm (w k) →
      w (k + 1) = (1 - dt * spinMult) • w k := by
    intro k h1 h2
    rw [hw, spinCmd, if_pos h1, if_neg (not_lt.2 h2), sub_smul, one_smul, smul_smul]
    rw [sub_eq_add_neg, mul_neg, neg_smul]
  have hnull : ∀ k ≥ K1, |nullSpeed (w k)| < 0.00001 := by
    intro k hk
    induction k, hk using Nat.le_induction with
    | base => exact hK1
    | succ k hk ih =>
      by_cases hs : npNorm (w k) < 0.01
      · rw [hw, spinCmd, if_pos ih, if_pos hs, smul_zero, add_zero]; exact ih
      · rw [hstep k ih (not_lt.1 hs)]
        have : nullSpeed ((1 - dt * spinMult) • w k) = (1 - dt * spinMult) * nullSpeed (w k) := by
          simp [nullSpeed]; ring
        rw [this, abs_mul]
        nlinarith [abs_nonneg (nullSpeed (w k))]
  obtain ⟨K2, hK2, hs2⟩ : ∃ K ≥ K1, npNorm (w K) < 0.01 := by
    by_contra hno
    push Not at hno
    have hn : ∀ j, npNorm (w (K1 + j)) = |1 - dt * spinMult| ^ j * npNorm (w K1) := by
      intro j
      induction j with
      | zero => simp
      | succ j ih =>
        rw [← add_assoc, hstep _ (hnull _ (by omega)) (hno _ (by omega)), npNorm_smul, ih]; ring
    have ht : Filter.Tendsto (fun j => |1 - dt * spinMult| ^ j * npNorm (w K1)) Filter.atTop
        (nhds (0 * npNorm (w K1))) :=
      (tendsto_pow_atTop_nhds_zero_of_abs_lt_one (by rwa [abs_abs])).mul_const _
    rw [zero_mul] at ht
    obtain ⟨j, hj⟩ := (Metric.tendsto_atTop.1 ht 0.01 (by norm_num))
    have := hj j le_rfl
    rw [Real.dist_0_eq_abs, ← hn, abs_of_nonneg (npNorm_nonneg _)] at this
    exact absurd this (not_lt.2 (hno _ (by omega)))
  have hrest : ∀ k ≥ K2, npNorm (w k) < 0.01 ∧ w k = w K2 := by
    intro k hk
    induction k, hk using Nat.le_induction with
    | base => exact ⟨hs2, rfl⟩
    | succ k hk ih =>
      have : w (k + 1) = w k := by
        rw [hw, spinCmd, if_pos (hnull k (by omega)), if_pos ih.1, smul_zero, add_zero]
      rw [this]; exact ih
  refine ⟨K2, fun k hk => ⟨?_, (hrest k hk).1, (hrest k hk).2⟩⟩
  rw [spinCmd, if_pos (hnull k (by omega)), if_pos (hrest k hk).1]

/-! ## The loop of the attitude filter -/

theorem due_iff {t duration : ℝ} : due t duration ↔ t < duration + 0.001 := by
  unfold due
  rw [abs_lt]
  constructor
  · rintro (h | h) <;> linarith
  · intro h
    by_cases h' : t < duration
    · exact .inl h'
    · exact .inr ⟨by linarith, by linarith⟩

theorem attLoop_iterate {w : V3} {dt D : ℝ} {t : ℝ} {a a' : Obs.Att.Kalman}
    (h : AttLoop w dt D t a a') : ∃ N : ℕ, a' = (fun k => k.propagate w dt)^[N] a ∧
      (∀ j < N, t + j * dt < D + 0.001) ∧ D + 0.001 ≤ t + N * dt := by
  induction h with
  | stop h =>
    refine ⟨0, rfl, by simp, ?_⟩
    rw [due_iff] at h; push_cast; linarith [not_lt.1 h]
  | step h _ ih =>
    obtain ⟨N, e, h1, h2⟩ := ih
    refine ⟨N + 1, by rw [e]; rfl, ?_, ?_⟩
    · intro j hj
      rcases j with _ | j
      · simpa using due_iff.1 h
      · have := h1 j (by omega); push_cast; linarith
    · push_cast; linarith

theorem attLoop_total {w : V3} {dt D : ℝ} (hdt : 0 < dt) (t : ℝ) (a : Obs.Att.Kalman) :
    ∃ a', AttLoop w dt D t a a' := by
  obtain ⟨N, hN⟩ := exists_nat_gt ((D + 0.001 - t) / dt)
  rw [div_lt_iff₀ hdt] at hN
  induction N generalizing t a with
  | zero =>
    refine ⟨a, .stop ?_⟩
    rw [due_iff]; push_cast at hN; linarith
  | succ N ih =>
    by_cases h : due t D
    · obtain ⟨a', h'⟩ := ih (t + dt) (a.propagate w dt) (by push_cast at hN; linarith)
      exact ⟨a', .step h h'⟩
    · exact ⟨a, .stop h⟩

/-- The variance of the bias grows by the same amount in every step. -/
theorem biasVariance_step (k : Obs.Att.Kalman) (w : V3) (dt : ℝ) :
    (k.propagate w dt).P (.inr 0) (.inr 0) = k.P (.inr 0) (.inr 0) + Obs.Att.driftVar * dt := by
  have hP : k.P = Matrix.fromBlocks k.P.toBlocks₁₁ k.P.toBlocks₁₂ k.P.toBlocks₂₁ k.P.toBlocks₂₂ :=
    (Matrix.fromBlocks_toBlocks _).symm
  have : k.P (.inr 0) (.inr 0) = k.P.toBlocks₂₂ 0 0 := rfl
  rw [this]
  simp only [Obs.Att.Kalman.propagate, Obs.Att.phi, Obs.Att.G, Obs.Att.processNoise]
  rw [hP]
  simp only [Matrix.fromBlocks_transpose, Matrix.fromBlocks_multiply, Matrix.toBlocks_fromBlocks₂₂]
  simp

end Adcs
