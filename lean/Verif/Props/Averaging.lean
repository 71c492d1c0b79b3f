import Verif.Proofs.Averaging
import Verif.Props.PosFilter
import Verif.Props.Height
import Verif.Props.AttFilter
import Mathlib.Topology.Instances.Matrix
import Mathlib.Topology.Algebra.Order.Field
import Mathlib.Algebra.BigOperators.Group.List.Basic
import Mathlib.Analysis.SpecificLimits.Basic

set_option autoImplicit false

/-! # C124–C126: filters average their measurements -/

namespace Adcs

open Spec Vec Dyn JDay Fr Obs Obs.Pos
open scoped Matrix

/-- Updates of the position filter with these readings of position and velocity. -/
def readings (l : List (V3 × V3)) : List PosEvent := l.map fun y => .update y.1 y.2

theorem pos_gain (P : M6) : P * (P + Pos.R)⁻¹ = kgain P Pos.R 1 := by
  simp [kgain, innov, add_comm]

/-- Estimate and covariance after a list of updates. -/
theorem posRun_readings {n : ℕ} {P0 : M6} (hP : Covariance P0) (x0 : I6 → ℝ) (l : List (V3 × V3)) :
    ∀ (N : ℕ) (D : I6 → ℝ) (k : Pos.Kalman n), k.P = kpostN P0 Pos.R 1 N →
      k.x = x0 + (P0 * (innovN P0 Pos.R 1 N)⁻¹) *ᵥ D → (posRun k (readings l)).1 = .ok () →
      (posRun k (readings l)).2.P = kpostN P0 Pos.R 1 (N + l.length) ∧
      (posRun k (readings l)).2.x = x0 + (P0 * (innovN P0 Pos.R 1 (N + l.length))⁻¹) *ᵥ
        (D + (l.map fun y => Sum.elim y.1 y.2 - x0).sum) := by
  induction l with
  | nil => intro N D k h1 h2 _; simpa [readings, posRun] using ⟨h1, h2⟩
  | cons y l ih =>
    intro N D k h1 h2 h
    have hk : Covariance k.P := by rw [h1]; exact kpostN_cov hP posR_strict N
    obtain ⟨-, e2, e3, -⟩ := posUpdate_eq hk y.1 y.2
    have hs := kpostN_succ (H := (1 : M6)) hP posR_strict N (h1 ▸ hk)
    rw [h1, hs.2] at e2
    rw [pos_gain, h1, hs.1, h2, Matrix.transpose_one, Matrix.mul_one] at e3
    have e3' : (k.update y.1 y.2).2.x
        = x0 + (P0 * (innovN P0 Pos.R 1 (N + 1))⁻¹) *ᵥ (D + (Sum.elim y.1 y.2 - x0)) := by
      rw [e3]
      have hi := innovN_inv (H := (1 : M6)) hP posR_strict N
      rw [Matrix.transpose_one, Matrix.mul_one, Matrix.one_mul] at hi
      have hi' : P0 * (innovN P0 Pos.R 1 N)⁻¹ = P0 * (innovN P0 Pos.R 1 (N + 1))⁻¹
          + P0 * (innovN P0 Pos.R 1 (N + 1))⁻¹ * (P0 * (innovN P0 Pos.R 1 N)⁻¹) := by
        conv_lhs => rw [hi]
        rw [Matrix.mul_add]
        simp only [Matrix.mul_assoc]
      have hd := congrArg (· *ᵥ D) hi'
      simp only [Matrix.add_mulVec, ← Matrix.mulVec_mulVec] at hd
      simp only [Matrix.mulVec_add, Matrix.mulVec_sub, ← Matrix.mulVec_mulVec]
      linear_combination hd
    simp only [readings, List.map_cons, posRun, PosEvent.apply] at h ⊢
    rcases hu : k.update y.1 y.2 with ⟨r, k'⟩
    rw [hu] at e2 e3'
    cases r with
    | error e => rw [hu] at h; simp at h
    | ok u =>
      rw [hu] at h
      obtain ⟨i1, i2⟩ := ih (N + 1) _ k' e2 e3' h
      have hl : N + 1 + l.length = N + (l.length + 1) := by ring
      rw [List.length_cons, List.sum_cons, ← hl, ← add_assoc]
      exact ⟨i1, i2⟩

theorem posRun_readings' {n : ℕ} {k : Pos.Kalman n} (hP : Covariance k.P) {l : List (V3 × V3)}
    (h : (posRun k (readings l)).1 = .ok ()) :
    (posRun k (readings l)).2.P = kpostN k.P Pos.R 1 l.length ∧
    (posRun k (readings l)).2.x = k.x + (k.P * (innovN k.P Pos.R 1 l.length)⁻¹) *ᵥ
      (l.map fun y => Sum.elim y.1 y.2 - k.x).sum := by
  have := posRun_readings hP k.x l 0 0 k (kpostN_zero).symm (by simp) h
  simpa using this

/-! ## C124 -/

/-- A weighted mean of an initial value and readings. -/
noncomputable def wmean (w x0 : ℝ) (ys : List ℝ) : ℝ := (w * x0 + ys.sum) / (w + ys.length)

theorem list_sum_apply (l : List (I6 → ℝ)) (i : I6) : l.sum i = (l.map fun f => f i).sum := by
  induction l with
  | nil => rfl
  | cons a l ih => simp [ih]

theorem sum_sub_const (l : List (V3 × V3)) (f : V3 × V3 → ℝ) (c : ℝ) :
    (l.map fun y => f y - c).sum = (l.map f).sum - l.length * c := by
  induction l with
  | nil => simp
  | cons a l ih => simp only [List.map_cons, List.sum_cons, ih, List.length_cons]; push_cast; ring

theorem init_innov {n : ℕ} (mu : ℝ) (s : SatState n) (N : ℕ) :
    innovN (Pos.init mu s).P Pos.R 1 N = Matrix.diagonal
      (fun i => Sum.elim (fun _ => 10.0598 ^ 2) (fun _ => 0.52038 ^ 2) i + (N : ℝ)) := by
  have : innovN (Pos.init mu s).P Pos.R 1 N = Pos.R + (N : ℝ) • (1 : M6) := by
    simp [innovN, Pos.init]
  rw [this, Pos.R, ← Matrix.diagonal_one, ← Matrix.diagonal_smul, Matrix.diagonal_add]
  congr 1
  funext i
  simp

theorem init_pos (N : ℕ) (i : I6) :
    (0 : ℝ) < Sum.elim (fun _ : Fin 3 => (10.0598 : ℝ) ^ 2) (fun _ : Fin 3 => 0.52038 ^ 2) i + N := by
  rcases i with i | i <;> simp only [Sum.elim_inl, Sum.elim_inr] <;> positivity

theorem init_inv {n : ℕ} (mu : ℝ) (s : SatState n) (N : ℕ) :
    (innovN (Pos.init mu s).P Pos.R 1 N)⁻¹ = Matrix.diagonal
      (fun i => (Sum.elim (fun _ => 10.0598 ^ 2) (fun _ => 0.52038 ^ 2) i + (N : ℝ))⁻¹) := by
  rw [init_innov]
  refine Matrix.inv_eq_right_inv ?_
  rw [Matrix.diagonal_mul_diagonal, ← Matrix.diagonal_one]
  congr 1
  funext i
  exact mul_inv_cancel₀ (init_pos N i).ne'

theorem init_cov {n : ℕ} (mu : ℝ) (s : SatState n) : Covariance (Pos.init mu s).P :=
  (C85_history mu s []).1

/-- C124: a new filter fed any number of readings holds, on every axis, the mean of the readings and
of its initial state, the initial state weighing as much as a reading times the sensor's variance. -/
theorem C124_mean {n : ℕ} (mu : ℝ) (s : SatState n) (l : List (V3 × V3)) (k : Pos.Kalman n)
    (h : posRun (Pos.init mu s) (readings l) = (.ok (), k)) (i : Fin 3) :
    k.output.1 i = wmean (10.0598 ^ 2) (s.attrs.position i) (l.map fun y => y.1 i) ∧
    k.output.2 i = wmean (0.52038 ^ 2) (s.attrs.velocity i) (l.map fun y => y.2 i) := by
  obtain ⟨-, h2⟩ := posRun_readings' (init_cov mu s) (l := l) (by rw [h])
  rw [h, init_inv] at h2
  have hx : ∀ j, k.x j = (Pos.init mu s).x j
      + (Sum.elim (fun _ => 10.0598 ^ 2) (fun _ => 0.52038 ^ 2) j + (l.length : ℝ))⁻¹
        * ((l.map fun y => Sum.elim y.1 y.2 j).sum - l.length * (Pos.init mu s).x j) := by
    intro j
    have := congrFun h2 j
    simp only at this
    rw [this, Pi.add_apply, show (Pos.init mu s).P = 1 from rfl, Matrix.one_mul,
      Matrix.mulVec_diagonal, list_sum_apply, List.map_map,
      ← sum_sub_const l (fun y => Sum.elim y.1 y.2 j) ((Pos.init mu s).x j)]
    rfl
  have h1 := hx (.inl i)
  have h2 := hx (.inr i)
  have p1 := (init_pos l.length (.inl i)).ne'
  have p2 := (init_pos l.length (.inr i)).ne'
  simp only [Sum.elim_inl, Sum.elim_inr, Pos.init] at h1 h2 p1 p2
  simp only [Kalman.output, Function.comp_apply, wmean, List.length_map, h1, h2]
  constructor
  · field_simp; ring
  · field_simp; ring

/-- C124: its covariance is then diagonal, with the variance of that mean. -/
theorem C124_variance {n : ℕ} (mu : ℝ) (s : SatState n) (l : List (V3 × V3)) (k : Pos.Kalman n)
    (h : posRun (Pos.init mu s) (readings l) = (.ok (), k)) :
    k.P = Matrix.diagonal (Sum.elim (fun _ => 10.0598 ^ 2 / (10.0598 ^ 2 + (l.length : ℝ)))
      fun _ => 0.52038 ^ 2 / (0.52038 ^ 2 + (l.length : ℝ))) := by
  obtain ⟨h1, -⟩ := posRun_readings' (init_cov mu s) (l := l) (by rw [h])
  rw [h] at h1
  rw [h1, kpostN, init_inv, show (Pos.init mu s).P = 1 from rfl, Matrix.transpose_one,
    Matrix.one_mul, Matrix.one_mul, Matrix.mul_one, ← Matrix.diagonal_smul, ← Matrix.diagonal_one,
    Matrix.diagonal_sub]
  congr 1
  funext i
  have p := (init_pos l.length i).ne'
  rcases i with i | i <;> simp only [Sum.elim_inl, Sum.elim_inr, Pi.smul_apply, smul_eq_mul] at p ⊢ <;>
    field_simp <;> ring

/-- C124: from any covariance, `N` readings leave at most an `N`th of the variance of one. -/
theorem C124_bound {n : ℕ} (k : Pos.Kalman n) (hP : Covariance k.P) (l : List (V3 × V3)) (hl : l ≠ [])
    (h : (posRun k (readings l)).1 = .ok ()) :
    NoLarger (posRun k (readings l)).2.P
      (Matrix.diagonal (Sum.elim (fun _ => 10.0598 ^ 2 / (l.length : ℝ))
        fun _ => 0.52038 ^ 2 / (l.length : ℝ))) := by
  obtain ⟨h1, -⟩ := posRun_readings' hP h
  have hN := kpostN_noLarger (H := (1 : M6)) hP posR_strict l.length (List.length_pos_iff.2 hl)
  rw [Matrix.transpose_one, Matrix.one_mul, Matrix.mul_one, ← h1] at hN
  have e : (l.length : ℝ)⁻¹ • Pos.R = Matrix.diagonal (Sum.elim (fun _ => 10.0598 ^ 2 / (l.length : ℝ))
      fun _ => 0.52038 ^ 2 / (l.length : ℝ)) := by
    rw [Pos.R, ← Matrix.diagonal_smul]
    congr 1
    funext i
    rcases i with i | i <;> simp [div_eq_inv_mul]
  rw [← e]
  exact hN

/-- C124: from any covariance, the order of the readings does not matter. -/
theorem C124_order {n : ℕ} (k : Pos.Kalman n) (hP : Covariance k.P) (l l' : List (V3 × V3))
    (hl : l.Perm l') (h : (posRun k (readings l)).1 = .ok ()) (h' : (posRun k (readings l')).1 = .ok ()) :
    (posRun k (readings l)).2.output = (posRun k (readings l')).2.output ∧
    (posRun k (readings l)).2.P = (posRun k (readings l')).2.P := by
  obtain ⟨h1, h2⟩ := posRun_readings' hP h
  obtain ⟨h1', h2'⟩ := posRun_readings' hP h'
  have hx : (posRun k (readings l)).2.x = (posRun k (readings l')).2.x := by
    rw [h2, h2', hl.length_eq, (hl.map _).sum_eq]
  exact ⟨by simp only [Kalman.output, hx], by rw [h1, h1', hl.length_eq]⟩

/-! ## C125 -/

theorem dot_le_norm {u x : V3} (hu : npNorm u = 1) : npDot u x ≤ npNorm x := by
  have h1 := npNorm3_sq u
  have h2 := npNorm3_sq x
  rw [hu] at h1
  rw [npDot3]
  have : (u 0 * x 0 + u 1 * x 1 + u 2 * x 2) ^ 2 ≤ npNorm x ^ 2 := by
    nlinarith [sq_nonneg (u 0 * x 1 - u 1 * x 0), sq_nonneg (u 0 * x 2 - u 2 * x 0),
      sq_nonneg (u 1 * x 2 - u 2 * x 1)]
  exact abs_le_of_sq_le_sq' this (npNorm_nonneg x) |>.2

/-- C125: no reading makes a new filter raise if its initial position and all readings are on the same
side of the Earth: beyond a plane 6300 km from its centre. -/
theorem C125_runs {n : ℕ} (mu : ℝ) (s : SatState n) (hc : s.clock ≠ none) (u : V3) (hu : npNorm u = 1)
    (l : List (V3 × V3)) (h0 : 6.3e6 ≤ npDot u s.attrs.position)
    (hl : ∀ y ∈ l, 6.3e6 ≤ npDot u y.1) : (posRun (Pos.init mu s) (readings l)).1 = .ok () := by
  have key : ∀ (N : ℕ) (k : Pos.Kalman n), k.P = kpostN (Pos.init mu s).P Pos.R 1 N →
      k.state.clock ≠ none → 6.3e6 ≤ npDot u k.output.1 → (posRun k (readings l)).1 = .ok () := by
    induction l with
    | nil => intro N k _ _ _; rfl
    | cons y l ih =>
      intro N k hP hk hd
      have hcov : Covariance k.P := by rw [hP]; exact kpostN_cov (init_cov mu s) posR_strict N
      obtain ⟨e1, e2, e3, -, e5, -⟩ := posUpdate_eq hcov y.1 y.2
      have hs := kpostN_succ (H := (1 : M6)) (init_cov mu s) posR_strict N (hP ▸ hcov)
      have hx : ∀ i, (k.update y.1 y.2).2.x (.inl i)
          = k.x (.inl i) + (10.0598 ^ 2 + ((N : ℝ) + 1))⁻¹ * (y.1 i - k.x (.inl i)) := by
        intro i
        rw [e3, pos_gain, hP, hs.1, init_inv, show (Pos.init mu s).P = 1 from rfl,
          Matrix.transpose_one, Matrix.one_mul, Matrix.one_mul, Pi.add_apply, Matrix.mulVec_diagonal]
        simp
      have hκ : 0 ≤ (10.0598 ^ 2 + ((N : ℝ) + 1))⁻¹ ∧ (10.0598 ^ 2 + ((N : ℝ) + 1))⁻¹ ≤ 1 := by
        have : (1 : ℝ) ≤ 10.0598 ^ 2 + ((N : ℝ) + 1) := by
          have : (0 : ℝ) ≤ N := Nat.cast_nonneg N
          nlinarith
        exact ⟨by positivity, inv_le_one_of_one_le₀ this⟩
      have hd' : 6.3e6 ≤ npDot u (k.update y.1 y.2).2.output.1 := by
        have hy := hl y List.mem_cons_self
        generalize (10.0598 ^ 2 + ((N : ℝ) + 1))⁻¹ = κ at *
        have : npDot u (k.update y.1 y.2).2.output.1
            = (1 - κ) * npDot u k.output.1 + κ * npDot u y.1 := by
          simp only [npDot3, Kalman.output, Function.comp_apply, hx]; ring
        rw [this]
        nlinarith [mul_le_mul_of_nonneg_left hd (sub_nonneg.2 hκ.2),
          mul_le_mul_of_nonneg_left hy hκ.1]
      have hw : (posWritten k y.1 y.2).arr.pos = (k.update y.1 y.2).2.output.1 := by
        simp only [Kalman.output, e3]; rfl
      obtain ⟨s', hs'⟩ := C127_update (posWritten k y.1 y.2) hk
        (by rw [hw]; exact hd'.trans (dot_le_norm hu))
      have hok : (k.update y.1 y.2).1 = .ok () := by rw [e1, hs']; rfl
      have hclk : (k.update y.1 y.2).2.state.clock ≠ none := by
        rw [(C86_written k hcov y.1 y.2).2.2.2.2.1]; exact hk
      rw [hP, hs.2] at e2
      simp only [readings, List.map_cons, posRun, PosEvent.apply]
      rcases hu' : k.update y.1 y.2 with ⟨r, k'⟩
      rw [hu'] at e2 hok hclk hd'
      simp only at hok
      subst hok
      exact ih (fun y hy => hl y (List.mem_cons_of_mem _ hy)) (N + 1) k' e2 hclk hd'
  exact key 0 _ kpostN_zero.symm hc h0

/-- Readings on both sides of a position, none equal to it, meet the hypotheses of C124 and C125. -/
example : ∃ s : SatState 4, SatState.new (exRaw 4) (some exClock) = .ok s ∧
    ∃ k, posRun (Pos.init 3.986e14 s) (readings [(![6810000, 1000, 0], ![0, 7600, 0]),
      (![6790000, 0, -2000], ![1, 7600, 3]), (![6795000, 0, 500], 0)]) = (.ok (), k) := by
  obtain ⟨s, hs, -⟩ := exState 4
  obtain ⟨c, lat, long, h', hc, -, he⟩ := mkState_ok.1 hs
  refine ⟨s, hs, _, Prod.ext (C125_runs _ s ?_ ![1, 0, 0] (npNorm_vec3 (by norm_num)) _ ?_ ?_) rfl⟩
  · rw [he]; simp
  · rw [he]; norm_num [npDot3, exRaw]
  · norm_num [npDot3]

theorem tendsto_cont {X Y : Type} [TopologicalSpace X] [TopologicalSpace Y] {f : X → Y}
    (hf : Continuous f) {g : ℕ → X} {x : X} (h : Filter.Tendsto g Filter.atTop (nhds x)) :
    Filter.Tendsto (fun N => f (g N)) Filter.atTop (nhds (f x)) := (hf.tendsto x).comp h

theorem innovN_inv_tendsto {P R : M6} (hP : StrictCovariance P) :
    Filter.Tendsto (fun N : ℕ => (innovN P R 1 N)⁻¹) Filter.atTop (nhds 0) := by
  have hcont : Filter.Tendsto (fun N : ℕ => ((N : ℝ)⁻¹) • (P + (N : ℝ)⁻¹ • R)⁻¹) Filter.atTop
      (nhds ((0 : ℝ) • P⁻¹)) := by
    have h0 : Filter.Tendsto (fun N : ℕ => ((N : ℝ)⁻¹)) Filter.atTop (nhds 0) :=
      tendsto_inv_atTop_nhds_zero_nat
    have h1 : Filter.Tendsto (fun N : ℕ => P + (N : ℝ)⁻¹ • R) Filter.atTop (nhds P) := by
      have := (h0.smul_const R).const_add P
      rw [zero_smul, add_zero] at this
      exact this
    have hdet : Continuous fun M : M6 => M.det := Continuous.matrix_det continuous_id
    have hadj : Continuous fun M : M6 => M.adjugate := Continuous.matrix_adjugate continuous_id
    have hd : Filter.Tendsto (fun N : ℕ => (P + (N : ℝ)⁻¹ • R).det) Filter.atTop (nhds P.det) :=
      tendsto_cont hdet h1
    have ha : Filter.Tendsto (fun N : ℕ => (P + (N : ℝ)⁻¹ • R).adjugate) Filter.atTop (nhds P.adjugate) :=
      tendsto_cont hadj h1
    have hi : Filter.Tendsto (fun N : ℕ => (P + (N : ℝ)⁻¹ • R)⁻¹) Filter.atTop (nhds P⁻¹) := by
      simp only [Matrix.inv_def, Ring.inverse_eq_inv']
      exact (hd.inv₀ hP.det_ne).smul ha
    exact h0.smul hi
  rw [zero_smul] at hcont
  refine hcont.congr' ?_
  filter_upwards [Filter.eventually_gt_atTop 0] with N hN
  have hN' : (N : ℝ) ≠ 0 := by exact_mod_cast hN.ne'
  have hi : innovN P R 1 N = (N : ℝ) • (P + (N : ℝ)⁻¹ • R) := by
    rw [innovN, smul_add, smul_smul, mul_inv_cancel₀ hN', one_smul, Matrix.transpose_one, Matrix.mul_one,
      Matrix.one_mul, add_comm]
  rw [hi]
  simp only [Matrix.inv_def, Ring.inverse_eq_inv', Matrix.det_smul, Matrix.adjugate_smul, smul_smul]
  congr 1
  have hc : Fintype.card I6 = 6 := rfl
  rw [hc, mul_inv]
  field_simp

/-- C125: repeated readings of the same position and velocity bring the estimate there, from any
covariance that is positive in every direction. -/
theorem C125_converges {n : ℕ} (k : Pos.Kalman n) (hP : StrictCovariance k.P) (x v : V3)
    (h : ∀ N, (posRun k (readings (List.replicate N (x, v)))).1 = .ok ()) :
    Filter.Tendsto (fun N => (posRun k (readings (List.replicate N (x, v)))).2.output) Filter.atTop
      (nhds (x, v)) := by
  set d : I6 → ℝ := Sum.elim x v - k.x with hd
  have e : ∀ N, (posRun k (readings (List.replicate N (x, v)))).2.x
      = Sum.elim x v - (Pos.R * (innovN k.P Pos.R 1 N)⁻¹) *ᵥ d := by
    intro N
    obtain ⟨-, h2⟩ := posRun_readings' hP.weaken (h N)
    rw [List.length_replicate, List.map_replicate, List.sum_replicate] at h2
    rw [h2]
    have hM := Matrix.mul_nonsing_inv _ (innovN_unit (H := (1 : M6)) hP.weaken posR_strict N)
    have : Pos.R * (innovN k.P Pos.R 1 N)⁻¹ = 1 - (N : ℝ) • (k.P * (innovN k.P Pos.R 1 N)⁻¹) := by
      have hR : Pos.R = innovN k.P Pos.R 1 N - (N : ℝ) • k.P := by simp [innovN]
      calc Pos.R * (innovN k.P Pos.R 1 N)⁻¹
          = (innovN k.P Pos.R 1 N - (N : ℝ) • k.P) * (innovN k.P Pos.R 1 N)⁻¹ := by rw [← hR]
        _ = _ := by rw [Matrix.sub_mul, hM, Matrix.smul_mul]
    rw [this, Matrix.sub_mulVec, Matrix.one_mulVec, Matrix.smul_mulVec, ← hd, ← Nat.cast_smul_eq_nsmul ℝ,
      Matrix.mulVec_smul, hd]
    abel
  have hx : Filter.Tendsto (fun N => (posRun k (readings (List.replicate N (x, v)))).2.x) Filter.atTop
      (nhds (Sum.elim x v)) := by
    simp only [e]
    have h1 := innovN_inv_tendsto (R := Pos.R) hP
    have h2 : Filter.Tendsto (fun N => (Pos.R * (innovN k.P Pos.R 1 N)⁻¹) *ᵥ d) Filter.atTop (nhds 0) := by
      have hc : Continuous fun M : M6 => (Pos.R * M) *ᵥ d :=
        (continuous_const.matrix_mul continuous_id).matrix_mulVec continuous_const
      have := (hc.tendsto 0).comp h1
      rw [Matrix.mul_zero, Matrix.zero_mulVec] at this
      exact this
    simpa using h2.const_sub (Sum.elim x v)
  rw [nhds_prod_eq]
  refine Filter.Tendsto.prodMk ?_ ?_ <;> rw [tendsto_pi_nhds] at * <;> intro i
  · exact hx (.inl i)
  · exact hx (.inr i)

/-- C125: for a new filter the error after `N` equal readings is the initial one times
`σ² / (σ² + N)`: for the position, 10 000 readings leave more than a hundredth of it. -/
theorem C125_rate {n : ℕ} (mu : ℝ) (s : SatState n) (x v : V3) (N : ℕ) (k : Pos.Kalman n)
    (h : posRun (Pos.init mu s) (readings (List.replicate N (x, v))) = (.ok (), k)) (i : Fin 3) :
    k.output.1 i - x i = 10.0598 ^ 2 / (10.0598 ^ 2 + N) * (s.attrs.position i - x i) ∧
    (N ≤ 10000 → 1 / 100 * |s.attrs.position i - x i| ≤ |k.output.1 i - x i|) := by
  have e : k.output.1 i - x i = 10.0598 ^ 2 / (10.0598 ^ 2 + N) * (s.attrs.position i - x i) := by
    rw [(C124_mean mu s _ k h i).1, wmean]
    have hp : (10.0598 : ℝ) ^ 2 + N ≠ 0 := by positivity
    simp only [List.map_replicate, List.sum_replicate, List.length_replicate, nsmul_eq_mul]
    field_simp
    ring
  refine ⟨e, fun hN => ?_⟩
  rw [e, abs_mul]
  refine mul_le_mul_of_nonneg_right ?_ (abs_nonneg _)
  have hN' : (N : ℝ) ≤ 10000 := by exact_mod_cast hN
  rw [abs_of_nonneg (by positivity), le_div_iff₀ (by positivity)]
  have h1 : (101.2 : ℝ) - 0.1 ≤ 10.0598 ^ 2 := by norm_num
  linarith

/-- The hypotheses are met by a reading 10 km away from the initial position, repeated any number of
times. -/
example : ∃ s : SatState 4, SatState.new (exRaw 4) (some exClock) = .ok s ∧
    StrictCovariance (Pos.init 3.986e14 s).P ∧
    ∀ N, (posRun (Pos.init 3.986e14 s) (readings (List.replicate N
      (![6810000, 0, 0], ![0, 7600, 0])))).1 = .ok () := by
  obtain ⟨s, hs, -⟩ := exState 4
  obtain ⟨c, lat, long, h', hc, -, he⟩ := mkState_ok.1 hs
  refine ⟨s, hs, ?_, fun N => C125_runs _ s ?_ ![1, 0, 0] (npNorm_vec3 (by norm_num)) _ ?_ ?_⟩
  · rw [show (Pos.init 3.986e14 s).P = Matrix.diagonal fun _ => 1 from Matrix.diagonal_one.symm]
    exact StrictCovariance.diagonal fun _ => one_pos
  · rw [he]; simp
  · rw [he]; norm_num [npDot3, exRaw]
  · intro y hy
    rw [List.eq_of_mem_replicate hy]; norm_num [npDot3]

/-! ## C126 -/

/-- Measurements of the attitude filter with these star tracker readings. -/
def starReadings (l : List V4) : List AttEvent := l.map .measurement

theorem attRun_readings {P0 : M6} (hP : Covariance P0) (l : List V4) :
    ∀ (N : ℕ) (k : Att.Kalman), k.P = kpostN P0 Att.R obsH N →
      ∃ k', attRun k (starReadings l) = .ok k' ∧ k'.P = kpostN P0 Att.R obsH (N + l.length) := by
  induction l with
  | nil => intro N k h; exact ⟨k, rfl, h⟩
  | cons y l ih =>
    intro N k h
    have hk : Covariance k.P := by rw [h]; exact kpostN_cov hP attR_strict N
    have hs := (kpostN_succ (H := obsH) hP attR_strict N (h ▸ hk)).2
    obtain ⟨k₁, hm, hk₁⟩ : ∃ k₁, k.measurement y = .ok k₁ ∧ k₁.P = kpost k.P Att.R obsH :=
      ⟨_, measurement_eq hk y, rfl⟩
    simp only [starReadings, List.map_cons, attRun, AttEvent.apply, hm]
    obtain ⟨k', h1, h2⟩ := ih (N + 1) k₁ (by rw [hk₁, h]; exact hs)
    refine ⟨k', h1, ?_⟩
    rw [h2, List.length_cons, Nat.add_assoc, Nat.add_comm 1]

/-- C126: `N` star tracker readings in a row never raise; they leave at most an `N`th of the sensor's
variance in the attitude, whatever the covariance was before and whatever was read, and the
covariance that is left depends only on how many there were. -/
theorem C126_bound (k : Att.Kalman) (hP : Covariance k.P) (l l' : List V4) (hl : l ≠ [])
    (hl' : l.length = l'.length) :
    ∃ k₁ k₂, attRun k (starReadings l) = .ok k₁ ∧ attRun k (starReadings l') = .ok k₂ ∧ k₁.P = k₂.P ∧
      Covariance k₁.P ∧ NoLarger k₁.P k.P ∧
      NoLarger k₁.P.toBlocks₁₁ (Matrix.diagonal fun _ : Fin 3 => (0.75e-7 : ℝ) ^ 2 / (l.length : ℝ)) := by
  obtain ⟨k₁, h1, e1⟩ := attRun_readings hP l 0 k kpostN_zero.symm
  obtain ⟨k₂, h2, e2⟩ := attRun_readings hP l' 0 k kpostN_zero.symm
  rw [Nat.zero_add] at e1 e2
  have hpos := List.length_pos_iff.2 hl
  refine ⟨k₁, k₂, h1, h2, by rw [e1, e2, hl'], by rw [e1]; exact kpostN_cov hP attR_strict _, ?_, ?_⟩
  · rw [e1, kpostN_eq _ hpos]
    exact kpost_noLarger hP (attR_strict.smul (by positivity))
  · have := kpostN_noLarger (H := obsH) hP attR_strict l.length hpos
    rw [obsH_P] at this
    rw [e1]
    have e : (l.length : ℝ)⁻¹ • Att.R
        = Matrix.diagonal fun _ : Fin 3 => (0.75e-7 : ℝ) ^ 2 / (l.length : ℝ) := by
      rw [Att.R, ← Matrix.diagonal_smul]
      congr 1
      funext i
      simp only [Pi.smul_apply, smul_eq_mul, Att.sensorSigma, div_eq_inv_mul]
    rw [← e]
    exact this

example : Covariance (Att.init ![1, 0, 0, 0]).P ∧ [![1, 0, 0, 0], ![0.6, 0.8, 0, 0]] ≠ ([] : List V4) :=
  ⟨(init_strict _).weaken, by simp⟩

/-- C126: readings without a propagation in between say nothing about the bias: a new filter fed any
number of them still has a zero bias with its initial variance, and `1/(N+1)` of its initial attitude
variance. -/
theorem C126_bias (q0 : V4) (l : List V4) : ∃ k, attRun (Att.init q0) (starReadings l) = .ok k ∧
    k.b = 0 ∧ k.P = Matrix.fromBlocks
      (Matrix.diagonal fun _ => (0.75e-7 : ℝ) ^ 2 / ((l.length : ℝ) + 1)) 0 0
      (Matrix.diagonal fun _ => (3.15e-5 : ℝ) ^ 2) := by
  have key : ∀ (N : ℕ) (k : Att.Kalman), k.b = 0 → k.dq = 0 →
      k.P = Matrix.fromBlocks ((Att.sensorSigma ^ 2 / ((N : ℝ) + 1)) • 1) 0 0
        ((Att.initialBias ^ 2) • 1) →
      ∃ k', attRun k (starReadings l) = .ok k' ∧ k'.b = 0 ∧ k'.P = Matrix.fromBlocks
        ((Att.sensorSigma ^ 2 / (((N + l.length : ℕ) : ℝ) + 1)) • 1) 0 0
        ((Att.initialBias ^ 2) • 1) := by
    induction l with
    | nil => intro N k hb _ hP; exact ⟨k, rfl, hb, hP⟩
    | cons y l ih =>
      intro N k hb hq hP
      have hs := pow_pos sensorSigma_pos 2
      have hp : 0 < Att.sensorSigma ^ 2 / ((N : ℝ) + 1) := by positivity
      have hc : Covariance k.P := by
        rw [hP, show (Matrix.fromBlocks ((Att.sensorSigma ^ 2 / ((N : ℝ) + 1)) • 1) 0 0
          ((Att.initialBias ^ 2) • 1) : M6) = Matrix.diagonal
            (Sum.elim (fun _ => Att.sensorSigma ^ 2 / ((N : ℝ) + 1)) fun _ => Att.initialBias ^ 2) by
          rw [← Matrix.fromBlocks_diagonal]; simp [← Matrix.smul_one_eq_diagonal]]
        refine Covariance.diagonal fun i => ?_
        rcases i with i | i <;> simp only [Sum.elim_inl, Sum.elim_inr] <;> positivity
      have hK := gain_diag (d := Att.initialBias ^ 2) hp
      rw [← hP] at hK
      obtain ⟨k₁, hm, hb₁, hq₁, hP₁⟩ : ∃ k₁, k.measurement y = .ok k₁ ∧ k₁.b = k.b +
          (kgain k.P Att.R obsH *ᵥ (vecPart (Quat.errorQuat y k.q) - k.dq)) ∘ Sum.inr ∧ k₁.dq = 0 ∧
          k₁.P = kpost k.P Att.R obsH := ⟨_, measurement_eq hc y, rfl, rfl, rfl⟩
      simp only [starReadings, List.map_cons, attRun, AttEvent.apply, hm]
      obtain ⟨k', h1, h2, h3⟩ := ih (N + 1) k₁ (by
        rw [hb₁, hK, hb, Matrix.fromRows_mulVec, Matrix.zero_mulVec]; ext i; simp) hq₁ (by
        rw [hP₁, kpost, hK, mul_obsH, hP]
        have e : Att.sensorSigma ^ 2 / (((N + 1 : ℕ) : ℝ) + 1) = (1 - Att.sensorSigma ^ 2 / ((N : ℝ) + 1)
            / (Att.sensorSigma ^ 2 / ((N : ℝ) + 1) + Att.sensorSigma ^ 2))
              * (Att.sensorSigma ^ 2 / ((N : ℝ) + 1)) := by
          push_cast
          have hs' := hs.ne'
          generalize Att.sensorSigma ^ 2 = S at *
          have : (N : ℝ) + 1 ≠ 0 := by positivity
          have h2 : (N : ℝ) + 1 + 1 ≠ 0 := by positivity
          have h3 : S / ((N : ℝ) + 1) + S ≠ 0 := by positivity
          field_simp
          ring
        rw [e]
        generalize Att.sensorSigma ^ 2 / ((N : ℝ) + 1)
          / (Att.sensorSigma ^ 2 / ((N : ℝ) + 1) + Att.sensorSigma ^ 2) = κ
        have hb : (1 : M6) - Matrix.fromCols (Matrix.fromRows (κ • (1 : M3)) 0) 0
            = Matrix.fromBlocks ((1 - κ) • 1) 0 0 1 := by
          ext (i | i) (j | j)
          · by_cases h : i = j <;> simp [h]
          · simp
          · simp
          · simp [Matrix.one_apply]
        rw [hb, Matrix.fromBlocks_multiply]
        simp [smul_smul, mul_comm])
      refine ⟨k', h1, h2, ?_⟩
      rw [h3, List.length_cons, Nat.add_assoc, Nat.add_comm 1]
  obtain ⟨k, h1, h2, h3⟩ := key 0 (Att.init q0) rfl rfl (by rw [init_P]; simp)
  refine ⟨k, h1, h2, ?_⟩
  rw [h3, Nat.zero_add]
  simp only [Matrix.smul_one_eq_diagonal, Att.sensorSigma, Att.initialBias]

end Adcs
