import Verif.Proofs.Kalman
import Verif.Props.State
import Mathlib.Analysis.Calculus.Deriv.Prod
import Mathlib.Analysis.Calculus.Deriv.Inv
import Mathlib.Analysis.SpecialFunctions.Sqrt

set_option autoImplicit false

/-! # C85–C87, C108, C109: the position filter -/

namespace Adcs

open Spec Vec Dyn JDay Fr Obs Obs.Pos
open scoped Matrix

/-- A call made on the filter. -/
inductive PosEvent
  | update (x v : V3)
  | propagate (dt : ℝ)

/-- One call. -/
noncomputable def PosEvent.apply {n : ℕ} (k : Pos.Kalman n) : PosEvent → Py Unit × Pos.Kalman n
  | .update x v => k.update x v
  | .propagate dt => k.propagate dt

/-- A history of calls, up to the first exception; with the filter as it was left. -/
noncomputable def posRun {n : ℕ} (k : Pos.Kalman n) : List PosEvent → Py Unit × Pos.Kalman n
  | [] => (.ok (), k)
  | e :: l =>
    match e.apply k with
    | (.error x, k') => (.error x, k')
    | (.ok (), k') => posRun k' l

theorem posR_strict : StrictCovariance Pos.R := by
  refine StrictCovariance.diagonal fun i => ?_
  rcases i with i | i <;> norm_num

theorem posQ_cov : Covariance Pos.Q := by
  refine Covariance.diagonal fun i => ?_
  rcases i with i | i <;> norm_num

theorem pos_inv {P : M6} (h : Covariance P) : npInv (P + Pos.R) = .ok (P + Pos.R)⁻¹ := by
  rw [npInv, if_neg (h.add_strict posR_strict).det_ne]

theorem pos_kpost (P : M6) : (1 - P * (P + Pos.R)⁻¹) * P = kpost P Pos.R 1 := by
  simp [kpost, kgain, innov, add_comm]

/-- The state object after an update, before its own `update` is called. -/
noncomputable def posWritten {n : ℕ} (k : Pos.Kalman n) (x v : V3) : SatState n :=
  let x' := k.x + (k.P * (k.P + Pos.R)⁻¹) *ᵥ (Sum.elim x v - k.x)
  { k.state with arr := { k.state.arr with pos := x' ∘ Sum.inl, vel := x' ∘ Sum.inr } }

/-- What an update computes. -/
theorem posUpdate_eq {n : ℕ} {k : Pos.Kalman n} (h : Covariance k.P) (x v : V3) :
    (k.update x v).1 = (posWritten k x v).update.map (fun _ => ()) ∧
    (k.update x v).2.P = kpost k.P Pos.R 1 ∧
    (k.update x v).2.x = k.x + (k.P * (k.P + Pos.R)⁻¹) *ᵥ (Sum.elim x v - k.x) ∧
    (k.update x v).2.mu = k.mu ∧
    ((k.update x v).2.state = posWritten k x v ∨
      (posWritten k x v).update = .ok (k.update x v).2.state) ∧
    ((k.update x v).1 = .ok () → (posWritten k x v).update = .ok (k.update x v).2.state) := by
  rw [Kalman.update, pos_inv h]
  simp only
  change _ ∧ _
  cases hu : (posWritten k x v).update with
  | error e =>
    rw [posWritten] at hu
    simp only [hu]
    exact ⟨by rfl, pos_kpost _, trivial, trivial, .inl (by rfl), fun h => by simp at h⟩
  | ok s =>
    have hu' := hu
    rw [posWritten] at hu
    simp only [hu]
    exact ⟨by rfl, pos_kpost _, trivial, trivial, .inr trivial, fun _ => trivial⟩

theorem llaStart_error {w z : ℝ} : llaStart w z ≠ .error .linAlg := by
  unfold llaStart
  simp only
  split_ifs <;> simp

theorem ecefToLla_error {x : V3} : ecefToLla x ≠ .error .linAlg := by
  intro h
  unfold ecefToLla at h
  simp only at h
  cases hs : llaStart (Real.sqrt (x 0 * x 0 + x 1 * x 1)) (x 2) with
  | error e =>
    simp only [hs, Except.error.injEq] at h
    exact llaStart_error (h ▸ hs)
  | ok r =>
    simp only [hs] at h
    split_ifs at h
    simp at h

/-- Constructing or updating a state never raises `LinAlgError`. -/
theorem mkState_error {n : ℕ} {a : Raw n} {c : Option JClock} : mkState a c ≠ .error .linAlg := by
  intro h
  cases c with
  | none => simp [mkState] at h
  | some c =>
    simp only [mkState, attrsOf] at h
    cases hl : ecefToLla (inertialToEcef c.thetaGmst *ᵥ a.pos) with
    | error e =>
      simp only [hl, Except.error.injEq] at h
      exact ecefToLla_error (h ▸ hl)
    | ok r => simp [hl] at h

/-! ## C85 -/

/-- C85: an update never increases the covariance and leaves it at most the measurement covariance. -/
theorem C85_update {n : ℕ} (k : Pos.Kalman n) (h : Covariance k.P) (x v : V3) :
    Covariance (k.update x v).2.P ∧ NoLarger (k.update x v).2.P k.P ∧
    NoLarger (k.update x v).2.P
      (Matrix.diagonal (Sum.elim (fun _ => 10.0598 ^ 2) fun _ => 0.52038 ^ 2)) ∧
    (k.update x v).1 ≠ .error .linAlg := by
  obtain ⟨h1, h2, -⟩ := posUpdate_eq h x v
  rw [h1, h2]
  refine ⟨kpost_cov h posR_strict, kpost_noLarger h posR_strict, ?_, ?_⟩
  · have := kpost_noLarger_meas (H := (1 : M6)) h posR_strict
    rw [Matrix.transpose_one, Matrix.one_mul, Matrix.mul_one] at this
    exact this
  · intro he
    cases hu : (posWritten k x v).update with
    | ok s => simp [hu, Except.map] at he
    | error e =>
      simp only [hu, Except.map, Except.error.injEq] at he
      subst he
      exact mkState_error hu

theorem gradA_cases (mu : ℝ) (p : V3) :
    (npNorm p = 0 ∧ gradA mu p = .error .nonFinite) ∨ ∃ J, gradA mu p = .ok J := by
  by_cases h : npNorm p = 0
  · left; simp [gradA, npDiv, h]
  · right; simp [gradA, npDiv, h]

/-- C85: a propagation, of any length, keeps the covariance symmetric positive semidefinite. -/
theorem C85_propagate {n : ℕ} (k : Pos.Kalman n) (h : Covariance k.P) (dt : ℝ) :
    Covariance (k.propagate dt).2.P ∧ (k.propagate dt).1 ≠ .error .linAlg := by
  rcases gradA_cases k.mu (k.x ∘ Sum.inl) with ⟨-, hg⟩ | ⟨J, hg⟩
  · simp only [Kalman.propagate, Kalman.stateTransition, Kalman.fContinuous, hg]
    exact ⟨h, by simp⟩
  · simp only [Kalman.propagate, Kalman.stateTransition, Kalman.fContinuous, hg]
    exact ⟨(h.conj _).add posQ_cov, by simp⟩

/-- C85: in every history from the initial state, for any state object, the covariance is symmetric
positive semidefinite at the end, and no call raised `LinAlgError`. -/
theorem C85_history {n : ℕ} (mu : ℝ) (s : SatState n) (l : List PosEvent) :
    Covariance (posRun (Pos.init mu s) l).2.P ∧ (posRun (Pos.init mu s) l).1 ≠ .error .linAlg := by
  have key : ∀ (k : Pos.Kalman n), Covariance k.P →
      Covariance (posRun k l).2.P ∧ (posRun k l).1 ≠ .error .linAlg := by
    induction l with
    | nil => intro k h; exact ⟨h, by simp [posRun]⟩
    | cons e l ih =>
      intro k h
      have he : Covariance (e.apply k).2.P ∧ (e.apply k).1 ≠ .error .linAlg := by
        cases e with
        | update x v => exact ⟨(C85_update k h x v).1, (C85_update k h x v).2.2.2⟩
        | propagate dt => exact C85_propagate k h dt
      rw [posRun]
      rcases hr : e.apply k with ⟨r, k'⟩
      rw [hr] at he
      cases r with
      | error x => exact he
      | ok u => exact ih k' he.1
  refine key _ ?_
  rw [show (Pos.init mu s).P = Matrix.diagonal fun _ => 1 from Matrix.diagonal_one.symm]
  exact Covariance.diagonal fun _ => zero_le_one

/-! ## C86 -/

/-- C86: a measurement equal to the estimate does not change it. -/
theorem C86_own {n : ℕ} (k : Pos.Kalman n) (h : Covariance k.P) :
    (k.update k.output.1 k.output.2).2.output = k.output := by
  obtain ⟨-, -, h3, -⟩ := posUpdate_eq h k.output.1 k.output.2
  have : Sum.elim k.output.1 k.output.2 - k.x = 0 := by
    funext i; rcases i with i | i <;> simp [Kalman.output]
  rw [this, Matrix.mulVec_zero, add_zero] at h3
  simp only [Kalman.output] at h3 ⊢
  rw [h3]

/-- C86: after an update, even one that raised, the array of the state object holds the estimate, and
its attitude, rate and wheel entries and its clock are untouched; if it did not raise, the attributes
are those of the new array. -/
theorem C86_written {n : ℕ} (k : Pos.Kalman n) (h : Covariance k.P) (x v : V3) :
    let k' := (k.update x v).2
    (k'.state.arr.pos, k'.state.arr.vel) = k'.output ∧
    k'.state.arr.att = k.state.arr.att ∧ k'.state.arr.rate = k.state.arr.rate ∧
    k'.state.arr.whl = k.state.arr.whl ∧ k'.state.clock = k.state.clock ∧
    ((k.update x v).1 = .ok () →
      (k'.state.attrs.position, k'.state.attrs.velocity) = k'.output ∧
      k'.state.attrs.length = npNorm k'.output.1) := by
  obtain ⟨-, -, h3, -, h5, h6⟩ := posUpdate_eq h x v
  have hw : (k.update x v).2.state.arr = (posWritten k x v).arr ∧
      (k.update x v).2.state.clock = (posWritten k x v).clock := by
    rcases h5 with h5 | h5
    · rw [h5]; exact ⟨rfl, rfl⟩
    · obtain ⟨c, lat, long, h', hc, -, hs⟩ := mkState_ok.1 h5
      rw [hs, hc]; exact ⟨rfl, rfl⟩
  simp only [hw, Kalman.output, h3]
  refine ⟨rfl, rfl, rfl, rfl, rfl, fun h => ?_⟩
  obtain ⟨c, lat, long, h', -, -, hs⟩ := mkState_ok.1 (h6 h)
  rw [hs]; exact ⟨rfl, rfl⟩

/-- C86: `propagate` maps the estimate linearly, by a matrix that depends on the time step only. -/
theorem C86_linear {n : ℕ} (dt : ℝ) : ∃ A : M6, ∀ k : Pos.Kalman n, k.output.1 ≠ 0 →
    (k.propagate dt).1 = .ok () ∧ (k.propagate dt).2.x = A *ᵥ k.x := by
  refine ⟨aDiscrete dt, fun k hk => ?_⟩
  have hn : npNorm (k.x ∘ Sum.inl) ≠ 0 := (npNorm_pos hk).ne'
  simp [Kalman.propagate, Kalman.stateTransition, Kalman.fContinuous, gradA, npDiv, hn]

/-! ## C87 -/

/-- Acceleration by the gravity of a point mass at the origin. -/
noncomputable def pointGravity (mu : ℝ) (x : V3) : V3 := (-mu / npNorm x ^ 3) • x

/-- The full claim of C87. -/
def C87_claim : Prop :=
  ∀ (mu : ℝ) (x : V3), x ≠ 0 → ∃ J, gradA mu x = .ok J ∧
    ∀ d, HasDerivAt (fun t : ℝ => pointGravity mu (x + t • d)) (J *ᵥ d) 0

/-- C87 partial: the block is the Jacobian with the opposite sign.  Missing: the sign
(`C87_jacobian_fails`). -/
theorem C87_jacobian_partial (mu : ℝ) (x : V3) (hx : x ≠ 0) : ∃ J, gradA mu x = .ok J ∧
    ∀ d, HasDerivAt (fun t : ℝ => pointGravity mu (x + t • d)) (-(J *ᵥ d)) 0 := by
  have hn : npNorm x ≠ 0 := (npNorm_pos hx).ne'
  have hg : ∃ J, gradA mu x = .ok J := by simp [gradA, npDiv, hn]
  obtain ⟨J, hJ⟩ := hg
  refine ⟨J, hJ, fun d => ?_⟩
  simp only [gradA, npDiv, hn, ne_eq, OfNat.ofNat_ne_zero, not_false_eq_true, pow_eq_zero_iff,
    if_false, Except.ok.injEq] at hJ
  have h3 := npNorm3_sq x
  have hS : ∀ t : ℝ, npNorm (x + t • d) = Real.sqrt
      ((x 0 + t * d 0) ^ 2 + (x 1 + t * d 1) ^ 2 + (x 2 + t * d 2) ^ 2) := by
    intro t; simp [npNorm, Fin.sum_univ_three]
  have hc : ∀ i, HasDerivAt (fun t : ℝ => x i + t * d i) (d i) 0 := fun i => by
    simpa using ((hasDerivAt_id (0 : ℝ)).mul_const (d i)).const_add (x i)
  have hr : HasDerivAt (fun t : ℝ => npNorm (x + t • d)) ((x ⬝ᵥ d) / npNorm x) 0 := by
    simp only [hS]
    have hq := (((hc 0).fun_pow 2).fun_add ((hc 1).fun_pow 2)).fun_add ((hc 2).fun_pow 2)
    have hne : (x 0 + 0 * d 0) ^ 2 + (x 1 + 0 * d 1) ^ 2 + (x 2 + 0 * d 2) ^ 2 ≠ 0 := by
      simp only [zero_mul, add_zero, ← h3]; exact pow_ne_zero 2 hn
    refine (hq.sqrt hne).congr_deriv ?_
    have : Real.sqrt ((x 0 + 0 * d 0) ^ 2 + (x 1 + 0 * d 1) ^ 2 + (x 2 + 0 * d 2) ^ 2) = npNorm x := by
      simp only [zero_mul, add_zero, ← h3]; exact Real.sqrt_sq (npNorm_nonneg x)
    rw [this, Matrix.vec3_dotProduct]
    simp
    field_simp
  have hr3 : HasDerivAt (fun t : ℝ => -mu / npNorm (x + t • d) ^ 3)
      (3 * mu * (x ⬝ᵥ d) / npNorm x ^ 5) 0 := by
    have hz : npNorm (x + (0 : ℝ) • d) = npNorm x := by simp
    refine ((hasDerivAt_const (0 : ℝ) (-mu)).fun_div (hr.fun_pow 3)
      (by rw [hz]; exact pow_ne_zero 3 hn)).congr_deriv ?_
    rw [hz]
    field_simp
    ring
  rw [hasDerivAt_pi]
  intro i
  have := hr3.fun_mul (hc i)
  refine HasDerivAt.congr_deriv (f := fun t => pointGravity mu (x + t • d) i) this ?_
  rw [← hJ, Matrix.vec3_dotProduct]
  have hz : npNorm (x + (0 : ℝ) • d) = npNorm x := by simp
  rw [hz]
  fin_cases i <;>
    simp [Matrix.vecHead, Matrix.vecTail] <;> field_simp <;> ring

/-- C87 fails at every non-zero position, for any non-zero mass. -/
theorem C87_jacobian_fails : ¬ C87_claim := by
  intro h
  have hx : (![1, 0, 0] : V3) ≠ 0 := fun h => by have := congrFun h 0; simp at this
  obtain ⟨J, hJ, h1⟩ := h 1 ![1, 0, 0] hx
  obtain ⟨J', hJ', h2⟩ := C87_jacobian_partial 1 ![1, 0, 0] hx
  have : J' = J := Except.ok.inj (hJ'.symm.trans hJ)
  subst this
  have hn : npNorm (![1, 0, 0] : V3) = 1 := npNorm_vec3 (by norm_num)
  have e := congrFun ((h1 ![1, 0, 0]).unique (h2 ![1, 0, 0])) 0
  simp only [gradA, npDiv, hn, one_pow, one_ne_zero, if_false, Except.ok.injEq] at hJ
  rw [← hJ] at e
  norm_num [Matrix.mulVec, Matrix.vec3_dotProduct] at e

/-! ## C108 -/

/-- The full claim of C108. -/
def C108_claim : Prop :=
  ∀ (n : ℕ) (mu : ℝ) (s : SatState n) (a : Raw n) (c : JClock) (dt : ℝ), mkState a (some c) = .ok s →
    ((Pos.init mu s).propagate dt).1 = .ok () →
    (((Pos.init mu s).propagate dt).2.state.arr.pos, ((Pos.init mu s).propagate dt).2.state.arr.vel)
      = ((Pos.init mu s).propagate dt).2.output

/-- C108 partial: `propagate` leaves the state object as it is, so that it still holds the estimate
before the propagation.  Missing: it is not brought up to date (`C108_stale_fails`). -/
theorem C108_stale_partial {n : ℕ} (k : Pos.Kalman n) (dt : ℝ) :
    (k.propagate dt).2.state = k.state := by
  rcases gradA_cases k.mu (k.x ∘ Sum.inl) with ⟨-, hg⟩ | ⟨J, hg⟩ <;>
    simp only [Kalman.propagate, Kalman.stateTransition, Kalman.fContinuous, hg]

/-- The filter after propagations by the given time steps. -/
noncomputable def Spec.posPropagations {n : ℕ} (k : Pos.Kalman n) (dts : List ℝ) : Pos.Kalman n :=
  dts.foldl (fun k dt => (k.propagate dt).2) k

/-- C108 partial: after a measurement that raised no exception the state object holds what `output`
returns, in its array and in its attributes; through any sequence of propagations it keeps holding
the estimate made by that measurement.  Missing: it does not follow the propagations
(`C108_stale_fails`). -/
theorem C108_lag_partial {n : ℕ} (k : Pos.Kalman n) (xRef vRef : V3)
    (hu : (k.update xRef vRef).1 = .ok ()) (dts : List ℝ) :
    ((Spec.posPropagations (k.update xRef vRef).2 dts).state.arr.pos,
      (Spec.posPropagations (k.update xRef vRef).2 dts).state.arr.vel) = (k.update xRef vRef).2.output ∧
    ((Spec.posPropagations (k.update xRef vRef).2 dts).state.attrs.position,
      (Spec.posPropagations (k.update xRef vRef).2 dts).state.attrs.velocity)
        = (k.update xRef vRef).2.output := by
  have hs : ∀ (dts : List ℝ) (k : Pos.Kalman n), (Spec.posPropagations k dts).state = k.state := by
    intro dts
    induction dts with
    | nil => intro k; rfl
    | cons dt dts ih => intro k; exact (ih _).trans (C108_stale_partial k dt)
  rw [hs]
  unfold Kalman.update at hu ⊢
  cases hi : npInv (k.P + Obs.Pos.R) with
  | error e => simp [hi] at hu
  | ok inv =>
    simp only [hi] at hu ⊢
    split at hu
    · simp at hu
    · rename_i st' hst
      simp only [hst]
      unfold SatState.update at hst
      obtain ⟨c, lat, long, h', -, -, he⟩ := mkState_ok.1 hst
      rw [he]
      exact ⟨rfl, rfl⟩

/-- The estimate after a propagation. -/
theorem posPropagate_x {n : ℕ} {k : Pos.Kalman n} (hk : k.output.1 ≠ 0) (dt : ℝ) :
    (k.propagate dt).1 = .ok () ∧ (k.propagate dt).2.x = aDiscrete dt *ᵥ k.x := by
  have hn : npNorm (k.x ∘ Sum.inl) ≠ 0 := (npNorm_pos hk).ne'
  simp [Kalman.propagate, Kalman.stateTransition, Kalman.fContinuous, gradA, npDiv, hn]

/-- C108 fails. -/
theorem C108_stale_fails : ¬ C108_claim := by
  intro h
  obtain ⟨s, hs, -⟩ := exState 4
  have hs' : mkState (exRaw 4) (some exClock) = .ok s := hs
  obtain ⟨c, lat, long, h', -, -, he⟩ := mkState_ok.1 hs'
  have hp : s.attrs.position = ![6800000, 0, 0] := by rw [he]; rfl
  have hv : s.attrs.velocity = (exRaw 4).vel := by rw [he]
  have ha : s.arr.pos = ![6800000, 0, 0] := by rw [he]; rfl
  have hne : (Pos.init 1 s).output.1 ≠ 0 := fun h0 => by
    have := congrFun h0 0
    simp [Kalman.output, Pos.init, hp] at this
  obtain ⟨h1, h2⟩ := posPropagate_x hne 1
  have h3 := congrArg Prod.fst (h 4 1 s _ _ 1 hs' h1)
  simp only [C108_stale_partial] at h3
  have h4 := congrFun h3 0
  simp only [Kalman.output, h2, Function.comp_apply] at h4
  rw [aDiscrete, Matrix.fromBlocks_mulVec] at h4
  simp [Pos.init, ha, hp, hv, exRaw, Matrix.smul_mulVec, Sum.elim_comp_inl, Sum.elim_comp_inr,
    Obs.Pos.a, Obs.Pos.b] at h4
  norm_num at h4

/-! ## C109 -/

/-- The full claim of C109: to first order in the time step, the matrix that propagates the
covariance and the one that propagates the estimate agree on the effect of velocity. -/
def C109_claim : Prop :=
  ∀ (n : ℕ) (k : Pos.Kalman n), k.output.1 ≠ 0 → ∃ F A : ℝ → M6,
    (∀ dt, k.stateTransition dt = .ok (F dt, A dt)) ∧
    ∀ i j, ∃ d, HasDerivAt (fun dt => F dt i (.inr j)) d 0 ∧ HasDerivAt (fun dt => A dt i (.inr j)) d 0

/-- First-order expansion of the matrix for the estimate: `x' = v`, `v' = -a x - b v`. -/
theorem aDiscrete_deriv (i j : I6) : HasDerivAt (fun dt => aDiscrete dt i j)
    ((Matrix.fromBlocks 0 1 (-Obs.Pos.a • 1) (-Obs.Pos.b • 1) : M6) i j) 0 := by
  have h1 : HasDerivAt (fun t : ℝ => t) 1 0 := hasDerivAt_id 0
  have h2 : HasDerivAt (fun t : ℝ => t ^ 2) 0 0 := by simpa using h1.fun_pow 2
  have hA11 : HasDerivAt (fun t : ℝ => 1 - 0.5 * Obs.Pos.a * t ^ 2) 0 0 := by
    simpa using (h2.const_mul (0.5 * Obs.Pos.a)).const_sub 1
  have hA12 : HasDerivAt (fun t : ℝ => t - 0.5 * Obs.Pos.b * t ^ 2 - 0.1666 * Obs.Pos.a * t * t ^ 2) 1 0 := by
    refine ((h1.fun_sub (h2.const_mul (0.5 * Obs.Pos.b))).fun_sub
      ((h1.const_mul (0.1666 * Obs.Pos.a)).fun_mul h2)).congr_deriv ?_
    simp
  have hA21 : HasDerivAt (fun t : ℝ => -Obs.Pos.a * t) (-Obs.Pos.a) 0 := by
    simpa using h1.const_mul (-Obs.Pos.a)
  have hA22 : HasDerivAt (fun t : ℝ => 1 - 0.5 * Obs.Pos.a * t ^ 2 - Obs.Pos.b * t) (-Obs.Pos.b) 0 := by
    simpa using hA11.fun_sub (h1.const_mul Obs.Pos.b)
  rcases i with i | i <;> rcases j with j | j <;>
    simp only [aDiscrete, Matrix.fromBlocks_apply₁₁, Matrix.fromBlocks_apply₁₂,
      Matrix.fromBlocks_apply₂₁, Matrix.fromBlocks_apply₂₂, Matrix.smul_apply, smul_eq_mul,
      Matrix.zero_apply]
  · simpa using hA11.mul_const ((1 : M3) i j)
  · simpa using hA12.mul_const ((1 : M3) i j)
  · simpa using hA21.mul_const ((1 : M3) i j)
  · simpa using hA22.mul_const ((1 : M3) i j)

theorem stateTransition_first_order {n : ℕ} {k : Pos.Kalman n} (hk : k.output.1 ≠ 0) :
    ∃ (J : M3) (F : ℝ → M6), gradA k.mu k.output.1 = .ok J ∧
      (∀ dt, k.stateTransition dt = .ok (F dt, aDiscrete dt)) ∧
      ∀ i j, HasDerivAt (fun dt => F dt i j)
        ((Matrix.fromBlocks 0 1 J (Obs.Pos.b • 1) : M6) i j) 0 := by
  obtain ⟨J, hJ⟩ : ∃ J, gradA k.mu (k.x ∘ Sum.inl) = .ok J := by
    rcases gradA_cases k.mu (k.x ∘ Sum.inl) with ⟨h0, -⟩ | h
    · exact absurd (npNorm_eq_zero.1 h0) hk
    · exact h
  set M : M6 := Matrix.fromBlocks 0 1 J (Obs.Pos.b • 1) with hM
  refine ⟨J, fun dt => 1 + dt • M + (0.5 * dt ^ 2) • (M * M), hJ, fun dt => ?_, fun i j => ?_⟩
  · simp only [Kalman.stateTransition, Kalman.fContinuous, hJ, hM]
  · have h1 : HasDerivAt (fun t : ℝ => t) 1 0 := hasDerivAt_id 0
    have h2 : HasDerivAt (fun t : ℝ => 0.5 * t ^ 2) 0 0 := by
      simpa using (h1.fun_pow 2).const_mul (0.5 : ℝ)
    have := ((h1.mul_const (M i j)).const_add ((1 : M6) i j)).fun_add (h2.mul_const ((M * M) i j))
    simpa [Matrix.add_apply] using this

/-- C109 partial: for the covariance the equations of motion are `x' = v`, `v' = J x + b v`, for the
estimate `x' = v`, `v' = -a x - b v`: the position rows agree.  Missing: drag has opposite signs
(`C109_drag_fails`). -/
theorem C109_drag_partial {n : ℕ} (k : Pos.Kalman n) (hk : k.output.1 ≠ 0) :
    ∃ (J : M3) (F A : ℝ → M6), gradA k.mu k.output.1 = .ok J ∧
      (∀ dt, k.stateTransition dt = .ok (F dt, A dt)) ∧
      (∀ i j, HasDerivAt (fun dt => F dt i j)
        ((Matrix.fromBlocks 0 1 J ((1.618e-10 : ℝ) • 1) : M6) i j) 0) ∧
      ∀ i j, HasDerivAt (fun dt => A dt i j)
        ((Matrix.fromBlocks 0 1 (-(1.28e-6 : ℝ) • 1) (-(1.618e-10 : ℝ) • 1) : M6) i j) 0 := by
  obtain ⟨J, F, hJ, h1, h2⟩ := stateTransition_first_order hk
  exact ⟨J, F, aDiscrete, hJ, h1, h2, aDiscrete_deriv⟩

/-- C109 fails for every filter. -/
theorem C109_drag_fails : ¬ C109_claim := by
  intro h
  obtain ⟨s, hs, -⟩ := exState 4
  obtain ⟨c, lat, long, h', -, -, he⟩ := mkState_ok.1 hs
  have hp : s.attrs.position = ![6800000, 0, 0] := by rw [he]; rfl
  have hne : (Pos.init 1 s).output.1 ≠ 0 := fun h0 => by
    have := congrFun h0 0
    simp [Kalman.output, Pos.init, hp] at this
  obtain ⟨J, F, A, -, h1, h2, h3⟩ := C109_drag_partial _ hne
  obtain ⟨F', A', h1', h4⟩ := h 4 _ hne
  have hF : F' = F ∧ A' = A := by
    constructor <;> funext dt <;> have := Except.ok.inj ((h1' dt).symm.trans (h1 dt)) <;>
      simp only [Prod.mk.injEq] at this
    · exact this.1
    · exact this.2
  obtain ⟨rfl, rfl⟩ := hF
  obtain ⟨d, hd1, hd2⟩ := h4 (.inr 0) 0
  have e := ((h2 (.inr 0) (.inr 0)).unique hd1).trans (hd2.unique (h3 (.inr 0) (.inr 0)))
  norm_num at e

/-- A filter on a state 6800 km from the centre of the Earth meets the hypotheses above. -/
example : ∃ s : SatState 4, SatState.new (exRaw 4) (some exClock) = .ok s ∧
    Covariance (Pos.init 3.986e14 s).P ∧ (Pos.init 3.986e14 s).output.1 ≠ 0 := by
  obtain ⟨s, hs, -⟩ := exState 4
  obtain ⟨c, lat, long, h', -, -, he⟩ := mkState_ok.1 hs
  have hp : s.attrs.position = ![6800000, 0, 0] := by rw [he]; rfl
  refine ⟨s, hs, (C85_history 3.986e14 s []).1, fun h0 => ?_⟩
  have := congrFun h0 0
  simp [Kalman.output, Pos.init, hp] at this

/-- A measurement of that state raises no exception, which meets the hypothesis of
`C108_lag_partial`. -/
example : ∃ s : SatState 4, SatState.new (exRaw 4) (some exClock) = .ok s ∧
    ((Pos.init 3.986e14 s).update ![6800000, 0, 0] (exRaw 4).vel).1 = .ok () := by
  obtain ⟨s, hs, -⟩ := exState 4
  have hs' : mkState (exRaw 4) (some exClock) = .ok s := hs
  obtain ⟨c, lat, long, h', hc, -, he⟩ := mkState_ok.1 hs'
  have hp : s.attrs.position = ![6800000, 0, 0] := by rw [he]; rfl
  have hv : s.attrs.velocity = (exRaw 4).vel := by rw [he]
  have ha : s.arr = exRaw 4 := by rw [he]
  have hk : s.clock = some exClock := by rw [he, hc]
  refine ⟨s, hs, ?_⟩
  rw [(posUpdate_eq (k := Pos.init 3.986e14 s) (C85_history 3.986e14 s []).1 _ _).1]
  have hw : (posWritten (Pos.init 3.986e14 s) ![6800000, 0, 0] (exRaw 4).vel).update = .ok s := by
    rw [SatState.update, ← hs']
    congr 1
    simp only [posWritten, Pos.init, hp, hv, ha, sub_self, Matrix.mulVec_zero, add_zero,
      Sum.elim_comp_inl, Sum.elim_comp_inr]
    rfl
  rw [hw]
  rfl

end Adcs
