import Verif.Props.Order
import Verif.Props.Orbit
import Verif.Props.Bbq
import Verif.Proofs.OneStep

set_option autoImplicit false

/-! # C135 for nonlinear fields, and C153: accuracy of whole simulations -/

namespace Adcs

open JDay Dyn Sens Rk Vec
open scoped Matrix
open scoped Topology
open Filter Asymptotics

/-- Contents of states as a normed space. -/
abbrev Cont (n : ℕ) : Type := V3 × V3 × V4 × V3 × (Fin n → ℝ)

def toCont {n : ℕ} (a : Raw n) : Cont n := (a.pos, a.vel, a.att, a.rate, a.whl)

def ofCont {n : ℕ} (p : Cont n) : Raw n := ⟨p.1, p.2.1, p.2.2.1, p.2.2.2.1, p.2.2.2.2⟩

@[simp] theorem ofCont_toCont {n : ℕ} (a : Raw n) : ofCont (toCont a) = a := rfl
@[simp] theorem toCont_ofCont {n : ℕ} (p : Cont n) : toCont (ofCont p) = p := rfl
theorem toCont_add {n : ℕ} (a b : Raw n) : toCont (a + b) = toCont a + toCont b := rfl
theorem toCont_smul {n : ℕ} (c : ℝ) (a : Raw n) : toCont (c • a) = c • toCont a := rfl

/-- Every number in the contents `a` of a state is within `ε` of the one in `b`. -/
def Spec.Within {n : ℕ} (ε : ℝ) (a b : Raw n) : Prop :=
  (∀ i, |a.pos i - b.pos i| ≤ ε) ∧ (∀ i, |a.vel i - b.vel i| ≤ ε) ∧ (∀ i, |a.att i - b.att i| ≤ ε) ∧
    (∀ i, |a.rate i - b.rate i| ≤ ε) ∧ ∀ i, |a.whl i - b.whl i| ≤ ε

/-- A motion that the field `f` prescribes between the times `lo` and `hi`: its contents at any time are those of
a state, and change as `f` says for that state. -/
def Spec.Motion {n : ℕ} (f : SatState n → Py (Raw n)) (y : ℝ → Raw n) (lo hi : ℝ) : Prop :=
  ∀ t ∈ Set.Ioo lo hi, ∃ c s k, SatState.new (y t) (some c) = .ok s ∧ f s = .ok k ∧
    HasDerivAt (fun t => (y t).pos) k.pos t ∧ HasDerivAt (fun t => (y t).vel) k.vel t ∧
    HasDerivAt (fun t => (y t).att) k.att t ∧ HasDerivAt (fun t => (y t).rate) k.rate t ∧
    HasDerivAt (fun t => (y t).whl) k.whl t

/-- The field `f` depends on nothing but the contents of the state (not on the clock), through `g`. -/
def Spec.Autonomous {n : ℕ} (f : SatState n → Py (Raw n)) (g : Raw n → Raw n) : Prop :=
  ∀ s k, Consistent s → f s = .ok k → k = g s.arr

/-- `g` is given by convergent power series in the numbers of the state, near `a`. -/
def Spec.Analytic {n : ℕ} (g : Raw n → Raw n) (a : Raw n) : Prop :=
  AnalyticAt ℝ (fun p : Cont n => toCont (g (ofCont p))) (toCont a)

theorem within_of_norm {n : ℕ} {ε : ℝ} {a b : Raw n} (h : ‖toCont a - toCont b‖ ≤ ε) : Spec.Within ε a b := by
  have hp : ∀ {m : ℕ} (u v : Fin m → ℝ), ‖u - v‖ ≤ ε → ∀ i, |u i - v i| ≤ ε := fun u v huv i =>
    (norm_le_pi_norm (u - v) i).trans huv
  have h1 := norm_fst_le (toCont a - toCont b)
  have h2 := norm_snd_le (toCont a - toCont b)
  have h3 := norm_fst_le (toCont a - toCont b).2
  have h4 := norm_snd_le (toCont a - toCont b).2
  have h5 := norm_fst_le (toCont a - toCont b).2.2
  have h6 := norm_snd_le (toCont a - toCont b).2.2
  have h7 := norm_fst_le (toCont a - toCont b).2.2.2
  have h8 := norm_snd_le (toCont a - toCont b).2.2.2
  exact ⟨hp _ _ (h1.trans h), hp _ _ (h3.trans (h2.trans h)), hp _ _ (h5.trans (h4.trans (h2.trans h))),
    hp _ _ (h7.trans (h6.trans (h4.trans (h2.trans h)))), hp _ _ (h8.trans (h6.trans (h4.trans (h2.trans h))))⟩

theorem motion_deriv {n : ℕ} {f : SatState n → Py (Raw n)} {g : Raw n → Raw n} (hf : Spec.Autonomous f g)
    {y : ℝ → Raw n} {lo hi : ℝ} (hy : Spec.Motion f y lo hi) {t : ℝ} (ht : t ∈ Set.Ioo lo hi) :
    HasDerivAt (fun t => toCont (y t)) (toCont (g (y t))) t := by
  obtain ⟨c, s, k, hs, hk, h1, h2, h3, h4, h5⟩ := hy t ht
  obtain ⟨hc, ha, -⟩ := C80_new hs
  have := hf s k hc hk
  rw [ha] at this
  subst this
  exact h1.prodMk (h2.prodMk (h3.prodMk (h4.prodMk h5)))

theorem rk4_step {n : ℕ} {f : SatState n → Py (Raw n)} {g : Raw n → Raw n} (hf : Spec.Autonomous f g) {dt : ℝ}
    {s s' : SatState n} (hs : Consistent s) (h : rk4Step f dt s = .ok s') :
    toCont s'.arr = step (fun p => toCont (g (ofCont p))) dt (toCont s.arr) := by
  obtain ⟨k1, k2, k3, k4, s2, s3, s4, a1, b1, a2, b2, a3, b3, a4, h6⟩ := rk4_ok h
  have c1 := hf _ _ hs a1
  have c2 := hf _ _ (mkState_consistent b1).1 a2
  have c3 := hf _ _ (mkState_consistent b2).1 a3
  have c4 := hf _ _ (mkState_consistent b3).1 a4
  rw [(add_ok b1).1] at c2
  rw [(add_ok b2).1] at c3
  rw [(add_ok b3).1] at c4
  have d1 : toCont k1 = (fun p => toCont (g (ofCont p))) (toCont s.arr) := by rw [c1]; rfl
  have d2 : toCont k2 = (fun p => toCont (g (ofCont p))) (toCont s.arr + (dt / 2) • toCont k1) := by rw [c2]; rfl
  have d3 : toCont k3 = (fun p => toCont (g (ofCont p))) (toCont s.arr + (dt / 2) • toCont k2) := by rw [c3]; rfl
  have d4 : toCont k4 = (fun p => toCont (g (ofCont p))) (toCont s.arr + dt • toCont k3) := by rw [c4]; rfl
  rw [(add_ok h6).1]
  simp only [toCont_add, toCont_smul]
  unfold step
  dsimp only at d1 d2 d3 d4 ⊢
  rw [← d1, ← d2, ← d3, ← d4]

/-- C135 partial: for fields that need not be linear, if the field depends on the contents of the state only, in
an analytic way, the error of every number of the state after one step is of fifth order. `y` is the exact motion
from the same start. Missing: fields that depend on the time (`C135_order_fails`). -/
theorem C135_analytic_partial {n : ℕ} {f : SatState n → Py (Raw n)} {g : Raw n → Raw n} (hf : Spec.Autonomous f g)
    {s : SatState n} (hs : Consistent s) (hg : Spec.Analytic g s.arr) {y : ℝ → Raw n} {lo hi : ℝ} (hlo : lo < 0)
    (hhi : 0 < hi) (hy : Spec.Motion f y lo hi) (h0 : y 0 = s.arr) :
    ∃ C h : ℝ, 0 < h ∧ ∀ (dt : ℝ) (s' : SatState n), |dt| < h → rk4Step f dt s = .ok s' →
      Spec.Within (C * |dt| ^ 5) s'.arr (y dt) := by
  have hz := step_order hg (y := fun t => toCont (y t)) (by rw [h0]) (by
    filter_upwards [isOpen_Ioo.mem_nhds (⟨hlo, hhi⟩ : (0 : ℝ) ∈ Set.Ioo lo hi)] with t ht
    exact motion_deriv hf hy ht)
  obtain ⟨C, hC⟩ := hz.bound
  obtain ⟨r, hr, hb⟩ := Metric.eventually_nhds_iff_ball.1 hC
  refine ⟨C, r, hr, fun dt s' hdt hstep => within_of_norm ?_⟩
  have := hb dt (by rw [Metric.mem_ball, dist_zero_right]; exact hdt)
  rw [norm_pow, Real.norm_eq_abs] at this
  rw [rk4_step hf hs hstep]
  exact this

/-- Normalisation of the attitude in the contents of a state. -/
noncomputable def normAtt {n : ℕ} (p : Cont n) : Cont n := (p.1, p.2.1, normalizeV p.2.2.1, p.2.2.2)

theorem contDiffAt_normalize {k : ℕ} (m : WithTop ℕ∞) {x0 : Fin k → ℝ} (h0 : x0 ≠ 0) :
    ContDiffAt ℝ m (fun x : Fin k → ℝ => normalizeV x) x0 := by
  have e : (fun x : Fin k → ℝ => normalizeV x) =ᶠ[𝓝 x0] fun x => (npNorm x)⁻¹ • x :=
    Filter.Eventually.mono (isOpen_ne.mem_nhds h0 : ∀ᶠ x in 𝓝 x0, x ≠ 0) fun x hx => normalize_eq hx
  refine ContDiffAt.congr_of_eventuallyEq ?_ e
  exact ((contDiffAt_npNorm m h0).inv (npNorm_pos h0).ne').smul contDiffAt_id

theorem contDiffAt_normAtt {n : ℕ} (m : WithTop ℕ∞) {p : Cont n} (h0 : p.2.2.1 ≠ 0) :
    ContDiffAt ℝ m (normAtt (n := n)) p := by
  unfold normAtt
  have h1 : ContDiffAt ℝ m (fun p : Cont n => normalizeV p.2.2.1) p :=
    ContDiffAt.comp (g := fun x : V4 => normalizeV x) (f := fun p : Cont n => p.2.2.1) p (contDiffAt_normalize m h0)
      (by fun_prop)
  exact contDiffAt_fst.prodMk (ContDiffAt.prodMk (by fun_prop) (h1.prodMk (by fun_prop)))

theorem contDiffAt_step {E : Type} [NormedAddCommGroup E] [NormedSpace ℝ E] [CompleteSpace E] (m : WithTop ℕ∞)
    {f : E → E} {x : E} (hf : AnalyticAt ℝ f x) : ContDiffAt ℝ m (fun p : ℝ × E => step f p.1 p.2) (0, x) := by
  have hc : ContDiffAt ℝ m f x := hf.contDiffAt
  have h1 : ContDiffAt ℝ m (fun p : ℝ × E => f p.2) (0, x) := ContDiffAt.comp ((0 : ℝ), x) (g := f) hc contDiffAt_snd
  have h2 : ContDiffAt ℝ m (fun p : ℝ × E => f (p.2 + (p.1 / 2) • f p.2)) (0, x) := by
    refine ContDiffAt.comp ((0 : ℝ), x) (g := f) (by simpa using hc) ?_
    exact contDiffAt_snd.add ((contDiffAt_fst.div_const 2).smul h1)
  have h3 : ContDiffAt ℝ m (fun p : ℝ × E => f (p.2 + (p.1 / 2) • f (p.2 + (p.1 / 2) • f p.2))) (0, x) := by
    refine ContDiffAt.comp ((0 : ℝ), x) (g := f) (by simpa using hc) ?_
    exact contDiffAt_snd.add ((contDiffAt_fst.div_const 2).smul h2)
  have h4 : ContDiffAt ℝ m (fun p : ℝ × E =>
      f (p.2 + p.1 • f (p.2 + (p.1 / 2) • f (p.2 + (p.1 / 2) • f p.2)))) (0, x) := by
    refine ContDiffAt.comp ((0 : ℝ), x) (g := f) (by simpa using hc) ?_
    exact contDiffAt_snd.add (contDiffAt_fst.smul h3)
  exact contDiffAt_snd.add (contDiffAt_fst.smul (contDiffAt_const.smul
    (((h1.add (contDiffAt_const.smul h2)).add (contDiffAt_const.smul h3)).add h4)))

/-- A solution is as smooth as one likes. -/
theorem solution_smooth {E : Type} [NormedAddCommGroup E] [NormedSpace ℝ E] [CompleteSpace E] {f : E → E}
    {y : ℝ → E} {U : Set ℝ} (hU : IsOpen U) (hf : ∀ t ∈ U, AnalyticAt ℝ f (y t))
    (hy : ∀ t ∈ U, HasDerivAt y (f (y t)) t) (m : ℕ) : ∀ t ∈ U, ContDiffAt ℝ m y t := by
  induction m with
  | zero => intro t ht; exact contDiffAt_zero.2 ⟨U, hU.mem_nhds ht, fun s hs => (hy s hs).continuousAt.continuousWithinAt⟩
  | succ m ih =>
    intro t ht
    push_cast
    refine contDiffAt_succ_iff_hasFDerivAt.2 ⟨fun s => ContinuousLinearMap.toSpanSingleton ℝ (f (y s)),
      ⟨U, hU.mem_nhds ht, fun s hs => (hy s hs).hasFDerivAt⟩, ?_⟩
    have h1 : ContDiffAt ℝ m (fun s => f (y s)) t := ContDiffAt.comp t (hf t ht).contDiffAt (ih t ht)
    exact ((ContinuousLinearMap.toSpanSingletonCLE : E ≃L[ℝ] (ℝ →L[ℝ] E)).contDiff.contDiffAt).comp t h1

theorem runs_prefix {n : ℕ} {f : SatState n → Py (Raw n)} {k : ℕ} {g g' : Integ n} (h : runs f k g = (.ok (), g'))
    {j : ℕ} (hj : j < k) : ∃ a b, runs f j g = (.ok (), a) ∧ a.update f = (.ok (), b) ∧
      runs f (j + 1) g = (.ok (), b) := by
  obtain ⟨m, rfl⟩ : ∃ m, k = j + (1 + m) := ⟨k - j - 1, by omega⟩
  rw [runs_add] at h
  rcases h1 : runs f j g with ⟨r, a⟩
  rw [h1] at h
  cases r with
  | error e => simp at h
  | ok u =>
    simp only at h
    rw [add_comm 1 m] at h
    simp only [runs] at h
    rcases h2 : a.update f with ⟨r', b⟩
    rw [h2] at h
    cases r' with
    | error e => simp at h
    | ok u' =>
      refine ⟨a, b, rfl, h2, ?_⟩
      rw [runs_add, h1]
      simp only [runs, h2]

theorem tendsto_shift (t : ℝ) : Tendsto (fun h : ℝ => t + h) (𝓝 0) (𝓝 t) := by
  have : Continuous fun h : ℝ => t + h := by fun_prop
  simpa using this.tendsto 0

theorem zero_far {n : ℕ} {a b : Raw n} (ha : a.att = 0) (hb : IsUnit4 b.att) :
    1 / 2 ≤ ‖toCont a - toCont b‖ := by
  by_contra hcon
  push Not at hcon
  have hs2 : ∀ l, b.att l ^ 2 < 1 / 4 := by
    intro l
    have h1 := (within_of_norm (a := a) (b := b) le_rfl).2.2.1 l
    rw [ha, Pi.zero_apply, zero_sub, abs_neg] at h1
    rw [← sq_abs]
    nlinarith [abs_nonneg (b.att l)]
  have h1 := npNorm4_sq b.att
  rw [(isUnit4_iff _).1 hb] at h1
  linarith [hs2 0, hs2 1, hs2 2, hs2 3]

theorem simulation_convergence {n : ℕ} {f : SatState n → Py (Raw n)} {g : Raw n → Raw n} (hf : Spec.Autonomous f g)
    {y : ℝ → Raw n} {lo hi T : ℝ} (hlo : lo < 0) (hhi : T < hi) (hy : Spec.Motion f y lo hi)
    (hg : ∀ t ∈ Set.Ioo lo hi, Spec.Analytic g (y t)) (hu : ∀ t ∈ Set.Ioo lo hi, IsUnit4 (y t).att) :
    ∃ C h : ℝ, 0 < h ∧ ∀ (i i' : Integ n) (k : ℕ), Consistent i.state → i.state.arr = y 0 → 0 < i.dt → i.dt < h →
      k * i.dt ≤ T → runs f k i = (.ok (), i') → ‖toCont i'.state.arr - toCont (y (k * i.dt))‖ ≤ C * i.dt ^ 4 := by
  set G : Cont n → Cont n := fun p => toCont (g (ofCont p)) with hG
  set Y : ℝ → Cont n := fun t => toCont (y t) with hY
  set S : ℝ × Cont n → Cont n := fun p => normAtt (step G p.1 p.2) with hS
  have hsub : ∀ t ∈ Set.Icc 0 T, t ∈ Set.Ioo lo hi := fun t ht => ⟨hlo.trans_le ht.1, ht.2.trans_lt hhi⟩
  have hatt : ∀ t ∈ Set.Ioo lo hi, (Y t).2.2.1 ≠ 0 := by
    intro t ht h0
    have h1 := (isUnit4_iff _).1 (hu t ht)
    rw [show (y t).att = 0 from h0, npNorm_eq_zero.2 rfl] at h1
    exact zero_ne_one h1
  have hYd : ∀ t ∈ Set.Ioo lo hi, HasDerivAt Y (G (Y t)) t := fun t ht => motion_deriv hf hy ht
  have hYc := solution_smooth isOpen_Ioo hg hYd 5
  have hstep0 : ∀ p : Cont n, step G 0 p = p := fun p => by simp [step]
  have hSc : ∀ t ∈ Set.Icc 0 T, ContDiffAt ℝ (4 + 1 : ℕ) S (0, Y t) := by
    intro t ht
    refine ContDiffAt.comp ((0 : ℝ), Y t) (g := normAtt) ?_ (contDiffAt_step _ (hg t (hsub t ht)))
    dsimp only
    rw [hstep0]
    exact contDiffAt_normAtt _ (hatt t (hsub t ht))
  have hz : ∀ t ∈ Set.Icc 0 T, Z (4 + 1) fun h => S (h, Y t) - Y (t + h) := by
    intro t ht
    have ht' := hsub t ht
    have hsh : ∀ᶠ h in 𝓝 (0 : ℝ), t + h ∈ Set.Ioo lo hi := by
      have : Tendsto (fun h : ℝ => t + h) (𝓝 0) (𝓝 t) := tendsto_shift t
      exact this.eventually (isOpen_Ioo.mem_nhds ht')
    have h1 : Z 5 fun h => step G h (Y t) - Y (t + h) := by
      refine step_order (hg t ht') (y := fun h => Y (t + h)) (by simp only [add_zero]; rfl) ?_
      filter_upwards [hsh] with h hh
      simpa using (hYd _ hh).comp_const_add t h
    obtain ⟨K, U, hU, hlip⟩ := (contDiffAt_normAtt 1 (hatt t ht')).exists_lipschitzOnWith
    have c1 : Tendsto (fun h => step G h (Y t)) (𝓝 0) (𝓝 (Y t)) := by
      have h2 : ContinuousAt (fun p : ℝ × Cont n => step G p.1 p.2) (0, Y t) :=
        (contDiffAt_step 0 (hg t ht')).continuousAt
      have h3 : ContinuousAt (fun h : ℝ => (h, Y t)) 0 := by fun_prop
      have h4 : ContinuousAt (fun h : ℝ => step G h (Y t)) 0 :=
        ContinuousAt.comp (g := fun p : ℝ × Cont n => step G p.1 p.2) (f := fun h : ℝ => (h, Y t)) h2 h3
      have := h4.tendsto
      rwa [hstep0] at this
    have c2 : Tendsto (fun h => Y (t + h)) (𝓝 0) (𝓝 (Y t)) := by
      have : Tendsto (fun h : ℝ => t + h) (𝓝 0) (𝓝 t) := tendsto_shift t
      exact (hYd t ht').continuousAt.tendsto.comp this
    refine IsBigO.trans (IsBigO.of_bound K ?_) h1
    filter_upwards [c1.eventually hU, c2.eventually hU, hsh] with h u1 u2 u3
    have e : normAtt (Y (t + h)) = Y (t + h) := by
      simp only [normAtt, hY, toCont]
      rw [normalize_of_unit ((isUnit4_iff _).1 (hu _ u3))]
    have := hlip.norm_sub_le u1 u2
    rwa [e] at this
  obtain ⟨C, h, hh, H⟩ := one_step (n := 4) (by norm_num) (S := S) (y := Y) (T := T) (ρ := 1 / 2)
    (M := {p | IsUnit4 p.2.2.1}) (by norm_num) hSc (fun t ht => hYc t (hsub t ht)) hz
    (by
      intro x hx
      simp only [hS, hstep0, normAtt]
      rw [normalize_of_unit ((isUnit4_iff _).1 hx)])
    (fun t ht => hu t (hsub t ht))
  refine ⟨C, h, hh, fun i i' k hic hi0 hdt hdth hk hrun => ?_⟩
  have hcons : ∀ j ≤ k, ∃ a, runs f j i = (.ok (), a) ∧ Consistent a.state ∧ a.dt = i.dt ∧
      (IsUnit4 a.state.arr.att ∨ a.state.arr.att = 0) := by
    intro j hj
    cases j with
    | zero =>
      refine ⟨i, rfl, hic, rfl, ?_⟩
      rw [hi0]
      by_cases hT : 0 ≤ T
      · exact Or.inl (hu 0 ⟨hlo, hT.trans_lt hhi⟩)
      · exfalso
        have : (0 : ℝ) ≤ k * i.dt := by positivity
        exact hT (this.trans hk)
    | succ j =>
      obtain ⟨a, b, h1, h2, h3⟩ := runs_prefix hrun (Nat.lt_of_succ_le hj)
      refine ⟨b, h3, ?_, ?_, ?_⟩
      · obtain ⟨next, c, c', -, -, -, -, h5, -⟩ := update_ok h2
        exact (mkState_consistent h5).1
      · have := runs_dt f (j + 1) i
        rwa [h3] at this
      · rcases (C72_update h2).2 with h4 | ⟨-, -, -, h4⟩
        · exact Or.inl ((isUnit4_iff _).2 h4)
        · exact Or.inr h4
  have := H i.dt hdt hdth (fun j => toCont (runs f j i).2.state.arr) k (by simp [runs, hi0, hY]) hk ?_ k le_rfl
  · rwa [hrun] at this
  · intro j hj
    obtain ⟨a, b, h1, h2, h3⟩ := runs_prefix hrun hj
    obtain ⟨a', h1', hac, hadt, hau⟩ := hcons j hj.le
    obtain rfl : a = a' := by rw [h1] at h1'; exact (Prod.ext_iff.1 h1').2
    rw [h1, h3]
    constructor
    · rcases hau with hau | hau
      · exact Or.inl hau
      · right
        have hjT : (j : ℝ) * i.dt ∈ Set.Icc 0 T :=
          ⟨by positivity, le_trans (by gcongr) hk⟩
        have hunit := hu _ (hsub _ hjT)
        exact zero_far hau hunit
    · obtain ⟨next, c, c', h4, -, -, -, h5, -⟩ := update_ok h2
      rw [(mkState_consistent h5).2.1]
      rw [hadt] at h4
      have h6 := rk4_step hf hac h4
      simp only [hS, normAtt]
      rw [← h6]
      rfl

/-- C153: accuracy of a whole simulation. If the field depends on the contents of the state only, in an analytic
way, and has an exact motion over a time longer than `T` whose attitudes are unit quaternions, then there is a
constant such that with every step that is short enough, the state after each update of a run from the same start
differs from the exact motion by at most the constant times the fourth power of the step, in every number, up to
the time `T`; the normalisation of the attitude after every step does not spoil this. -/
theorem C153_convergence {n : ℕ} {f : SatState n → Py (Raw n)} {g : Raw n → Raw n} (hf : Spec.Autonomous f g)
    {y : ℝ → Raw n} {lo hi T : ℝ} (hlo : lo < 0) (hhi : T < hi) (hy : Spec.Motion f y lo hi)
    (hg : ∀ t ∈ Set.Ioo lo hi, Spec.Analytic g (y t)) (hu : ∀ t ∈ Set.Ioo lo hi, IsUnit4 (y t).att) :
    ∃ C h : ℝ, 0 < h ∧ ∀ (i i' : Integ n) (k : ℕ), Consistent i.state → i.state.arr = y 0 → 0 < i.dt → i.dt < h →
      k * i.dt ≤ T → runs f k i = (.ok (), i') → Spec.Within (C * i.dt ^ 4) i'.state.arr (y (k * i.dt)) := by
  obtain ⟨C, h, hh, H⟩ := simulation_convergence hf hlo hhi hy hg hu
  exact ⟨C, h, hh, fun i i' k h1 h2 h3 h4 h5 h6 => within_of_norm (H i i' k h1 h2 h3 h4 h5 h6)⟩

/-! ### The equations of motion with gravity as the only force -/

/-- `Dynamics.vector_field` (dynamics.py lines 289-319) with gravity, its gradient torque included, as the only
part of the environment that acts. -/
noncomputable def Spec.gravityField (hiFi : Bool) (sat : Str.Satellite) (accl : Fin sat.rw.n → ℝ)
    (s : SatState sat.rw.n) : Py (Raw sat.rw.n) :=
  match gravityFT hiFi sat s with
  | .error e => .error e
  | .ok ft => derivative sat s ft accl

theorem contDiffAt_cross {E : Type} [NormedAddCommGroup E] [NormedSpace ℝ E] {m : WithTop ℕ∞} {u v : E → V3} {x : E}
    (hu : ContDiffAt ℝ m u x) (hv : ContDiffAt ℝ m v x) : ContDiffAt ℝ m (fun p => npCross (u p) (v p)) x := by
  have hu' := contDiffAt_pi.1 hu
  have hv' := contDiffAt_pi.1 hv
  have u0 := hu' 0; have u1 := hu' 1; have u2 := hu' 2
  have v0 := hv' 0; have v1 := hv' 1; have v2 := hv' 2
  refine contDiffAt_pi.2 fun i => ?_
  fin_cases i
  · exact (u1.mul v2).sub (u2.mul v1)
  · exact (u2.mul v0).sub (u0.mul v2)
  · exact (u0.mul v1).sub (u1.mul v0)

theorem contDiffAt_product {E : Type} [NormedAddCommGroup E] [NormedSpace ℝ E] {m : WithTop ℕ∞} {u v : E → V4} {x : E}
    (hu : ContDiffAt ℝ m u x) (hv : ContDiffAt ℝ m v x) : ContDiffAt ℝ m (fun p => Quat.product (u p) (v p)) x := by
  have hu' := contDiffAt_pi.1 hu
  have hv' := contDiffAt_pi.1 hv
  have u0 := hu' 0; have u1 := hu' 1; have u2 := hu' 2; have u3 := hu' 3
  have v0 := hv' 0; have v1 := hv' 1; have v2 := hv' 2; have v3 := hv' 3
  refine contDiffAt_pi.2 fun i => ?_
  fin_cases i
  · simp only [Fin.zero_eta, product_0]; exact (((u0.mul v0).sub (u1.mul v1)).sub (u2.mul v2)).sub (u3.mul v3)
  · simp only [Fin.mk_one, product_1]; exact (((u0.mul v1).add (u1.mul v0)).add (u2.mul v3)).sub (u3.mul v2)
  · simp only [Fin.reduceFinMk, product_2]
    exact (((u0.mul v2).sub (u1.mul v3)).add (u2.mul v0)).add (u3.mul v1)
  · simp only [Fin.reduceFinMk, product_3]
    exact (((u0.mul v3).add (u1.mul v2)).sub (u2.mul v1)).add (u3.mul v0)

theorem contDiffAt_pure {E : Type} [NormedAddCommGroup E] [NormedSpace ℝ E] {m : WithTop ℕ∞} {u : E → V3} {x : E}
    (hu : ContDiffAt ℝ m u x) : ContDiffAt ℝ m (fun p => (![0, u p 0, u p 1, u p 2] : V4)) x := by
  have hu' := contDiffAt_pi.1 hu
  refine contDiffAt_pi.2 fun i => ?_
  fin_cases i
  · exact contDiffAt_const
  · exact hu' 0
  · exact hu' 1
  · exact hu' 2

theorem contDiffAt_sandwich {E : Type} [NormedAddCommGroup E] [NormedSpace ℝ E] {m : WithTop ℕ∞} {q : E → V4}
    {u : E → V3} {x : E} (hq : ContDiffAt ℝ m q x) (hu : ContDiffAt ℝ m u x) :
    ContDiffAt ℝ m (fun p => Quat.sandwich (q p) (u p)) x := by
  have hq' := contDiffAt_pi.1 hq
  have hc : ContDiffAt ℝ m (fun p => Quat.conjugate (q p)) x := by
    refine contDiffAt_pi.2 fun i => ?_
    fin_cases i
    · exact hq' 0
    · exact (hq' 1).neg
    · exact (hq' 2).neg
    · exact (hq' 3).neg
  have h1 := contDiffAt_pi.1 (contDiffAt_product hc (contDiffAt_product (contDiffAt_pure hu) hq))
  refine contDiffAt_pi.2 fun i => ?_
  fin_cases i
  · exact h1 1
  · exact h1 2
  · exact h1 3

theorem contDiffAt_mulVec {E : Type} [NormedAddCommGroup E] [NormedSpace ℝ E] {m : WithTop ℕ∞} (A : M3)
    {u : E → V3} {x : E} (hu : ContDiffAt ℝ m u x) : ContDiffAt ℝ m (fun p => A *ᵥ u p) x := by
  have hu' := contDiffAt_pi.1 hu
  have u0 := hu' 0; have u1 := hu' 1; have u2 := hu' 2
  refine contDiffAt_pi.2 fun i => ?_
  simp only [Matrix.mulVec, Matrix.vec3_dotProduct]
  exact ((contDiffAt_const.mul u0).add (contDiffAt_const.mul u1)).add (contDiffAt_const.mul u2)

theorem contDiffAt_momentum {E : Type} [NormedAddCommGroup E] [NormedSpace ℝ E] {m : WithTop ℕ∞} (rw : Str.RWSystem)
    {u : E → Fin rw.n → ℝ} {x : E} (hu : ContDiffAt ℝ m u x) : ContDiffAt ℝ m (fun p => rw.momentum (u p)) x := by
  have hu' := contDiffAt_pi.1 hu
  unfold Str.RWSystem.momentum
  refine ContDiffAt.sum fun i _ => contDiffAt_pi.2 fun j => ?_
  exact (contDiffAt_const.mul (hu' i)).mul contDiffAt_const

theorem consistent_length {n : ℕ} {s : SatState n} (h : Consistent s) : s.attrs.length = npNorm s.arr.pos :=
  (sq_eq_sq₀ h.length.1 (npNorm_nonneg _)).1 (h.length.2.trans (npNorm3_sq _).symm)

/-- The direction of the Earth's centre in body coordinates. -/
noncomputable def nadirBody {n : ℕ} (a : Raw n) : V3 := Quat.sandwich a.att fun i => -a.pos i / npNorm a.pos

/-- The torque of the gravity gradient. -/
noncomputable def gradientTorque (sat : Str.Satellite) (a : Raw sat.rw.n) : V3 :=
  (3 * Env.Orb.MU / npNorm a.pos ^ 3) • npCross (nadirBody a) (sat.totalMoment *ᵥ nadirBody a)

/-- That field depends on the contents of the state only, and is analytic wherever it is defined; what it is. -/
theorem gravityField_form (hiFi : Bool) (sat : Str.Satellite) (accl : Fin sat.rw.n → ℝ) :
    ∃ g : Raw sat.rw.n → Raw sat.rw.n, Spec.Autonomous (Spec.gravityField hiFi sat accl) g ∧
      (∀ a : Raw sat.rw.n, a.pos ≠ 0 → Spec.Analytic g a) ∧
      (∀ a : Raw sat.rw.n, (g a).pos = a.vel ∧
        (a.pos ≠ 0 → Env.Plain.gravityAccel hiFi a.pos (npNorm a.pos) = .ok (g a).vel) ∧
        (g a).att = (0.5 : ℝ) • Quat.product a.att ![0, a.rate 0, a.rate 1, a.rate 2] ∧
        (g a).rate = sat.invTotMoment *ᵥ (gradientTorque sat a - sat.rw.torque accl -
          npCross a.rate (sat.rw.momentum a.whl + sat.totalMoment *ᵥ a.rate)) ∧ (g a).whl = accl) ∧
      ∀ s, Consistent s → s.arr.pos ≠ 0 → sat.mass ≠ 0 → Spec.gravityField hiFi sat accl s = .ok (g s.arr) := by
  obtain ⟨G, hG⟩ := gravity_contDiff hiFi ⊤
  set N : Raw sat.rw.n → V3 := nadirBody with hN'
  have hN : N = fun a => Quat.sandwich a.att fun i => -a.pos i / npNorm a.pos := rfl
  set g : Raw sat.rw.n → Raw sat.rw.n := fun a =>
    { pos := a.vel
      vel := G a.pos
      att := (0.5 : ℝ) • Quat.product a.att ![0, a.rate 0, a.rate 1, a.rate 2]
      rate := sat.invTotMoment *ᵥ ((3 * Env.Orb.MU / npNorm a.pos ^ 3) • npCross (N a) (sat.totalMoment *ᵥ N a) -
        sat.rw.torque accl - npCross a.rate (sat.rw.momentum a.whl + sat.totalMoment *ᵥ a.rate))
      whl := accl } with hg
  have hdef : ∀ s, Consistent s → s.arr.pos ≠ 0 → sat.mass ≠ 0 →
      Spec.gravityField hiFi sat accl s = .ok (g s.arr) := by
    intro s hs h0 hm
    have hr := npNorm_pos h0
    have hl := consistent_length hs
    have ha : Env.Orb.gravityAccel hiFi s = .ok (G s.arr.pos) := by
      have h1 : Env.Orb.gravityAccel hiFi s = Env.Plain.gravityAccel hiFi s.attrs.position s.attrs.length := by
        cases hiFi <;> rfl
      rw [h1, hs.position, hl]
      exact (hG _ h0).2
    simp only [Spec.gravityField, gravityFT, ha, npVDiv, npDiv, hl, hs.position, hs.attitude, if_neg hr.ne',
      if_neg (pow_pos hr 3).ne', derivative, if_neg hm, hs.velocity, hs.bodyAngVel, hs.wheelVel, Pi.neg_apply]
    congr 1
    simp only [hg, hN, Raw.mk.injEq, true_and, and_true]
    funext i
    field_simp
  refine ⟨g, ?_, ?_, fun a => ⟨rfl, fun h => (hG _ h).2, rfl, rfl, rfl⟩, hdef⟩
  · intro s k hs hk
    have hm : sat.mass ≠ 0 := by
      intro hm
      simp only [Spec.gravityField, derivative, npVDiv, hm, if_true] at hk
      split at hk <;> simp at hk
    have h0 : s.arr.pos ≠ 0 := by
      intro h0
      have hl := consistent_length hs
      rw [h0, npNorm_eq_zero.2 rfl] at hl
      simp [Spec.gravityField, gravityFT, Env.Orb.gravityAccel, npDiv, hl] at hk
    rw [hdef s hs h0 hm] at hk
    exact (Except.ok.inj hk).symm
  · intro a h0
    have hr := npNorm_pos h0
    have p1 : ContDiffAt ℝ ⊤ (fun p : Cont sat.rw.n => p.1) (toCont a) := contDiffAt_fst
    have p2 : ContDiffAt ℝ ⊤ (fun p : Cont sat.rw.n => p.2.1) (toCont a) := by fun_prop
    have p3 : ContDiffAt ℝ ⊤ (fun p : Cont sat.rw.n => p.2.2.1) (toCont a) := by fun_prop
    have p4 : ContDiffAt ℝ ⊤ (fun p : Cont sat.rw.n => p.2.2.2.1) (toCont a) := by fun_prop
    have p5 : ContDiffAt ℝ ⊤ (fun p : Cont sat.rw.n => p.2.2.2.2) (toCont a) := by fun_prop
    have n1 : ContDiffAt ℝ ⊤ (fun p : Cont sat.rw.n => npNorm p.1) (toCont a) :=
      ContDiffAt.comp (toCont a) (g := fun x : V3 => npNorm x) (contDiffAt_npNorm ⊤ h0) p1
    have hNc : ContDiffAt ℝ ⊤ (fun p : Cont sat.rw.n => N (ofCont p)) (toCont a) := by
      refine contDiffAt_sandwich p3 (contDiffAt_pi.2 fun i => ?_)
      exact ((contDiffAt_pi.1 p1 i).neg).div n1 hr.ne'
    have : ContDiffAt ℝ ⊤ (fun p : Cont sat.rw.n => toCont (g (ofCont p))) (toCont a) := by
      refine p2.prodMk (ContDiffAt.prodMk ?_ (ContDiffAt.prodMk ?_ (ContDiffAt.prodMk ?_ contDiffAt_const)))
      · exact ContDiffAt.comp (toCont a) (g := G) (hG _ h0).1 p1
      · exact (contDiffAt_product p3 (contDiffAt_pure p4)).const_smul (0.5 : ℝ)
      · refine contDiffAt_mulVec _ ((ContDiffAt.sub ?_ contDiffAt_const).sub ?_)
        · exact (contDiffAt_const.div (n1.pow 3) (pow_pos hr 3).ne').smul
            (contDiffAt_cross hNc (contDiffAt_mulVec _ hNc))
        · exact contDiffAt_cross p4 ((contDiffAt_momentum _ p5).add (contDiffAt_mulVec _ p4))
    exact this.analyticAt

/-- That field depends on the contents of the state only, and is analytic wherever it is defined. -/
theorem gravityField_analytic (hiFi : Bool) (sat : Str.Satellite) (accl : Fin sat.rw.n → ℝ) :
    ∃ g : Raw sat.rw.n → Raw sat.rw.n, Spec.Autonomous (Spec.gravityField hiFi sat accl) g ∧
      (∀ a : Raw sat.rw.n, a.pos ≠ 0 → Spec.Analytic g a) ∧
      (∀ a : Raw sat.rw.n, (g a).att = (0.5 : ℝ) • Quat.product a.att ![0, a.rate 0, a.rate 1, a.rate 2]) ∧
      ∀ s, Consistent s → s.arr.pos ≠ 0 → sat.mass ≠ 0 → Spec.gravityField hiFi sat accl s = .ok (g s.arr) := by
  obtain ⟨g, h1, h2, h3, h4⟩ := gravityField_form hiFi sat accl
  exact ⟨g, h1, h2, fun a => (h3 a).2.2.1, h4⟩

theorem gravityField_pos {hiFi : Bool} {sat : Str.Satellite} {accl : Fin sat.rw.n → ℝ} {y : ℝ → Raw sat.rw.n}
    {lo hi t : ℝ} (hy : Spec.Motion (Spec.gravityField hiFi sat accl) y lo hi) (ht : t ∈ Set.Ioo lo hi) :
    (y t).pos ≠ 0 := by
  obtain ⟨c, s, k, hs, hk, -⟩ := hy t ht
  obtain ⟨hcs, ha, -⟩ := C80_new hs
  intro h0
  have hl := consistent_length hcs
  rw [ha, h0, npNorm_eq_zero.2 rfl] at hl
  simp [Spec.gravityField, gravityFT, Env.Orb.gravityAccel, npDiv, hl] at hk

/-- The attitude of an exact motion remains a unit quaternion. -/
theorem motion_unit {n : ℕ} {f : SatState n → Py (Raw n)} {y : ℝ → Raw n} {lo hi : ℝ}
    (hatt : ∀ s k, Consistent s → f s = .ok k →
      k.att = (0.5 : ℝ) • Quat.product s.arr.att ![0, s.arr.rate 0, s.arr.rate 1, s.arr.rate 2])
    (hy : Spec.Motion f y lo hi) {s t : ℝ} (hs : s ∈ Set.Ioo lo hi) (ht : t ∈ Set.Ioo lo hi)
    (h : IsUnit4 (y s).att) : IsUnit4 (y t).att := by
  have hc : ∀ u ∈ Set.Ioo lo hi, HasDerivAt (fun u => (y u).att 0 ^ 2 + (y u).att 1 ^ 2 + (y u).att 2 ^ 2 +
      (y u).att 3 ^ 2) 0 u := by
    intro u hu
    obtain ⟨c, st, k, hst, hk, -, -, h3, -⟩ := hy u hu
    obtain ⟨hcs, ha, -⟩ := C80_new hst
    have e := hatt st k hcs hk
    rw [ha] at e
    have h4 := hasDerivAt_pi.1 h3
    refine (((((h4 0).fun_pow 2).fun_add ((h4 1).fun_pow 2)).fun_add ((h4 2).fun_pow 2)).fun_add
      ((h4 3).fun_pow 2)).congr_deriv ?_
    simp only [e, Pi.smul_apply, smul_eq_mul, product_0, product_1, product_2, product_3, Matrix.cons_val_zero,
      Matrix.cons_val_one, Matrix.cons_val_two, Matrix.cons_val_three, Matrix.tail_cons, Matrix.head_cons]
    ring
  have := const_Ioo hc hs ht
  rw [isUnit4_iff] at h ⊢
  have h1 := npNorm4_sq (y s).att
  have h2 := npNorm4_sq (y t).att
  rw [h] at h1
  have h3 : npNorm (y t).att ^ 2 = 1 ^ 2 := by rw [h2, h1]; exact this.symm
  exact (sq_eq_sq₀ (npNorm_nonneg _) zero_le_one).1 h3

/-- C153 for the library's equations of motion under gravity and its gradient torque, in either fidelity, with the
wheels accelerating at constant rates: every simulation from the start of an exact motion follows it with an error
of fourth order in the step. -/
theorem C153_gravity (hiFi : Bool) (sat : Str.Satellite) (accl : Fin sat.rw.n → ℝ) {y : ℝ → Raw sat.rw.n}
    {lo hi T : ℝ} (hlo : lo < 0) (hhi0 : 0 < hi) (hhi : T < hi)
    (hy : Spec.Motion (Spec.gravityField hiFi sat accl) y lo hi) (h0 : IsUnit4 (y 0).att) :
    ∃ C h : ℝ, 0 < h ∧ ∀ (i i' : Integ sat.rw.n) (k : ℕ), Consistent i.state → i.state.arr = y 0 → 0 < i.dt →
      i.dt < h → k * i.dt ≤ T → runs (Spec.gravityField hiFi sat accl) k i = (.ok (), i') →
      Spec.Within (C * i.dt ^ 4) i'.state.arr (y (k * i.dt)) := by
  obtain ⟨g, hg, hga, hgatt, -⟩ := gravityField_analytic hiFi sat accl
  refine C153_convergence hg hlo hhi hy (fun t ht => hga _ ?_) (fun t ht => ?_)
  · exact gravityField_pos hy ht
  · exact motion_unit (fun s k hs hk => by rw [hg s k hs hk, hgatt]) hy ⟨hlo, hhi0⟩ ht h0

/-- From every state outside of the Earth there is an exact motion, for a while. -/
theorem C153_exists (hiFi : Bool) (sat : Str.Satellite) (accl : Fin sat.rw.n → ℝ) (hm : sat.mass ≠ 0)
    (a : Raw sat.rw.n) (ha : 6.3e6 < npNorm a.pos) :
    ∃ (y : ℝ → Raw sat.rw.n) (ε : ℝ), 0 < ε ∧ y 0 = a ∧ Spec.Motion (Spec.gravityField hiFi sat accl) y (-ε) ε := by
  obtain ⟨g, hg, hga, -, hgd⟩ := gravityField_analytic hiFi sat accl
  have hne : ∀ {x : V3}, 6.3e6 < npNorm x → x ≠ 0 := by
    rintro x hx rfl
    rw [npNorm_eq_zero.2 rfl] at hx
    norm_num at hx
  have hF : ContDiffAt ℝ 1 (fun p : Cont sat.rw.n => toCont (g (ofCont p))) (toCont a) :=
    (show AnalyticAt ℝ _ _ from hga a (hne ha)).contDiffAt
  obtain ⟨Y, hY0, ε, hε, hY⟩ := hF.exists_forall_mem_closedBall_exists_eq_forall_mem_Ioo_hasDerivAt₀ 0
  have hev : ∀ᶠ t in 𝓝 (0 : ℝ), 6.3e6 < npNorm (Y t).1 := by
    have h1 : ContinuousAt Y 0 := (hY 0 ⟨by linarith, by linarith⟩).continuousAt
    have h2 : ContinuousAt (fun t => npNorm (Y t).1) 0 := by
      have h3 : ContinuousAt (fun x : V3 => npNorm x) (Y 0).1 := by
        rw [hY0]; exact (contDiffAt_npNorm 0 (hne ha)).continuousAt
      exact ContinuousAt.comp (f := fun t => (Y t).1) (g := fun x : V3 => npNorm x) h3 h1.fst
    refine h2.eventually (lt_mem_nhds ?_)
    dsimp only
    rw [hY0]; exact ha
  obtain ⟨r, hr, hball⟩ := Metric.eventually_nhds_iff.1 hev
  refine ⟨fun t => ofCont (Y t), min ε r, lt_min hε hr, by dsimp only; rw [hY0]; rfl, ?_⟩
  rintro t ⟨ht1, ht2⟩
  have hd := hY t ⟨by have := min_le_left ε r; linarith, by have := min_le_left ε r; linarith⟩
  have hx : 6.3e6 < npNorm (Y t).1 := hball (by
    rw [Real.dist_eq, sub_zero, abs_lt]
    exact ⟨by have := min_le_right ε r; linarith, by have := min_le_right ε r; linarith⟩)
  obtain ⟨s, hs, -⟩ := C127_new (ofCont (Y t)) exClock hx.le
  obtain ⟨hc, hsa, -⟩ := C80_new hs
  have e := hgd s hc (by rw [hsa]; exact hne hx) hm
  rw [hsa] at e
  exact ⟨exClock, s, _, hs, e, hd.fst, hd.snd.fst, hd.snd.snd.fst, hd.snd.snd.snd.fst, hd.snd.snd.snd.snd⟩

/-- A step does not raise if the states on the way are outside of the Earth. -/
theorem rk4_completes {n : ℕ} {f : SatState n → Py (Raw n)} {g : Raw n → Raw n}
    (hdef : ∀ s, Consistent s → 6.3e6 ≤ npNorm s.arr.pos → f s = .ok (g s.arr)) {s : SatState n} {c : JClock}
    (hs : Consistent s) (hc : s.clock = some c) {dt : ℝ} {k2 k3 k4 : Raw n} (h1 : 6.3e6 ≤ npNorm s.arr.pos)
    (h2 : 6.3e6 ≤ npNorm (s.arr + (dt / 2) • g s.arr).pos) (e2 : k2 = g (s.arr + (dt / 2) • g s.arr))
    (h3 : 6.3e6 ≤ npNorm (s.arr + (dt / 2) • k2).pos) (e3 : k3 = g (s.arr + (dt / 2) • k2))
    (h4 : 6.3e6 ≤ npNorm (s.arr + dt • k3).pos) (e4 : k4 = g (s.arr + dt • k3))
    (h5 : 6.3e6 ≤ npNorm (s.arr + dt • ((1 / 6 : ℝ) • (g s.arr + (2 : ℝ) • k2 + (2 : ℝ) • k3 + k4))).pos) :
    ∃ s', rk4Step f dt s = .ok s' ∧ s'.clock = some c ∧
      s'.arr = s.arr + dt • ((1 / 6 : ℝ) • (g s.arr + (2 : ℝ) • k2 + (2 : ℝ) • k3 + k4)) := by
  have hadd : ∀ o : Raw n, 6.3e6 ≤ npNorm (s.arr + o).pos → ∃ s', s.add o = .ok s' ∧ Consistent s' ∧
      s'.arr = s.arr + o := by
    intro o ho
    obtain ⟨s', h, -⟩ := C127_new (s.arr + o) c ho
    refine ⟨s', ?_, (C80_new h).1, (C80_new h).2.1⟩
    unfold SatState.add; rw [hc]; exact h
  obtain ⟨s2, a2, b2, c2⟩ := hadd _ h2
  have f2 := hdef s2 b2 (by rw [c2]; exact h2)
  rw [c2, ← e2] at f2
  obtain ⟨s3, a3, b3, c3⟩ := hadd _ h3
  have f3 := hdef s3 b3 (by rw [c3]; exact h3)
  rw [c3, ← e3] at f3
  obtain ⟨s4, a4, b4, c4⟩ := hadd _ h4
  have f4 := hdef s4 b4 (by rw [c4]; exact h4)
  rw [c4, ← e4] at f4
  obtain ⟨s5, a5, b5, c5⟩ := hadd _ h5
  refine ⟨s5, ?_, ?_, c5⟩
  · unfold rk4Step; simp only [hdef s hs h1, a2, f2, a3, f3, a4, f4, a5]
  · rw [(add_ok a5).2.1, hc]

theorem far_of_near {n : ℕ} {a b : Raw n} (hb : 6.4e6 ≤ npNorm b.pos) (h : dist (toCont a) (toCont b) < 10000) :
    6.3e6 ≤ npNorm a.pos := by
  rw [dist_eq_norm] at h
  have hw := (within_of_norm h.le).1
  have h1 := npNorm_add3 a.pos (b.pos - a.pos)
  rw [add_sub_cancel] at h1
  have h2 : npNorm (b.pos - a.pos) ≤ 20000 := by
    refine abs_le_of_sq_le_sq' ?_ (by norm_num) |>.2
    rw [npNorm3_sq]
    have hq : ∀ i, (b.pos - a.pos) i ^ 2 ≤ 10000 ^ 2 := fun i => by
      rw [Pi.sub_apply, ← sq_abs, abs_sub_comm]
      have := hw i
      nlinarith [abs_nonneg (a.pos i - b.pos i)]
    have := hq 0; have := hq 1; have := hq 2
    linarith
  norm_num at hb ⊢
  linarith

theorem propagate_completes {g : Gyro} {dt : ℝ} (hdt : 0 < dt) (h1 : 0 ≤ g.arwVar) (h2 : 0 ≤ g.rrwVar) (rng : Rng) :
    ∃ g' rng', g.propagate dt rng = .ok (g', rng') ∧ g'.arwVar = g.arwVar ∧ g'.rrwVar = g.rrwVar := by
  have h : 0 ≤ g.arwVar / dt + g.rrwVar * dt := by positivity
  unfold Gyro.propagate npSqrt
  simp only [if_neg (not_lt.2 hdt.le), if_neg hdt.ne', if_neg (not_lt.2 h)]
  exact ⟨_, _, rfl, rfl, rfl⟩

/-- C153: moreover, if the exact motion stays outside of the Earth, simulations with a step that is short enough do
not raise, as long as the calendar does not run out, so they do arrive there. The field is assumed to be defined
outside of the Earth. -/
theorem C153_completes {n : ℕ} {f : SatState n → Py (Raw n)} {g : Raw n → Raw n}
    (hdef : ∀ s, Consistent s → 6.3e6 ≤ npNorm s.arr.pos → f s = .ok (g s.arr)) (hf : Spec.Autonomous f g)
    {y : ℝ → Raw n} {lo hi T : ℝ} (hlo : lo < 0) (hhi : T < hi) (hy : Spec.Motion f y lo hi)
    (hg : ∀ t ∈ Set.Ioo lo hi, Spec.Analytic g (y t)) (hu : ∀ t ∈ Set.Ioo lo hi, IsUnit4 (y t).att)
    (hr : ∀ t ∈ Set.Icc 0 T, 6.4e6 ≤ npNorm (y t).pos) :
    ∃ C h : ℝ, 0 < h ∧ ∀ (i : Integ n) (c : JClock) (k : ℕ), Consistent i.state → i.state.arr = y 0 →
      i.state.clock = some c → 0 < i.dt → i.dt < h → k * i.dt ≤ T → 0 ≤ i.gyro.arwVar → 0 ≤ i.gyro.rrwVar →
      (∀ j : ℕ, j ≤ k → InRange (c.datetime + j * timedelta i.dt)) →
      ∃ i', runs f k i = (.ok (), i') ∧ Spec.Within (C * i.dt ^ 4) i'.state.arr (y (k * i.dt)) := by
  obtain ⟨C, h0, hh0, hconv⟩ := simulation_convergence hf hlo hhi hy hg hu
  set G : Cont n → Cont n := fun p => toCont (g (ofCont p)) with hG
  set Y : ℝ → Cont n := fun t => toCont (y t) with hY
  have hsub : ∀ t ∈ Set.Icc 0 T, t ∈ Set.Ioo lo hi := fun t ht => ⟨hlo.trans_le ht.1, ht.2.trans_lt hhi⟩
  have hYc : ∀ t ∈ Set.Icc 0 T, ContinuousAt Y t := fun t ht => (motion_deriv hf hy (hsub t ht)).continuousAt
  have hGc : ∀ t ∈ Set.Icc 0 T, ContinuousAt G (Y t) := fun t ht =>
    (show AnalyticAt ℝ _ _ from hg t (hsub t ht)).continuousAt
  have st1 : ∀ t ∈ Set.Icc 0 T, ContinuousAt (fun p : ℝ × Cont n => G p.2) (0, Y t) := fun t ht =>
    ContinuousAt.comp (f := fun p : ℝ × Cont n => p.2) (g := G) (hGc t ht) continuousAt_snd
  have st2' : ∀ t ∈ Set.Icc 0 T, ContinuousAt (fun p : ℝ × Cont n => p.2 + (p.1 / 2) • G p.2) (0, Y t) :=
    fun t ht => continuousAt_snd.add ((continuousAt_fst.div_const 2).smul (st1 t ht))
  have st2 : ∀ t ∈ Set.Icc 0 T, ContinuousAt (fun p : ℝ × Cont n => G (p.2 + (p.1 / 2) • G p.2)) (0, Y t) :=
    fun t ht => ContinuousAt.comp (g := G) (by simpa using hGc t ht) (st2' t ht)
  have st3' : ∀ t ∈ Set.Icc 0 T, ContinuousAt (fun p : ℝ × Cont n =>
      p.2 + (p.1 / 2) • G (p.2 + (p.1 / 2) • G p.2)) (0, Y t) :=
    fun t ht => continuousAt_snd.add ((continuousAt_fst.div_const 2).smul (st2 t ht))
  have st3 : ∀ t ∈ Set.Icc 0 T, ContinuousAt (fun p : ℝ × Cont n =>
      G (p.2 + (p.1 / 2) • G (p.2 + (p.1 / 2) • G p.2))) (0, Y t) :=
    fun t ht => ContinuousAt.comp (g := G) (by simpa using hGc t ht) (st3' t ht)
  have st4' : ∀ t ∈ Set.Icc 0 T, ContinuousAt (fun p : ℝ × Cont n =>
      p.2 + p.1 • G (p.2 + (p.1 / 2) • G (p.2 + (p.1 / 2) • G p.2))) (0, Y t) :=
    fun t ht => continuousAt_snd.add (continuousAt_fst.smul (st3 t ht))
  have st5 : ∀ t ∈ Set.Icc 0 T, ContinuousAt (fun p : ℝ × Cont n => step G p.1 p.2) (0, Y t) := fun t ht =>
    (contDiffAt_step 0 (hg t (hsub t ht))).continuousAt
  obtain ⟨r2, hr2, H2⟩ := tube isCompact_Icc hYc st2' (by simp) (δ := 10000) (by norm_num)
  obtain ⟨r3, hr3, H3⟩ := tube isCompact_Icc hYc st3' (by simp) (δ := 10000) (by norm_num)
  obtain ⟨r4, hr4, H4⟩ := tube isCompact_Icc hYc st4' (by simp) (δ := 10000) (by norm_num)
  obtain ⟨r5, hr5, H5⟩ := tube isCompact_Icc hYc st5 (by simp [step]) (δ := 10000) (by norm_num)
  set r := min (min r2 r3) (min r4 r5) with hrdef
  have hr0 : 0 < r := by positivity
  have l2 : r ≤ r2 := (min_le_left _ _).trans (min_le_left _ _)
  have l3 : r ≤ r3 := (min_le_left _ _).trans (min_le_right _ _)
  have l4 : r ≤ r4 := (min_le_right _ _).trans (min_le_left _ _)
  have l5 : r ≤ r5 := (min_le_right _ _).trans (min_le_right _ _)
  refine ⟨C, min (min h0 r) (min 1 (min r 10000 / (|C| + 1))), by positivity, ?_⟩
  intro i c k hic hi0 hcl hdt hlt hk hg1 hg2 hcal
  have hlt0 : i.dt < h0 := lt_of_lt_of_le hlt ((min_le_left _ _).trans (min_le_left _ _))
  have hltr : i.dt < r := lt_of_lt_of_le hlt ((min_le_left _ _).trans (min_le_right _ _))
  have hlt1 : i.dt < 1 := lt_of_lt_of_le hlt ((min_le_right _ _).trans (min_le_left _ _))
  have hltC : i.dt < min r 10000 / (|C| + 1) := lt_of_lt_of_le hlt ((min_le_right _ _).trans (min_le_right _ _))
  have hsmall : C * i.dt ^ 4 < min r 10000 := by
    have h1 : i.dt ^ 4 ≤ i.dt := by
      calc i.dt ^ 4 ≤ i.dt ^ 1 := pow_le_pow_of_le_one hdt.le hlt1.le (by norm_num)
        _ = i.dt := pow_one _
    have h2 : i.dt * (|C| + 1) < min r 10000 := (lt_div_iff₀ (by positivity)).1 hltC
    have h3 : C * i.dt ^ 4 ≤ |C| * i.dt ^ 4 := mul_le_mul_of_nonneg_right (le_abs_self C) (by positivity)
    nlinarith [abs_nonneg C]
  have hind : ∀ j : ℕ, j ≤ k → ∃ a, runs f j i = (.ok (), a) ∧ Consistent a.state ∧ a.dt = i.dt ∧
      a.gyro.arwVar = i.gyro.arwVar ∧ a.gyro.rrwVar = i.gyro.rrwVar ∧
      ∃ ca, a.state.clock = some ca ∧ ca.datetime = c.datetime + j * timedelta i.dt := by
    intro j
    induction j with
    | zero => intro _; exact ⟨i, rfl, hic, rfl, rfl, rfl, c, hcl, by simp⟩
    | succ j ih =>
      intro hj
      obtain ⟨a, ha, hac, hadt, hv1, hv2, ca, hca, hcd⟩ := ih (by omega)
      have hjT : (j : ℝ) * i.dt ∈ Set.Icc 0 T := by
        refine ⟨by positivity, le_trans ?_ hk⟩
        have : (j : ℝ) ≤ k := by exact_mod_cast (by omega : j ≤ k)
        gcongr
      have hd := hconv i a j hic hi0 hdt hlt0 hjT.2 ha
      rw [← dist_eq_norm] at hd
      have hd1 := hd.trans_lt (hsmall.trans_le (min_le_left _ _))
      have hd2 := hd.trans_lt (hsmall.trans_le (min_le_right _ _))
      have habs : |i.dt| < r := by rwa [abs_of_pos hdt]
      have hrj := hr _ hjT
      obtain ⟨s', e1, e2, e3⟩ := rk4_completes hdef hac hca (dt := i.dt) (far_of_near hrj hd2)
        (far_of_near hrj (H2 _ hjT _ (hd1.trans_le l2) _ (habs.trans_le l2))) rfl
        (far_of_near hrj (H3 _ hjT _ (hd1.trans_le l3) _ (habs.trans_le l3))) rfl
        (far_of_near hrj (H4 _ hjT _ (hd1.trans_le l4) _ (habs.trans_le l4))) rfl
        (far_of_near hrj (H5 _ hjT _ (hd1.trans_le l5) _ (habs.trans_le l5)))
      have e4 : 6.3e6 ≤ npNorm s'.arr.pos := by
        rw [e3]; exact far_of_near hrj (H5 _ hjT _ (hd1.trans_le l5) _ (habs.trans_le l5))
      have hin : InRange (ca.datetime + timedelta i.dt) := by
        have := hcal (j + 1) hj
        rw [hcd]
        push_cast at this
        rwa [show c.datetime + ((j : ℤ) + 1) * timedelta i.dt = c.datetime + j * timedelta i.dt + timedelta i.dt by
          ring] at this
      have htick : ca.tick i.dt = (.ok (), { ca with datetime := ca.datetime + timedelta i.dt }) := by
        simp only [JClock.tick, if_pos hin]
      obtain ⟨s6, e6, -⟩ := C127_new { s'.arr with att := normalizeV s'.arr.att }
        { ca with datetime := ca.datetime + timedelta i.dt } e4
      obtain ⟨gy, rng, hgy, w1, w2⟩ := propagate_completes (g := a.gyro) hdt (by rw [hv1]; exact hg1)
        (by rw [hv2]; exact hg2) a.rng
      have hup : a.update f = (.ok (), { a with state := s6, gyro := gy, rng := rng }) := by
        have e6' : mkState { s'.arr with att := normalizeV s'.arr.att }
          (some { ca with datetime := ca.datetime + timedelta i.dt }) = .ok s6 := e6
        unfold Integ.update
        simp only [hadt, e1, e2, htick, SatState.update, e6', hgy]
      refine ⟨{ a with state := s6, gyro := gy, rng := rng }, ?_, (C80_new e6).1, hadt, w1.trans hv1, w2.trans hv2, _,
        (C80_new e6).2.2, ?_⟩
      · rw [runs_add, ha]; simp only [runs, hup]
      · simp only [hcd]; push_cast; ring
  obtain ⟨i', hi', -⟩ := hind k le_rfl
  exact ⟨i', hi', within_of_norm (hconv i i' k hic hi0 hdt hlt0 hk hi')⟩

/-- C153 for the equations of motion under gravity: total correctness. -/
theorem C153_gravity_completes (hiFi : Bool) (sat : Str.Satellite) (hm : sat.mass ≠ 0) (accl : Fin sat.rw.n → ℝ)
    {y : ℝ → Raw sat.rw.n} {lo hi T : ℝ} (hlo : lo < 0) (hhi0 : 0 < hi) (hhi : T < hi)
    (hy : Spec.Motion (Spec.gravityField hiFi sat accl) y lo hi) (h0 : IsUnit4 (y 0).att)
    (hr : ∀ t ∈ Set.Icc 0 T, 6.4e6 ≤ npNorm (y t).pos) :
    ∃ C h : ℝ, 0 < h ∧ ∀ (i : Integ sat.rw.n) (c : JClock) (k : ℕ), Consistent i.state → i.state.arr = y 0 →
      i.state.clock = some c → 0 < i.dt → i.dt < h → k * i.dt ≤ T → 0 ≤ i.gyro.arwVar → 0 ≤ i.gyro.rrwVar →
      (∀ j : ℕ, j ≤ k → InRange (c.datetime + j * timedelta i.dt)) →
      ∃ i', runs (Spec.gravityField hiFi sat accl) k i = (.ok (), i') ∧
        Spec.Within (C * i.dt ^ 4) i'.state.arr (y (k * i.dt)) := by
  obtain ⟨g, hg, hga, hgatt, hgd⟩ := gravityField_analytic hiFi sat accl
  refine C153_completes (fun s hs h => hgd s hs ?_ hm) hg hlo hhi hy (fun t ht => hga _ ?_) (fun t ht => ?_) hr
  · rintro h0
    rw [h0, npNorm_eq_zero.2 rfl] at h
    norm_num at h
  · exact gravityField_pos hy ht
  · exact motion_unit (fun s k hs hk => by rw [hg s k hs hk, hgatt]) hy ⟨hlo, hhi0⟩ ht h0

/-- A satellite at 422 km, any mass and inertia, any wheel accelerations: the hypotheses of `C153_gravity_completes`
are met for some time, and those of `C135_analytic_partial` at its start. -/
example (hiFi : Bool) (sat : Str.Satellite) (hm : sat.mass ≠ 0) (accl : Fin sat.rw.n → ℝ) :
    ∃ (y : ℝ → Raw sat.rw.n) (lo hi T : ℝ) (s : SatState sat.rw.n), lo < 0 ∧ 0 < T ∧ T < hi ∧
      Spec.Motion (Spec.gravityField hiFi sat accl) y lo hi ∧ IsUnit4 (y 0).att ∧
      (∀ t ∈ Set.Icc 0 T, 6.4e6 ≤ npNorm (y t).pos) ∧ SatState.new (y 0) (some exClock) = .ok s ∧
      ∃ g, Spec.Autonomous (Spec.gravityField hiFi sat accl) g ∧ Spec.Analytic g s.arr := by
  have hn : npNorm (exRaw sat.rw.n).pos = 6800000 := by
    rw [npNorm, Fin.sum_univ_three]
    simp [exRaw]
  obtain ⟨y, ε, hε, hy0, hy⟩ := C153_exists hiFi sat accl hm (exRaw sat.rw.n) (by rw [hn]; norm_num)
  obtain ⟨s, hs, -⟩ := exState sat.rw.n
  obtain ⟨g, hg, hga, -, -⟩ := gravityField_analytic hiFi sat accl
  have h00 : (0 : ℝ) ∈ Set.Ioo (-ε) ε := ⟨by linarith, hε⟩
  have hp : (y 0).pos ≠ 0 := gravityField_pos hy h00
  have hev : ∀ᶠ t in 𝓝 (0 : ℝ), 6.4e6 < npNorm (y t).pos := by
    have h1 : ContinuousAt (fun t => (y t).pos) 0 := by
      obtain ⟨_, _, _, -, -, h1, -⟩ := hy 0 h00
      exact h1.continuousAt
    have h3 : ContinuousAt (fun x : V3 => npNorm x) (y 0).pos := (contDiffAt_npNorm 0 hp).continuousAt
    have h2 : ContinuousAt (fun t => npNorm (y t).pos) 0 :=
      ContinuousAt.comp (f := fun t => (y t).pos) (g := fun x : V3 => npNorm x) h3 h1
    refine h2.eventually (lt_mem_nhds ?_)
    dsimp only
    rw [hy0, hn]; norm_num
  obtain ⟨r, hr, hball⟩ := Metric.eventually_nhds_iff.1 hev
  refine ⟨y, -ε, ε, min (ε / 2) (r / 2), s, by linarith, by positivity, ?_, hy, ?_, ?_, by rw [hy0]; exact hs, g, hg, ?_⟩
  · exact lt_of_le_of_lt (min_le_left _ _) (by linarith)
  · rw [hy0]; simp [exRaw, IsUnit4]; norm_num
  · intro t ht
    refine (hball ?_).le
    rw [Real.dist_eq, sub_zero, abs_of_nonneg ht.1]
    linarith [ht.2, min_le_right (ε / 2) (r / 2)]
  · rw [(C80_new hs).2.1, ← hy0]; exact hga _ hp

end Adcs
