import Verif.Proofs.SimTrack
import Verif.Props.Accuracy

set_option autoImplicit false

/-! # C212: tracking in simulations by the library's integrator -/

namespace Adcs

open Str Sens JDay Quat Vec Dyn Ctl Spec Set
open scoped Matrix

/-- One interval of a simulated loop: the controller `c`, with the memory `tr` of its trigger, is given the state of the
integrator, no object to be avoided is near (or avoidance is off), and it commands accelerations of the wheels; then
`Integrator.update` is called `m` times for the library's equations of motion with these accelerations, where the torque of
the environment is at most `δ` in every state with attributes that belong to its array, and the force on it is any. -/
def Spec.SimHold (c : RwController) (qc : V4) (δ : ℝ) (m : ℕ) (tr tr' : Trigger) (i i' : Integ c.sat.rw.n) : Prop :=
  ∃ (s : Measurements c.sat.rw.n) (objs : List V3) (law : V3) (c' : RwController) (a : Fin c.sat.rw.n → ℝ)
    (f : SatState c.sat.rw.n → Py (Raw c.sat.rw.n)),
    Measured s i.state ∧ ({ c with trigger := tr } : RwController).objects s = .ok objs ∧
    (c.objAvoidance = false ∨ Clear c.instruments objs) ∧
    ({ c with trigger := tr } : RwController).tracking s 0 0 qc = (.ok law, c') ∧ c'.trigger = tr' ∧
    c.actuatorCommands law = .ok a ∧
    (∀ st d, Consistent st → f st = .ok d → ∃ F T, npNorm T ≤ δ ∧ derivative c.sat st ⟨F, T⟩ a = .ok d) ∧ runs f m i = (.ok (), i')

/-- A run of `N` intervals. -/
def Spec.SimRun (c : RwController) (qc : V4) (δ : ℝ) (m N : ℕ) (tr : ℕ → Trigger) (i : ℕ → Integ c.sat.rw.n) : Prop :=
  ∀ n < N, Spec.SimHold c qc δ m (tr n) (tr (n + 1)) (i n) (i (n + 1))

/-- The momentum of the wheels. -/
def Spec.wheelMomentum (sat : Satellite) (st : SatState sat.rw.n) : V3 := sat.rw.momentum st.attrs.wheelVel

/-! ## From the integrator to its rotational part -/

theorem sim_slope {sat : Satellite} {mass : ℝ} {dims : V3} {ab cd : ℝ} (hb : Built sat mass dims ab cd) (hm : mass ≠ 0)
    {law : V3} {a : Fin sat.rw.n → ℝ} (hta : sat.rw.torque a = -law) {δ : ℝ} {f : SatState sat.rw.n → Py (Raw sat.rw.n)}
    (hf : ∀ st d, Consistent st → f st = .ok d → ∃ F T, npNorm T ≤ δ ∧ derivative sat st ⟨F, T⟩ a = .ok d) {s : SatState sat.rw.n}
    {d : Raw sat.rw.n} (hs : Consistent s) (hd : f s = .ok d) :
    ∃ T, npNorm T ≤ δ ∧ d.att = attRate s.arr.att s.arr.rate ∧
      d.rate = bodyAcc sat.invTotMoment sat.totalMoment law T s.arr.rate (sat.rw.momentum s.arr.whl) ∧ d.whl = a := by
  obtain ⟨F, T, hT, hd1⟩ := hf _ _ hs hd
  obtain ⟨d', hd', -, h1, h2, h3⟩ := derivative_rate hb hm s law F T a hta
  obtain rfl : d' = d := Except.ok.inj (hd'.symm.trans hd1)
  rw [hs.attitude, hs.bodyAngVel] at h2
  rw [hs.bodyAngVel, hs.wheelVel] at h3
  exact ⟨T, hT, h2, h3, h1⟩

theorem sim_step {sat : Satellite} {mass : ℝ} {dims : V3} {ab cd : ℝ} (hb : Built sat mass dims ab cd) (hm : mass ≠ 0)
    {law : V3} {a : Fin sat.rw.n → ℝ} (hta : sat.rw.torque a = -law) {δ : ℝ} {f : SatState sat.rw.n → Py (Raw sat.rw.n)}
    (hf : ∀ st d, Consistent st → f st = .ok d → ∃ F T, npNorm T ≤ δ ∧ derivative sat st ⟨F, T⟩ a = .ok d) {i i' : Integ sat.rw.n}
    (hi : Consistent i.state) (hu : i.update f = (.ok (), i')) :
    Consistent i'.state ∧ i'.dt = i.dt ∧
    RotStep sat.invTotMoment sat.totalMoment law i.dt δ i.state.arr.att i.state.arr.rate (sat.rw.momentum i.state.arr.whl)
      i'.state.arr.att i'.state.arr.rate (sat.rw.momentum i'.state.arr.whl) := by
  obtain ⟨next, c1, c2, h1, h2, h3, h4, h5, -⟩ := update_ok hu
  obtain ⟨k1, k2, k3, k4, s2, s3, s4, f1, g2, f2, g3, f3, g4, f4, g5⟩ := rk4_ok h1
  obtain ⟨q5, w5, -⟩ := mkState_consistent h5
  have r2 := mkState_consistent g2
  have r3 := mkState_consistent g3
  have r4 := mkState_consistent g4
  have r5 := mkState_consistent g5
  obtain ⟨T1, t1, x1, y1, z1⟩ := sim_slope hb hm hta hf hi f1
  obtain ⟨T2, t2, x2, y2, z2⟩ := sim_slope hb hm hta hf r2.1 f2
  obtain ⟨T3, t3, x3, y3, z3⟩ := sim_slope hb hm hta hf r3.1 f3
  obtain ⟨T4, t4, x4, y4, z4⟩ := sim_slope hb hm hta hf r4.1 f4
  have em : ∀ t : ℝ, sat.rw.momentum (i.state.arr.whl + t • a) = sat.rw.momentum i.state.arr.whl - t • law := by
    intro t
    rw [momentum_add, ← torque_eq_momentum sat a, hta, smul_neg, sub_eq_add_neg]
  have m2 : sat.rw.momentum s2.arr.whl = sat.rw.momentum i.state.arr.whl - (i.dt / 2) • law := by
    rw [r2.2.1, ← em, ← z1]; rfl
  have m3 : sat.rw.momentum s3.arr.whl = sat.rw.momentum i.state.arr.whl - (i.dt / 2) • law := by
    rw [r3.2.1, ← em, ← z2]; rfl
  have m4 : sat.rw.momentum s4.arr.whl = sat.rw.momentum i.state.arr.whl - i.dt • law := by
    rw [r4.2.1, ← em, ← z3]; rfl
  rw [m2, show s2.arr.rate = i.state.arr.rate + (i.dt / 2) • k1.rate by rw [r2.2.1]; rfl] at y2
  rw [m3, show s3.arr.rate = i.state.arr.rate + (i.dt / 2) • k2.rate by rw [r3.2.1]; rfl] at y3
  rw [m4, show s4.arr.rate = i.state.arr.rate + i.dt • k3.rate by rw [r4.2.1]; rfl] at y4
  rw [show s2.arr.rate = i.state.arr.rate + (i.dt / 2) • k1.rate by rw [r2.2.1]; rfl,
    show s2.arr.att = i.state.arr.att + (i.dt / 2) • k1.att by rw [r2.2.1]; rfl] at x2
  rw [show s3.arr.rate = i.state.arr.rate + (i.dt / 2) • k2.rate by rw [r3.2.1]; rfl,
    show s3.arr.att = i.state.arr.att + (i.dt / 2) • k2.att by rw [r3.2.1]; rfl] at x3
  rw [show s4.arr.rate = i.state.arr.rate + i.dt • k3.rate by rw [r4.2.1]; rfl,
    show s4.arr.att = i.state.arr.att + i.dt • k3.att by rw [r4.2.1]; rfl] at x4
  refine ⟨q5, h4, T1, T2, T3, T4, k1.rate, k2.rate, k3.rate, k4.rate, k1.att, k2.att, k3.att, k4.att, t1, t2, t3, t4,
    y1, x1, y2, x2, y3, x3, y4, x4, ?_, ?_, ?_⟩
  · rw [w5]
    show next.arr.rate = _
    rw [r5.2.1]; rfl
  · rw [w5]
    show normalizeV next.arr.att = _
    rw [r5.2.1]; rfl
  · rw [w5]
    show sat.rw.momentum next.arr.whl = _
    rw [← em, r5.2.1]
    show sat.rw.momentum (i.state.arr.whl + i.dt • ((1 / 6 : ℝ) • (k1.whl + (2 : ℝ) • k2.whl + (2 : ℝ) • k3.whl + k4.whl))) = _
    rw [z1, z2, z3, z4]
    congr 3
    funext x
    simp only [Pi.smul_apply, Pi.add_apply, smul_eq_mul]
    ring

/-- A held command, for `m` steps. -/
theorem sim_hold {sat : Satellite} {mass : ℝ} {dims : V3} {ab cd : ℝ} (hb : Built sat mass dims ab cd) (hm : mass ≠ 0)
    {law k w hw : V3} {a : Fin sat.rw.n → ℝ} (hta : sat.rw.torque a = -law) {j l H Lw κ δ r rr R P Q h : ℝ}
    (b : SimBound sat.invTotMoment sat.totalMoment law k w hw j l H Lw κ δ r rr R P Q h) {q : V4} (hq : npNorm q = 1)
    {X Y : ℝ} (hX : X = l * δ + l * (h * rr * Q)) (hY : Y = (9 * R + P) / 2 + 27 * R) (c4 : h * Y ≤ 1) (c5 : 12 * h * R ≤ 1)
    {f : SatState sat.rw.n → Py (Raw sat.rw.n)}
    (hf : ∀ st d, Consistent st → f st = .ok d → ∃ F T, npNorm T ≤ δ ∧ derivative sat st ⟨F, T⟩ a = .ok d) (m : ℕ) :
    ∀ {t : ℝ} {i i' : Integ sat.rw.n}, 0 ≤ t → 0 < i.dt → t + m * i.dt ≤ h → Consistent i.state →
      SimNear k law q w hw X (h * rr * Y) t i.state.arr.att i.state.arr.rate (sat.rw.momentum i.state.arr.whl) →
      runs f m i = (.ok (), i') → Consistent i'.state ∧ i'.dt = i.dt ∧
      SimNear k law q w hw X (h * rr * Y) (t + m * i.dt) i'.state.arr.att i'.state.arr.rate
        (sat.rw.momentum i'.state.arr.whl) := by
  induction m with
  | zero =>
    intro t i i' ht hdt _ hi hn hr
    obtain rfl : i = i' := by simpa [runs] using hr
    exact ⟨hi, rfl, by simpa using hn⟩
  | succ m ih =>
    intro t i i' ht hdt hth hi hn hr
    rcases hu : i.update f with ⟨res, i1⟩
    simp only [runs, hu] at hr
    cases res with
    | error e => simp at hr
    | ok u =>
      push_cast at hth
      obtain ⟨s1, s2, s3⟩ := sim_step hb hm hta hf hi hu
      have hmp : 0 ≤ (m : ℝ) * i.dt := by positivity
      have hn1 := b.step hq ht hdt (by linarith) hX hY c4 c5 hn s3
      obtain ⟨u1, u2, u3⟩ := ih (t := t + i.dt) (by linarith) (by rw [s2]; exact hdt) (by rw [s2]; linarith) s1 hn1 hr
      refine ⟨u1, u2.trans s2, ?_⟩
      rw [s2] at u3
      have e : t + ((m + 1 : ℕ) : ℝ) * i.dt = t + i.dt + m * i.dt := by push_cast; ring
      rw [e]
      exact u3

/-! ## One interval -/

theorem rate_exists' {alpha gamma hw bnd : ℝ} (ha : 0 < alpha) (hg : 0 < gamma) (h1 : hw < 1) (hb : 0 < bnd) :
    ∃ eps k : ℝ, 0 < eps ∧ 0 < k ∧ eps ^ 2 ≤ alpha / 2 ∧ eps * (1 + gamma ^ 2 / alpha) ≤ gamma ∧ 3 * k ≤ gamma ∧
      12 * k ≤ eps * (1 - hw) ∧ eps ≤ bnd := by
  obtain ⟨e, k, he, hk, e1, e2, e3, -⟩ := rate_exists ha hg h1
  have hd : 0 < 1 + gamma ^ 2 / alpha := by positivity
  have h1' : 0 < 1 - hw := by linarith
  have hm : 0 < min e bnd := lt_min he hb
  refine ⟨min e bnd, min (gamma / 3) (min e bnd * (1 - hw) / 12), hm, lt_min (by positivity) (by positivity), ?_, ?_, ?_, ?_,
    min_le_right _ _⟩
  · exact (pow_le_pow_left₀ hm.le (min_le_left _ _) 2).trans e1
  · exact (mul_le_mul_of_nonneg_right (min_le_left _ _) hd.le).trans e2
  · have := min_le_left (gamma / 3) (min e bnd * (1 - hw) / 12); linarith
  · have := min_le_right (gamma / 3) (min e bnd * (1 - hw) / 12); linarith

theorem sim_numeric {V V' k c2 l Q E h r rr δ X : ℝ} (hk : 0 < k) (hc2 : 0 ≤ c2) (hE : 0 ≤ E) (hh : 0 < h)
    (h1 : h ≤ 1) (hrr : rr = r + δ) (hr : r ^ 2 ≤ 2 * V) (hX : X = l * δ + l * (h * rr * Q)) (hV : 0 ≤ V)
    (c1 : 16 * h * E ≤ k) (c3 : 32 * (c2 * (l * Q) ^ 2) * h ≤ k)
    (hd : V' ≤ V + h * (-k * V + c2 * X ^ 2) + h ^ 2 * rr ^ 2 * E) :
    V' ≤ (1 - k * h / 2) * V + (2 * c2 * l ^ 2 + k) * (h * δ ^ 2) := by
  have a1 : rr ^ 2 ≤ 4 * V + 2 * δ ^ 2 := by
    rw [hrr]; nlinarith [sq_nonneg (r - δ)]
  have a2 : X ^ 2 ≤ 2 * l ^ 2 * δ ^ 2 + 2 * (h ^ 2 * rr ^ 2 * (l * Q) ^ 2) := by
    rw [hX]; nlinarith [sq_nonneg (l * δ - l * (h * rr * Q))]
  have a3 := mul_le_mul_of_nonneg_left a2 hc2
  have p1 : 0 ≤ c2 * (l * Q) ^ 2 := mul_nonneg hc2 (sq_nonneg _)
  have hhh : h ^ 2 ≤ h := by nlinarith
  have a4 : 2 * (c2 * (l * Q) ^ 2) * h ^ 2 + h * E ≤ k / 8 := by
    have := mul_le_mul_of_nonneg_left hhh p1
    linarith
  have a5 : rr ^ 2 * (2 * (c2 * (l * Q) ^ 2) * h ^ 2 + h * E) ≤ (4 * V + 2 * δ ^ 2) * (k / 8) :=
    mul_le_mul a1 a4 (by positivity) (by positivity)
  have a6 := mul_le_mul_of_nonneg_left a5 hh.le
  have a7 := mul_le_mul_of_nonneg_left a3 hh.le
  have a8 : 0 ≤ k * (h * δ ^ 2) := by positivity
  linarith

/-- What an interval is. -/
theorem sim_eq {c : RwController} {mass : ℝ} {dims : V3} {ab cd : ℝ} (hb : Built c.sat mass dims ab cd)
    (hw : UnlimitedWheels c.sat) {qc : V4} {δ : ℝ} {m : ℕ} {tr tr' : Trigger} {i i' : Integ c.sat.rw.n}
    (hh : Spec.SimHold c qc δ m tr tr' i i') :
    tr' = tr.step (errorQuat i.state.attrs.attitude qc 0) ∧ ∃ (a : Fin c.sat.rw.n → ℝ) (law : V3)
      (f : SatState c.sat.rw.n → Py (Raw c.sat.rw.n)), c.sat.rw.torque a = -law ∧
      law = npCross i.state.attrs.bodyAngVel (c.sat.totalMoment *ᵥ i.state.attrs.bodyAngVel
          + c.sat.rw.momentum i.state.attrs.wheelVel) + c.sat.totalMoment *ᵥ (-(tr'.memory * c.alpha) •
          vecPart (errorQuat i.state.attrs.attitude qc) - c.gamma • i.state.attrs.bodyAngVel) ∧
      (∀ st d, Consistent st → f st = .ok d → ∃ F T, npNorm T ≤ δ ∧ derivative c.sat st ⟨F, T⟩ a = .ok d) ∧ runs f m i = (.ok (), i') := by
  obtain ⟨s, objs, law, c', a, f, hs, hobj, hcl, ht, htr, ha, hf, hr⟩ := hh
  rw [tracking_clear hobj hcl, tracking_plain (c := { c with trigger := tr, objAvoidance := false }) rfl hobj] at ht
  obtain ⟨e1, e2⟩ := Prod.ext_iff.1 ht
  simp only [Except.ok.injEq] at e1 e2
  have hstep : tr' = tr.step (errorQuat i.state.attrs.attitude qc 0) := by
    rw [← htr, ← e2, ← hs.1]; rfl
  have hsg : (tr.sign (errorQuat s.att qc 0)).1 = tr'.memory := by rw [hstep, ← hs.1]; rfl
  obtain ⟨a', ha', hta⟩ := hw.accelerations (-law)
  have ea : a' = a := Except.ok.inj (ha'.symm.trans ha)
  subst ea
  have z : ∀ q : V4, sandwich q 0 = 0 := fun q => by rw [sandwich_eq_dcm, Matrix.mulVec_zero]
  have hzc : ∀ v : V3, npCross v 0 = 0 := fun v => by rw [npCross_eq_crossProduct, LinearMap.map_zero]
  rw [hsg, z, hzc, add_zero, sub_zero, sub_zero, hs.1, hs.2.1, hs.2.2] at e1
  exact ⟨hstep, a', law, f, hta, by rw [← e1, neg_mul], hf, hr⟩

/-- Sizes at a sample. -/
theorem sim_sizes {alpha gamma s : ℝ} (ha : 0 < alpha) (hg : 0 < gamma) (hs : s = 1 ∨ s = -1) {q qc : V4} {w : V3}
    (hq : npNorm q = 1) (hqc : npNorm qc = 1) {A r : ℝ} (hA : 0 ≤ A) (hAA : A ^ 2 = alpha) (hr0 : 0 ≤ r)
    (hr : lyap alpha s (errorQuat q qc 0) w = r ^ 2) :
    npNorm w ≤ 2 * r ∧ npNorm (-(s * alpha) • vecPart (errorQuat q qc) - gamma • w) ≤ (A + 2 * gamma) * r := by
  have hs2 : s ^ 2 = 1 := by rcases hs with rfl | rfl <;> norm_num
  have hsa : |s| = 1 := by rcases hs with rfl | rfl <;> simp
  have hu : IsUnit4 (errorQuat q qc) := errorQuat_unit ((isUnit4_iff _).2 hq) ((isUnit4_iff _).2 hqc)
  have hv := vecPart_unit hu
  set e0 := errorQuat q qc 0
  set v := vecPart (errorQuat q qc)
  have hx1 : s * e0 ≤ 1 := by
    have : (s * e0) ^ 2 ≤ 1 := by rw [mul_pow, hs2, one_mul]; linarith [dot_self_nonneg3 v]
    exact (abs_le.1 ((sq_le_one_iff_abs_le_one _).1 this)).2
  have nw : npNorm w ≤ 2 * r := by
    refine abs_le_of_sq_le_sq' ?_ (by positivity) |>.2
    unfold lyap at hr
    rw [dot_self3] at hr
    have : 0 ≤ 2 * alpha * (1 - s * e0) := mul_nonneg (by positivity) (by linarith)
    linarith [sq_nonneg r]
  have nv : A * npNorm v ≤ r := by
    refine abs_le_of_sq_le_sq' ?_ hr0 |>.2
    unfold lyap at hr
    have e : (A * npNorm v) ^ 2 = alpha * (1 - (s * e0) ^ 2) := by
      rw [mul_pow, hAA, ← dot_self3, hv, mul_pow, hs2, one_mul]
    rw [e, ← hr]
    have h6 := mul_nonneg ha.le (sq_nonneg (1 - s * e0))
    have h7 := dot_self_nonneg3 w
    nlinarith
  refine ⟨nw, ?_⟩
  have i1 := npNorm_sub3 (-(s * alpha) • v) (gamma • w)
  rw [npNorm_smul, npNorm_smul, abs_neg, abs_mul, hsa, one_mul, abs_of_pos ha, abs_of_pos hg] at i1
  have i2 := mul_le_mul_of_nonneg_left nw hg.le
  have i3 : alpha * npNorm v ≤ A * r := by
    calc alpha * npNorm v = A * (A * npNorm v) := by rw [← hAA]; ring
      _ ≤ A * r := mul_le_mul_of_nonneg_left nv hA
  linarith

/-- A switch does not raise the function. -/
theorem sim_switch {alpha eps hyst U : ℝ} (ha : 0 < alpha) (he : 0 < eps) (h1 : eps ^ 2 ≤ alpha / 2) (hh : 0 < hyst)
    (hU : eps * (Real.sqrt (2 * U) + 1) ≤ alpha * hyst) {tr : Trigger}
    (hm : tr.memory = 1 ∨ tr.memory = -1) (hw : tr.halfWidth = hyst) {q qc : V4} {w : V3} (hq : npNorm q = 1)
    (hqc : npNorm qc = 1) (hb : strict alpha eps tr.memory (errorQuat q qc) w ≤ U) :
    ((tr.step (errorQuat q qc 0)).memory = 1 ∨ (tr.step (errorQuat q qc 0)).memory = -1) ∧
    (tr.step (errorQuat q qc 0)).halfWidth = hyst ∧ -hyst ≤ (tr.step (errorQuat q qc 0)).memory * errorQuat q qc 0 ∧
    strict alpha eps (tr.step (errorQuat q qc 0)).memory (errorQuat q qc) w ≤ strict alpha eps tr.memory (errorQuat q qc) w ∧
    (tr.step (errorQuat q qc 0) = tr ∨ alpha ≤ strict alpha eps tr.memory (errorQuat q qc) w) := by
  have hu : IsUnit4 (errorQuat q qc) := errorQuat_unit ((isUnit4_iff _).2 hq) ((isUnit4_iff _).2 hqc)
  obtain ⟨s1, s2, s3, -⟩ := sample_eq ha he h1 hm (hw ▸ hh) hu w
  refine ⟨s1, s2.trans hw, hw ▸ s3, ?_⟩
  by_cases hst : tr.step (errorQuat q qc 0) = tr
  · exact ⟨by rw [hst], .inl hst⟩
  · obtain ⟨j1, j2, j3⟩ := trigger_switch hm (hw ▸ hh) hst
    have hL := (strict_between ha he h1 hm hu w).1
    have hw2 : npNorm w ≤ 2 * Real.sqrt (2 * U) := by
      have hL0 : 0 ≤ lyap alpha tr.memory (errorQuat q qc 0) w := (C69_definite alpha tr.memory ha hm q qc hq hqc w).1
      have hU0 : 0 ≤ U := by linarith
      refine abs_le_of_sq_le_sq' ?_ (by positivity) |>.2
      rw [mul_pow, Real.sq_sqrt (by linarith)]
      unfold lyap at hL
      rw [dot_self3] at hL
      have hx1 : tr.memory * errorQuat q qc 0 ≤ 0 := by rw [mul_comm]; linarith
      have : 0 ≤ alpha * (1 - tr.memory * errorQuat q qc 0) := mul_nonneg ha.le (by linarith)
      linarith
    have hv1 : npNorm (vecPart (errorQuat q qc)) ≤ 1 := (vecPart_le _).trans (by rw [errorQuat_norm _ hqc, hq])
    have hp : |tr.memory * (vecPart (errorQuat q qc) ⬝ᵥ w)| ≤ 2 * Real.sqrt (2 * U) := by
      have hsa : |tr.memory| = 1 := by rcases hm with h | h <;> rw [h] <;> simp
      rw [abs_mul, hsa, one_mul]
      refine (dot_le_norms _ _).trans ?_
      calc _ ≤ 1 * (2 * Real.sqrt (2 * U)) := mul_le_mul hv1 hw2 (npNorm_nonneg _) zero_le_one
        _ = _ := one_mul _
    have hp1 := mul_le_mul_of_nonneg_left (abs_le.1 hp).1 he.le
    have j4 : tr.memory * errorQuat q qc 0 ≤ -hyst := by rw [mul_comm, ← hw]; exact j3
    have j5 := mul_le_mul_of_nonneg_left j4 ha.le
    refine ⟨?_, .inr ?_⟩
    · rw [j1]
      unfold strict lyap
      nlinarith
    · unfold lyap at hL
      have := dot_self_nonneg3 w
      have hah := mul_pos ha hh
      linarith

/-- The interval: the function shrinks, up to the torque, and the wheels gain little. The rate and the constants for the
torque and the wheels do not depend on the momentum of the wheels, but the length of the intervals does. -/
theorem sim_interval (c : RwController) (ha : 0 < c.alpha) (hg : 0 < c.gamma) {mass : ℝ} {dims : V3} {ab cd : ℝ}
    (hb : Built c.sat mass dims ab cd) (hm : mass ≠ 0) (hw : UnlimitedWheels c.sat) {hyst : ℝ} (hh : 0 < hyst)
    (hh1 : hyst < 1) {U : ℝ} (hU : 0 < U) :
    ∃ eps k Cd cm : ℝ, 0 < eps ∧ 0 < k ∧ 0 ≤ Cd ∧ 0 ≤ cm ∧ eps ^ 2 ≤ c.alpha / 2 ∧ ∀ H, 0 ≤ H → ∃ h0 > 0, k * h0 ≤ 1 ∧
      ∀ (qc : V4), npNorm qc = 1 → ∀ (tr tr' : Trigger) (i i' : Integ c.sat.rw.n) (m : ℕ) (δ : ℝ), 0 ≤ δ → δ ≤ 1 →
        (tr.memory = 1 ∨ tr.memory = -1) → tr.halfWidth = hyst → npNorm i.state.attrs.attitude = 1 → Consistent i.state →
        0 < i.dt → 1 ≤ m → m * i.dt ≤ h0 → strictAt c.alpha eps qc tr.memory i.state ≤ U →
        npNorm (Spec.wheelMomentum c.sat i.state) ≤ H → Spec.SimHold c qc δ m tr tr' i i' →
        (tr'.memory = 1 ∨ tr'.memory = -1) ∧ tr'.halfWidth = hyst ∧ npNorm i'.state.attrs.attitude = 1 ∧
        Consistent i'.state ∧ i'.dt = i.dt ∧
        strictAt c.alpha eps qc tr'.memory i'.state ≤
          (1 - k * (m * i.dt) / 2) * strictAt c.alpha eps qc tr.memory i.state + Cd * ((m * i.dt) * δ ^ 2) ∧
        1 + npNorm (Spec.wheelMomentum c.sat i'.state) ≤ (1 + npNorm (Spec.wheelMomentum c.sat i.state)) *
          (1 + cm * ((m * i.dt) * Real.sqrt (strictAt c.alpha eps qc tr.memory i.state))) ∧
        (tr' = tr ∨ c.alpha ≤ strictAt c.alpha eps qc tr.memory i.state) := by
  obtain ⟨j, hj0, hj⟩ := mulVec_euclid c.sat.totalMoment
  obtain ⟨l, hl0, hl⟩ := mulVec_euclid c.sat.invTotMoment
  obtain ⟨A, eA⟩ : ∃ A, A = Real.sqrt c.alpha := ⟨_, rfl⟩
  have hA : 0 ≤ A := eA ▸ Real.sqrt_nonneg _
  have hAA : A ^ 2 = c.alpha := by rw [eA]; exact Real.sq_sqrt ha.le
  obtain ⟨R, eR⟩ : ∃ R, R = Real.sqrt (2 * U) + 1 := ⟨_, rfl⟩
  have hR0 : 0 < R := by rw [eR]; positivity
  obtain ⟨eps, k, he, hk, e1, e2, e3, e4, e5⟩ := rate_exists' ha hg hh1 (show 0 < c.alpha * hyst / R by positivity)
  have e5' : eps * (Real.sqrt (2 * U) + 1) ≤ c.alpha * hyst := by rwa [le_div_iff₀ hR0, eR] at e5
  obtain ⟨κ, eκ⟩ : ∃ κ, κ = A + 2 * c.gamma := ⟨_, rfl⟩
  have hκ0 : 0 ≤ κ := by rw [eκ]; positivity
  obtain ⟨P, eP⟩ : ∃ P, P = κ + l + 1 := ⟨_, rfl⟩
  have hP0 : 0 ≤ P := by rw [eP]; positivity
  obtain ⟨c1, ec1⟩ : ∃ c1, c1 = 4 * j * R + j * κ := ⟨_, rfl⟩
  have hc10 : 0 ≤ c1 := by rw [ec1]; positivity
  obtain ⟨Y, eY⟩ : ∃ Y, Y = (9 * R + P) / 2 + 27 * R := ⟨_, rfl⟩
  have hY0 : 0 ≤ Y := by rw [eY]; positivity
  obtain ⟨E, eE⟩ : ∃ E, E = 2 * A * Y + 4 * c.alpha + P ^ 2 / 2 + eps * (2 * Y + 2 * P) := ⟨_, rfl⟩
  have hE0 : 0 ≤ E := by rw [eE]; positivity
  obtain ⟨c2, ec2⟩ : ∃ c2, c2 = 1 / c.gamma + eps / c.alpha := ⟨_, rfl⟩
  have hc20 : 0 ≤ c2 := by rw [ec2]; positivity
  refine ⟨eps, k, 2 * c2 * l ^ 2 + k, 2 * (c1 + 2), he, hk, by positivity, by positivity, e1, fun H hH0 => ?_⟩
  obtain ⟨Lw, eL⟩ : ∃ Lw, Lw = c1 + 2 * H := ⟨_, rfl⟩
  have hL0 : 0 ≤ Lw := by rw [eL]; positivity
  obtain ⟨Q, eQ⟩ : ∃ Q, Q = P * (3 * j * R + H + 1) + 2 * R * (j * P + Lw) := ⟨_, rfl⟩
  have hQ0 : 0 ≤ Q := by rw [eQ]; positivity
  obtain ⟨Z, eZ⟩ : ∃ Z, Z = 1 + P + R * Lw + l * Q + Y + 12 * R + k + 16 * E / k + 32 * (c2 * (l * Q) ^ 2) / k := ⟨_, rfl⟩
  have z1 : 0 ≤ R * Lw := by positivity
  have z2 : 0 ≤ l * Q := by positivity
  have z3 : 0 ≤ 16 * E / k := by positivity
  have z4 : 0 ≤ 32 * (c2 * (l * Q) ^ 2) / k := by positivity
  have hZ : 0 < Z := by rw [eZ]; positivity
  refine ⟨1 / Z, by positivity, ?_, ?_⟩
  · rw [mul_one_div, div_le_one hZ, eZ]; linarith
  intro qc hqc tr tr' i i' m δ hδ0 hδ1 hm1 hhw hu hcon hdt hm0 hmh hV hH hhold
  obtain ⟨h, eh⟩ : ∃ h, h = (m : ℝ) * i.dt := ⟨_, rfl⟩
  have hmp : (0 : ℝ) < m := by exact_mod_cast hm0
  have hh0 : 0 < h := by rw [eh]; positivity
  rw [← eh] at hmh ⊢
  have hhZ : h * Z ≤ 1 := by rwa [le_div_iff₀ hZ] at hmh
  have part : ∀ y, y ≤ Z → h * y ≤ 1 := fun y hy => (mul_le_mul_of_nonneg_left hy hh0.le).trans hhZ
  have q1 : h ≤ 1 := by have := part 1 (by rw [eZ]; linarith); linarith
  have q2 := part P (by rw [eZ]; linarith)
  have q3 := part (R * Lw) (by rw [eZ]; linarith)
  have q4 := part (l * Q) (by rw [eZ]; linarith)
  have q5 := part Y (by rw [eZ]; linarith)
  have q6 := part (12 * R) (by rw [eZ]; linarith)
  have q7 : 16 * h * E ≤ k := by
    have := part (16 * E / k) (by rw [eZ]; linarith)
    rw [mul_div_assoc', div_le_one hk] at this
    linarith
  have q8 : 32 * (c2 * (l * Q) ^ 2) * h ≤ k := by
    have := part (32 * (c2 * (l * Q) ^ 2) / k) (by rw [eZ]; linarith)
    rw [mul_div_assoc', div_le_one hk] at this
    linarith
  obtain ⟨htr, a, law, f, hta, elaw, hf, hr⟩ := sim_eq hb hw hhold
  obtain ⟨s1, s2, s3, s4, s5⟩ := sim_switch ha he e1 hh e5' hm1 hhw hu hqc hV
  rw [← htr] at s1 s2 s3 s4 s5
  obtain ⟨V, eV⟩ : ∃ V, V = strictAt c.alpha eps qc tr'.memory i.state := ⟨_, rfl⟩
  obtain ⟨b1, b2, b3⟩ := at_between ha he e1 hqc tr'.memory i.state s1 hu
  rw [← eV] at b2 b3
  have hVU : V ≤ U := by rw [eV]; exact s4.trans hV
  have hVs : V ≤ strictAt c.alpha eps qc tr.memory i.state := by rw [eV]; exact s4
  obtain ⟨r, er⟩ : ∃ r, r = Real.sqrt (lyapAt c.alpha qc tr'.memory i.state) := ⟨_, rfl⟩
  have hr0 : 0 ≤ r := by rw [er]; exact Real.sqrt_nonneg _
  have hrr : lyapAt c.alpha qc tr'.memory i.state = r ^ 2 := by rw [er, Real.sq_sqrt b1]
  have hrR : r + 1 ≤ R := by
    rw [eR, er]
    have := Real.sqrt_le_sqrt (show lyapAt c.alpha qc tr'.memory i.state ≤ 2 * U by linarith)
    linarith
  obtain ⟨nw, nk⟩ := sim_sizes (gamma := c.gamma) ha hg s1 hu hqc hA hAA hr0 hrr
  set w := i.state.attrs.bodyAngVel with ew
  set q := i.state.attrs.attitude with eq
  set hwm := c.sat.rw.momentum i.state.attrs.wheelVel with ehw
  obtain ⟨kk, ekk⟩ : ∃ kk, kk = -(tr'.memory * c.alpha) • vecPart (errorQuat q qc) - c.gamma • w := ⟨_, rfl⟩
  rw [← ekk] at elaw nk
  rw [← eκ] at nk
  have hHw : npNorm hwm ≤ H := hH
  have nlaw : npNorm law ≤ r * (c1 + 2 * npNorm hwm) := by
    have i1 := npNorm_add3 (npCross w (c.sat.totalMoment *ᵥ w + hwm)) (c.sat.totalMoment *ᵥ kk)
    rw [← elaw] at i1
    have i2 := (hj kk).trans (mul_le_mul_of_nonneg_left nk hj0)
    have i3 : npNorm (c.sat.totalMoment *ᵥ w + hwm) ≤ 2 * j * R + npNorm hwm := by
      have k1 := npNorm_add3 (c.sat.totalMoment *ᵥ w) hwm
      have k2 := (hj w).trans (mul_le_mul_of_nonneg_left (nw.trans (by linarith : 2 * r ≤ 2 * R)) hj0)
      linarith
    have i4 := (cross_norm_le w (c.sat.totalMoment *ᵥ w + hwm)).trans
      (mul_le_mul nw i3 (npNorm_nonneg _) (by positivity))
    rw [ec1]
    linarith
  have bound : SimBound c.sat.invTotMoment c.sat.totalMoment law kk w hwm j l H Lw κ δ r (r + δ) R P Q h := by
    refine ⟨hj0, hl0, hj, hl, ?_, nk, nw, hHw, ?_, hκ0, hL0, hδ0, hr0, rfl, by linarith, eP, eQ, hh0.le, q2, q3, ?_⟩
    · rw [elaw, add_sub_cancel_left, hb.cancel]
    · refine nlaw.trans (mul_le_mul_of_nonneg_left ?_ hr0)
      rw [eL]; linarith
    · linarith
  have near0 : SimNear kk law q w hwm (l * δ + l * (h * (r + δ) * Q)) (h * (r + δ) * Y) 0 i.state.arr.att i.state.arr.rate
      (c.sat.rw.momentum i.state.arr.whl) := by
    have z3 : npNorm (0 : V3) = 0 := npNorm_eq_zero.2 rfl
    have z4 : npNorm (0 : V4) = 0 := npNorm_eq_zero.2 rfl
    rw [← hcon.attitude, ← hcon.bodyAngVel, ← hcon.wheelVel]
    exact ⟨hu, by simp [← ew, z3], by simp [← eq, z4], by simp [← ehw]⟩
  obtain ⟨u1, u2, u3⟩ := sim_hold hb hm hta bound hu rfl eY q5 (by linarith) hf m le_rfl hdt (by rw [zero_add, eh])
    hcon near0 hr
  rw [zero_add, ← eh, ← u1.attitude, ← u1.bodyAngVel, ← u1.wheelVel] at u3
  have hX0 : 0 ≤ l * δ + l * (h * (r + δ) * Q) := by positivity
  have hPr : npNorm kk + (l * δ + l * (h * (r + δ) * Q)) ≤ P * (r + δ) := by
    have i3 : κ * r ≤ κ * (r + δ) := mul_le_mul_of_nonneg_left (by linarith) hκ0
    have i4 : l * δ ≤ l * (r + δ) := mul_le_mul_of_nonneg_left (by linarith) hl0
    have i5 := mul_le_mul_of_nonneg_right q4 (show 0 ≤ r + δ by linarith)
    rw [eP]
    linarith
  have hdec := strict_hold ha hg he hk e1 e2 e3 e4 s1 hu hqc s3 ekk hA hAA hr0 (by linarith : r ≤ r + δ) hrr hh0 hY0 q5 hX0
    hPr u3
  rw [← ec2, ← eE] at hdec
  have hV0 : 0 ≤ V := by linarith
  have hdec' : strictAt c.alpha eps qc tr'.memory i'.state ≤ V + h * (-k * V + c2 * (l * δ + l * (h * (r + δ) * Q)) ^ 2)
      + h ^ 2 * (r + δ) ^ 2 * E := by rw [eV]; exact hdec
  have hnum := sim_numeric hk hc20 hE0 hh0 q1 rfl (by rw [← hrr]; exact b2) rfl hV0 q7 q8 hdec'
  refine ⟨s1, s2, u3.unit, u1, u2, ?_, ?_, s5⟩
  · refine hnum.trans ?_
    have hkh : 0 ≤ 1 - k * h / 2 := by
      have := part k (by rw [eZ]; linarith)
      linarith
    have := mul_le_mul_of_nonneg_left hVs hkh
    linarith
  · have e : Spec.wheelMomentum c.sat i'.state = hwm - h • law := u3.mom
    have i1 := npNorm_sub3 hwm (h • law)
    rw [npNorm_smul, abs_of_pos hh0] at i1
    have i2 := mul_le_mul_of_nonneg_left nlaw hh0.le
    have e' : Spec.wheelMomentum c.sat i.state = hwm := rfl
    rw [e, e']
    have i3 : r ≤ 2 * Real.sqrt (strictAt c.alpha eps qc tr.memory i.state) := by
      refine abs_le_of_sq_le_sq' ?_ (by positivity) |>.2
      rw [mul_pow, Real.sq_sqrt (by linarith), ← hrr]
      linarith
    have n0 := npNorm_nonneg hwm
    have i4 : c1 + 2 * npNorm hwm ≤ (c1 + 2) * (1 + npNorm hwm) := by
      have := mul_nonneg hc10 n0
      linarith
    have i5 := mul_le_mul i3 i4 (by positivity) (by positivity)
    have i6 := mul_le_mul_of_nonneg_left i5 hh0.le
    linarith

/-! ## Runs -/

theorem sim_geom {k h C δ V0 : ℝ} {v : ℕ → ℝ} (hk : 0 < k) (hC : 0 ≤ C) (h1 : k * h ≤ 1) (h0 : 0 ≤ h) (hV0 : v 0 ≤ V0)
    (hV : 0 ≤ V0) {N : ℕ} (hs : ∀ n < N, v (n + 1) ≤ (1 - k * h / 2) * v n + C * (h * δ ^ 2)) :
    ∀ n ≤ N, v n ≤ Real.exp (-(k / 2) * (n * h)) * V0 + 2 * C / k * δ ^ 2 := by
  intro n
  induction n with
  | zero =>
    intro _
    have : 0 ≤ 2 * C / k * δ ^ 2 := by positivity
    simpa using by linarith
  | succ n ih =>
    intro hn
    have i1 := ih (by omega)
    have i2 := hs n (by omega)
    have hq : 0 ≤ 1 - k * h / 2 := by linarith
    have i3 := mul_le_mul_of_nonneg_left i1 hq
    have i4 : 1 - k * h / 2 ≤ Real.exp (-(k / 2) * h) := by
      have := Real.add_one_le_exp (-(k / 2) * h)
      linarith
    have e : Real.exp (-(k / 2) * ((n + 1 : ℕ) * h)) = Real.exp (-(k / 2) * h) * Real.exp (-(k / 2) * (n * h)) := by
      rw [← Real.exp_add]; push_cast; ring_nf
    have i5 := mul_le_mul_of_nonneg_right i4 (show 0 ≤ Real.exp (-(k / 2) * (n * h)) * V0 by positivity)
    have e2 : (1 - k * h / 2) * (2 * C / k * δ ^ 2) = 2 * C / k * δ ^ 2 - C * (h * δ ^ 2) := by field_simp
    rw [e]
    linarith

/-- C212: in a simulation without a torque of the environment, with a step and intervals that are short enough for the error
`V` and the momentum `B` of the wheels at the beginning, the error falls off exponentially, down to zero, at a rate that
depends on neither the step nor the length of the intervals; the momentum of the wheels stays bounded; and after some time the
sign of the commanded quaternion is not switched any more. -/
theorem C212_converges (c : RwController) (ha : 0 < c.alpha) (hg : 0 < c.gamma) {mass : ℝ} {dims : V3} {ab cd : ℝ}
    (hb : Built c.sat mass dims ab cd) (hm : mass ≠ 0) (hw : UnlimitedWheels c.sat) {hyst : ℝ} (hh : 0 < hyst)
    (hh1 : hyst < 1) (V B : ℝ) :
    ∃ h0 > 0, ∃ k > 0, ∃ B' T : ℝ, ∀ (qc : V4), npNorm qc = 1 → ∀ (m N : ℕ) (tr : ℕ → Trigger) (i : ℕ → Integ c.sat.rw.n),
      0 < (i 0).dt → 1 ≤ m → m * (i 0).dt ≤ h0 → Consistent (i 0).state → (tr 0).halfWidth = hyst →
      ((tr 0).memory = 1 ∨ (tr 0).memory = -1) → npNorm (i 0).state.attrs.attitude = 1 →
      Spec.trackError c.alpha (tr 0).memory qc (i 0).state ≤ V → npNorm (Spec.wheelMomentum c.sat (i 0).state) ≤ B →
      Spec.SimRun c qc 0 m N tr i → ∀ n ≤ N,
        ((tr n).memory = 1 ∨ (tr n).memory = -1) ∧ npNorm (i n).state.attrs.attitude = 1 ∧
        Spec.trackError c.alpha (tr n).memory qc (i n).state ≤
          3 * Real.exp (-k * (n * (m * (i 0).dt))) * Spec.trackError c.alpha (tr 0).memory qc (i 0).state ∧
        npNorm (Spec.wheelMomentum c.sat (i n).state) ≤ B' ∧
        (n < N → T ≤ n * (m * (i 0).dt) → tr (n + 1) = tr n) := by
  obtain ⟨U, eU⟩ : ∃ U, U = 3 / 2 * |V| + 1 := ⟨_, rfl⟩
  have hU : 0 < U := by rw [eU]; positivity
  obtain ⟨eps, k, Cd, cm, he, hk, hCd, hcm, e1, hall⟩ := sim_interval c ha hg hb hm hw hh hh1 hU
  -- the bound of the momentum
  obtain ⟨M, eM⟩ : ∃ M, M = 4 * cm / k := ⟨_, rfl⟩
  have hM0 : 0 ≤ M := by rw [eM]; positivity
  obtain ⟨H, eH⟩ : ∃ H, H = (1 + |B|) * Real.exp (M * Real.sqrt U) := ⟨_, rfl⟩
  have hH0 : 0 ≤ H := by rw [eH]; positivity
  obtain ⟨h0, hh0, hkh0, hint⟩ := hall H hH0
  refine ⟨h0, hh0, k / 2, by positivity, H, 2 / k * Real.log (U / c.alpha + 2), ?_⟩
  intro qc hqc m N tr i hdt hm0 hmh hcon hhw hmem hu hV hB hrun
  obtain ⟨h, eh⟩ : ∃ h, h = (m : ℝ) * (i 0).dt := ⟨_, rfl⟩
  have hmp : (0 : ℝ) < m := by exact_mod_cast hm0
  have hhp : 0 < h := by rw [eh]; positivity
  have hkh : k * h ≤ 1 := (mul_le_mul_of_nonneg_left (eh ▸ hmh) hk.le).trans hkh0
  rw [← eh]
  rw [trackError_eq hmem hqc hu] at hV ⊢
  obtain ⟨a1, a2, a3⟩ := at_between ha he e1 hqc (tr 0).memory (i 0).state hmem hu
  have hV' : lyapAt c.alpha qc (tr 0).memory (i 0).state ≤ |V| := hV.trans (le_abs_self _)
  -- all intervals
  have all : ∀ n ≤ N, ((tr n).memory = 1 ∨ (tr n).memory = -1) ∧ (tr n).halfWidth = hyst ∧
      npNorm (i n).state.attrs.attitude = 1 ∧ Consistent (i n).state ∧ (i n).dt = (i 0).dt ∧
      strictAt c.alpha eps qc (tr n).memory (i n).state ≤ U ∧ npNorm (Spec.wheelMomentum c.sat (i n).state) ≤ H ∧
      (1 + npNorm (Spec.wheelMomentum c.sat (i n).state)) *
        Real.exp (M * Real.sqrt (strictAt c.alpha eps qc (tr n).memory (i n).state)) ≤ H := by
    have key : ∀ {x y : ℝ}, 1 ≤ Real.exp y → 0 ≤ x → (1 + x) * Real.exp y ≤ H → x ≤ H := by
      intro x y hy hx hp
      have := mul_le_mul_of_nonneg_left hy (show 0 ≤ 1 + x by linarith)
      linarith
    intro n
    induction n with
    | zero =>
      intro _
      have u1 : strictAt c.alpha eps qc (tr 0).memory (i 0).state ≤ U := by rw [eU]; linarith
      have u2 : (1 + npNorm (Spec.wheelMomentum c.sat (i 0).state)) *
          Real.exp (M * Real.sqrt (strictAt c.alpha eps qc (tr 0).memory (i 0).state)) ≤ H := by
        rw [eH]
        refine mul_le_mul ?_ ?_ (Real.exp_pos _).le (by positivity)
        · have := hB.trans (le_abs_self B); linarith
        · exact Real.exp_le_exp.2 (mul_le_mul_of_nonneg_left (Real.sqrt_le_sqrt u1) hM0)
      exact ⟨hmem, hhw, hu, hcon, rfl, u1, key (Real.one_le_exp (by positivity)) (npNorm_nonneg _) u2, u2⟩
    | succ n ih =>
      intro hn
      obtain ⟨i1, i2, i3, i4, i5, i6, i7, i8⟩ := ih (by omega)
      obtain ⟨j1, j2, j3, j4, j5, j6, j7, -⟩ := hint qc hqc (tr n) (tr (n + 1)) (i n) (i (n + 1)) m 0 le_rfl zero_le_one i1 i2 i3
        i4 (by rw [i5]; exact hdt) hm0 (by rw [i5]; exact hmh) i6 i7 (hrun n (by omega))
      rw [i5, ← eh] at j6 j7
      have hs0 : 0 ≤ strictAt c.alpha eps qc (tr n).memory (i n).state := by
        obtain ⟨b1, b2, -⟩ := at_between ha he e1 hqc (tr n).memory (i n).state i1 i3
        linarith
      rw [zero_pow two_ne_zero, mul_zero, mul_zero, add_zero] at j6
      set x := strictAt c.alpha eps qc (tr n).memory (i n).state with hx
      set y := strictAt c.alpha eps qc (tr (n + 1)).memory (i (n + 1)).state with hy
      have hyx : y ≤ x := by
        have : 0 ≤ k * h / 2 * x := by positivity
        linarith
      -- square roots
      have hsq : Real.sqrt y ≤ (1 - k * h / 4) * Real.sqrt x := by
        have hp : 0 ≤ 1 - k * h / 4 := by linarith
        refine Real.sqrt_le_iff.2 ⟨by positivity, ?_⟩
        rw [mul_pow, Real.sq_sqrt hs0]
        refine j6.trans (mul_le_mul_of_nonneg_right ?_ hs0)
        nlinarith [sq_nonneg (k * h / 4)]
      have hmom : (1 + npNorm (Spec.wheelMomentum c.sat (i (n + 1)).state)) * Real.exp (M * Real.sqrt y) ≤ H := by
        refine le_trans ?_ i8
        have k1 : 1 + cm * (h * Real.sqrt x) ≤ Real.exp (cm * (h * Real.sqrt x)) := by
          have := Real.add_one_le_exp (cm * (h * Real.sqrt x)); linarith
        have k2 := mul_le_mul_of_nonneg_left k1 (show 0 ≤ 1 + npNorm (Spec.wheelMomentum c.sat (i n).state) by
          have := npNorm_nonneg (Spec.wheelMomentum c.sat (i n).state); linarith)
        have k3 := mul_le_mul_of_nonneg_right (j7.trans k2) (Real.exp_pos (M * Real.sqrt y)).le
        refine k3.trans ?_
        rw [mul_assoc, ← Real.exp_add]
        refine mul_le_mul_of_nonneg_left (Real.exp_le_exp.2 ?_)
          (by have := npNorm_nonneg (Spec.wheelMomentum c.sat (i n).state); linarith)
        have k4 := mul_le_mul_of_nonneg_left hsq hM0
        have k5 : M * ((1 - k * h / 4) * Real.sqrt x) = M * Real.sqrt x - cm * (h * Real.sqrt x) := by
          rw [eM]; field_simp
        linarith
      exact ⟨j1, j2, j3, j4, j5.trans i5, hyx.trans i6,
        key (Real.one_le_exp (by positivity)) (npNorm_nonneg _) hmom, hmom⟩
  have step : ∀ n < N, strictAt c.alpha eps qc (tr (n + 1)).memory (i (n + 1)).state ≤
      (1 - k * h / 2) * strictAt c.alpha eps qc (tr n).memory (i n).state + 0 * (h * (0 : ℝ) ^ 2) ∧
      (tr (n + 1) = tr n ∨ c.alpha ≤ strictAt c.alpha eps qc (tr n).memory (i n).state) := by
    intro n hn
    obtain ⟨i1, i2, i3, i4, i5, i6, i7, i8⟩ := all n hn.le
    obtain ⟨j1, j2, j3, j4, j5, j6, j7, j8⟩ := hint qc hqc (tr n) (tr (n + 1)) (i n) (i (n + 1)) m 0 le_rfl zero_le_one i1 i2 i3
      i4 (by rw [i5]; exact hdt) hm0 (by rw [i5]; exact hmh) i6 i7 (hrun n hn)
    rw [i5, ← eh, zero_pow two_ne_zero, mul_zero, mul_zero, add_zero] at j6
    exact ⟨by linarith, j8⟩
  have hgeom := sim_geom (v := fun n => strictAt c.alpha eps qc (tr n).memory (i n).state) hk le_rfl hkh hhp.le le_rfl
    (by linarith) fun n hn => (step n hn).1
  intro n hn
  obtain ⟨i1, i2, i3, i4, i5, i6, i7, -⟩ := all n hn
  obtain ⟨b1, b2, b3⟩ := at_between ha he e1 hqc (tr n).memory (i n).state i1 i3
  have hn' := hgeom n hn
  simp only [mul_zero, zero_div, zero_mul, add_zero] at hn'
  have hE : 0 < Real.exp (-(k / 2) * (n * h)) := Real.exp_pos _
  refine ⟨i1, i3, ?_, i7, fun hnN hT => ?_⟩
  · rw [trackError_eq i1 hqc i3]
    have := mul_le_mul_of_nonneg_left a3 hE.le
    linarith
  · rcases (step n hnN).2 with hh' | hh'
    · exact hh'
    · exfalso
      have hs0 : strictAt c.alpha eps qc (tr 0).memory (i 0).state ≤ U := (all 0 (Nat.zero_le _)).2.2.2.2.2.1
      have h1 : c.alpha ≤ Real.exp (-(k / 2) * (n * h)) * U :=
        hh'.trans (hn'.trans (mul_le_mul_of_nonneg_left hs0 hE.le))
      have h2 : Real.log (U / c.alpha + 2) ≤ k / 2 * (n * h) := by
        have := mul_le_mul_of_nonneg_left hT (show 0 ≤ k / 2 by positivity)
        have e : k / 2 * (2 / k * Real.log (U / c.alpha + 2)) = Real.log (U / c.alpha + 2) := by field_simp
        linarith
      have h3 : U / c.alpha + 2 ≤ Real.exp (k / 2 * (n * h)) := by
        rw [← Real.exp_log (show 0 < U / c.alpha + 2 by positivity)]; exact Real.exp_le_exp.2 h2
      have h4 : Real.exp (-(k / 2) * (n * h)) * Real.exp (k / 2 * (n * h)) = 1 := by
        rw [← Real.exp_add]; simp
      have h5 : Real.exp (-(k / 2) * (n * h)) * (U / c.alpha + 2) ≤ 1 :=
        (mul_le_mul_of_nonneg_left h3 hE.le).trans_eq h4
      have h6 : U = c.alpha * (U / c.alpha) := by field_simp
      have h7 : Real.exp (-(k / 2) * (n * h)) * U = c.alpha * (Real.exp (-(k / 2) * (n * h)) * (U / c.alpha)) := by
        conv_lhs => rw [h6]
        ring
      have h8 := mul_le_mul_of_nonneg_left h5 ha.le
      have h9 : 0 < c.alpha * Real.exp (-(k / 2) * (n * h)) := by positivity
      have h10 : c.alpha * (Real.exp (-(k / 2) * (n * h)) * (U / c.alpha + 2)) =
          c.alpha * (Real.exp (-(k / 2) * (n * h)) * (U / c.alpha)) + 2 * (c.alpha * Real.exp (-(k / 2) * (n * h))) := by ring
      linarith only [h1, h7, h8, h9, h10]

/-- With torques of up to `δ`, below a tolerance, the error falls off to a multiple of `δ ^ 2`, for as long as the momentum of
the wheels does not exceed `H`. -/
theorem C212_disturbed (c : RwController) (ha : 0 < c.alpha) (hg : 0 < c.gamma) {mass : ℝ} {dims : V3} {ab cd : ℝ}
    (hb : Built c.sat mass dims ab cd) (hm : mass ≠ 0) (hw : UnlimitedWheels c.sat) {hyst : ℝ} (hh : 0 < hyst)
    (hh1 : hyst < 1) (V H : ℝ) :
    ∃ h0 > 0, ∃ k > 0, ∃ δ0 > 0, ∃ C : ℝ, ∀ (qc : V4), npNorm qc = 1 → ∀ (m N : ℕ) (δ : ℝ) (tr : ℕ → Trigger)
      (i : ℕ → Integ c.sat.rw.n), 0 ≤ δ → δ ≤ δ0 →
      0 < (i 0).dt → 1 ≤ m → m * (i 0).dt ≤ h0 → Consistent (i 0).state → (tr 0).halfWidth = hyst →
      ((tr 0).memory = 1 ∨ (tr 0).memory = -1) → npNorm (i 0).state.attrs.attitude = 1 →
      Spec.trackError c.alpha (tr 0).memory qc (i 0).state ≤ V →
      (∀ n < N, npNorm (Spec.wheelMomentum c.sat (i n).state) ≤ H) → Spec.SimRun c qc δ m N tr i → ∀ n ≤ N,
        ((tr n).memory = 1 ∨ (tr n).memory = -1) ∧ npNorm (i n).state.attrs.attitude = 1 ∧
        Spec.trackError c.alpha (tr n).memory qc (i n).state ≤
          3 * Real.exp (-k * (n * (m * (i 0).dt))) * Spec.trackError c.alpha (tr 0).memory qc (i 0).state + C * δ ^ 2 := by
  obtain ⟨U, eU⟩ : ∃ U, U = 3 / 2 * |V| + 1 := ⟨_, rfl⟩
  have hU : 0 < U := by rw [eU]; positivity
  obtain ⟨eps, k, Cd, cm, he, hk, hCd, hcm, e1, hall⟩ := sim_interval c ha hg hb hm hw hh hh1 hU
  obtain ⟨h0, hh0, hkh0, hint⟩ := hall |H| (abs_nonneg H)
  obtain ⟨G, eG⟩ : ∃ G, G = 2 * Cd / k := ⟨_, rfl⟩
  have hG0 : 0 ≤ G := by rw [eG]; positivity
  refine ⟨h0, hh0, k / 2, by positivity, 1 / (1 + G), by positivity, 2 * G, ?_⟩
  intro qc hqc m N δ tr i hδ0 hδ1 hdt hm0 hmh hcon hhw hmem hu hV hH hrun
  obtain ⟨h, eh⟩ : ∃ h, h = (m : ℝ) * (i 0).dt := ⟨_, rfl⟩
  have hmp : (0 : ℝ) < m := by exact_mod_cast hm0
  have hhp : 0 < h := by rw [eh]; positivity
  have hkh : k * h ≤ 1 := (mul_le_mul_of_nonneg_left (eh ▸ hmh) hk.le).trans hkh0
  have hδG : δ * (1 + G) ≤ 1 := by rwa [le_div_iff₀ (by positivity)] at hδ1
  have hδ1' : δ ≤ 1 := by have := mul_nonneg hδ0 hG0; linarith
  have hfl : G * δ ^ 2 ≤ 1 := by
    have h1 : G * δ ≤ 1 := by linarith
    have h2 := mul_le_mul h1 hδ1' hδ0 zero_le_one
    linarith
  have hGk : Cd * (h * δ ^ 2) = k * h / 2 * (G * δ ^ 2) := by rw [eG]; field_simp
  rw [← eh]
  rw [trackError_eq hmem hqc hu] at hV ⊢
  obtain ⟨a1, a2, a3⟩ := at_between ha he e1 hqc (tr 0).memory (i 0).state hmem hu
  have hV' : lyapAt c.alpha qc (tr 0).memory (i 0).state ≤ |V| := hV.trans (le_abs_self _)
  have all : ∀ n ≤ N, ((tr n).memory = 1 ∨ (tr n).memory = -1) ∧ (tr n).halfWidth = hyst ∧
      npNorm (i n).state.attrs.attitude = 1 ∧ Consistent (i n).state ∧ (i n).dt = (i 0).dt ∧
      strictAt c.alpha eps qc (tr n).memory (i n).state ≤ U := by
    intro n
    induction n with
    | zero => exact fun _ => ⟨hmem, hhw, hu, hcon, rfl, by rw [eU]; linarith⟩
    | succ n ih =>
      intro hn
      obtain ⟨i1, i2, i3, i4, i5, i6⟩ := ih (by omega)
      obtain ⟨j1, j2, j3, j4, j5, j6, -, -⟩ := hint qc hqc (tr n) (tr (n + 1)) (i n) (i (n + 1)) m δ hδ0 hδ1' i1 i2 i3
        i4 (by rw [i5]; exact hdt) hm0 (by rw [i5]; exact hmh) i6 ((hH n (by omega)).trans (le_abs_self H)) (hrun n (by omega))
      rw [i5, ← eh, hGk] at j6
      refine ⟨j1, j2, j3, j4, j5.trans i5, j6.trans ?_⟩
      have k1 := mul_le_mul_of_nonneg_left i6 (show 0 ≤ 1 - k * h / 2 by linarith)
      have k2 := mul_le_mul_of_nonneg_left (hfl.trans (by rw [eU]; linarith [abs_nonneg V] : (1 : ℝ) ≤ U))
        (show 0 ≤ k * h / 2 by positivity)
      linarith
  have hgeom := sim_geom (v := fun n => strictAt c.alpha eps qc (tr n).memory (i n).state) (C := Cd) (δ := δ) (N := N) hk hCd
    hkh hhp.le le_rfl (by linarith) (by
      intro n hn
      obtain ⟨i1, i2, i3, i4, i5, i6⟩ := all n hn.le
      obtain ⟨j1, j2, j3, j4, j5, j6, -, -⟩ := hint qc hqc (tr n) (tr (n + 1)) (i n) (i (n + 1)) m δ hδ0 hδ1' i1 i2 i3
        i4 (by rw [i5]; exact hdt) hm0 (by rw [i5]; exact hmh) i6 ((hH n hn).trans (le_abs_self H)) (hrun n hn)
      rw [i5, ← eh] at j6
      exact j6)
  intro n hn
  obtain ⟨i1, i2, i3, -⟩ := all n hn
  obtain ⟨b1, b2, b3⟩ := at_between ha he e1 hqc (tr n).memory (i n).state i1 i3
  have hn' := hgeom n hn
  simp only [← eG] at hn'
  have hE : 0 < Real.exp (-(k / 2) * (n * h)) := Real.exp_pos _
  refine ⟨i1, i3, ?_⟩
  rw [trackError_eq i1 hqc i3]
  have := mul_le_mul_of_nonneg_left a3 hE.le
  linarith

/-! ## Runs exist -/

/-- An integrator whose satellite flies away from the Earth, with a clock that can be advanced `N` times. -/
structure Spec.Flying {n : ℕ} (N : ℕ) (i : Integ n) : Prop where
  consistent : Consistent i.state
  step : 0 < i.dt
  arw : 0 ≤ i.gyro.arwVar
  rrw : 0 ≤ i.gyro.rrwVar
  outside : 6.3e6 ≤ npNorm i.state.arr.pos
  away : 0 ≤ i.state.arr.pos ⬝ᵥ i.state.arr.vel
  clock : ∃ cl, i.state.clock = some cl ∧ ∀ j : ℕ, j ≤ N → InRange (cl.datetime + j * timedelta i.dt)

theorem Spec.Flying.mono {n N M : ℕ} {i : Integ n} (h : Spec.Flying N i) (hM : M ≤ N) : Spec.Flying M i := by
  obtain ⟨cl, h1, h2⟩ := h.clock
  exact ⟨h.consistent, h.step, h.arw, h.rrw, h.outside, h.away, cl, h1, fun j hj => h2 j (hj.trans hM)⟩

/-- The derivative in free flight, as a function of the array. -/
noncomputable def freeG (sat : Satellite) (a : Fin sat.rw.n → ℝ) (r : Raw sat.rw.n) : Raw sat.rw.n :=
  { pos := r.vel, vel := fun _ => 0
    att := (0.5 : ℝ) • product r.att ![0, r.rate 0, r.rate 1, r.rate 2]
    rate := sat.invTotMoment *ᵥ (0 - sat.rw.torque a - npCross r.rate (sat.rw.momentum r.whl + sat.totalMoment *ᵥ r.rate))
    whl := a }

theorem norm_away {p v : V3} (h : 0 ≤ p ⬝ᵥ v) {t : ℝ} (ht : 0 ≤ t) : npNorm p ≤ npNorm (p + t • v) := by
  refine abs_le_of_sq_le_sq' ?_ (npNorm_nonneg _) |>.2
  rw [npNorm3_sq, npNorm3_sq]
  rw [Matrix.vec3_dotProduct] at h
  simp only [Pi.add_apply, Pi.smul_apply, smul_eq_mul]
  nlinarith [mul_nonneg ht h, sq_nonneg (t * v 0), sq_nonneg (t * v 1), sq_nonneg (t * v 2)]

/-- One step in free flight completes, and can be followed by the others. -/
theorem flying_update {sat : Satellite} (hm : sat.mass ≠ 0) (a : Fin sat.rw.n → ℝ) {N : ℕ} {i : Integ sat.rw.n}
    (h : Spec.Flying (N + 1) i) :
    ∃ i', i.update (fun st => derivative sat st ⟨0, 0⟩ a) = (.ok (), i') ∧ Spec.Flying N i' ∧ i'.dt = i.dt := by
  obtain ⟨cl, hcl, hcal⟩ := h.clock
  have hdt := h.step
  have hdef : ∀ s : SatState sat.rw.n, Consistent s → 6.3e6 ≤ npNorm s.arr.pos →
      derivative sat s ⟨0, 0⟩ a = .ok (freeG sat a s.arr) := by
    intro s hs _
    simp only [derivative, npVDiv, if_neg hm, freeG, hs.velocity, hs.attitude, hs.bodyAngVel, hs.wheelVel, Pi.zero_apply,
      zero_div]
  have hz : ∀ (t : ℝ) (v : V3), v + t • (fun _ => (0 : ℝ)) = v := fun t v => by
    funext x; simp only [Pi.add_apply, Pi.smul_apply, smul_eq_mul, mul_zero, add_zero]
  have far : ∀ t : ℝ, 0 ≤ t → 6.3e6 ≤ npNorm (i.state.arr.pos + t • i.state.arr.vel) := fun t ht =>
    h.outside.trans (norm_away h.away ht)
  have v2 : ∀ k : Raw sat.rw.n, k.vel = (fun _ => 0) → ∀ t : ℝ, (i.state.arr + t • k).vel = i.state.arr.vel := by
    intro k hk t
    show i.state.arr.vel + t • k.vel = _
    rw [hk, hz]
  have p2 : ∀ k : Raw sat.rw.n, k.pos = i.state.arr.vel → ∀ t : ℝ,
      (i.state.arr + t • k).pos = i.state.arr.pos + t • i.state.arr.vel := by
    intro k hk t
    show i.state.arr.pos + t • k.pos = _
    rw [hk]
  obtain ⟨k1, ek1⟩ : ∃ k, k = freeG sat a i.state.arr := ⟨_, rfl⟩
  obtain ⟨k2, ek2⟩ : ∃ k, k = freeG sat a (i.state.arr + (i.dt / 2) • k1) := ⟨_, rfl⟩
  obtain ⟨k3, ek3⟩ : ∃ k, k = freeG sat a (i.state.arr + (i.dt / 2) • k2) := ⟨_, rfl⟩
  obtain ⟨k4, ek4⟩ : ∃ k, k = freeG sat a (i.state.arr + i.dt • k3) := ⟨_, rfl⟩
  have a1 : k1.vel = fun _ => 0 := by rw [ek1]; rfl
  have a2 : k2.vel = fun _ => 0 := by rw [ek2]; rfl
  have a3 : k3.vel = fun _ => 0 := by rw [ek3]; rfl
  have a4 : k4.vel = fun _ => 0 := by rw [ek4]; rfl
  have b1 : k1.pos = i.state.arr.vel := by rw [ek1]; rfl
  have b2 : k2.pos = i.state.arr.vel := by rw [ek2]; exact v2 _ a1 _
  have b3 : k3.pos = i.state.arr.vel := by rw [ek3]; exact v2 _ a2 _
  have b4 : k4.pos = i.state.arr.vel := by rw [ek4]; exact v2 _ a3 _
  have b5 : ((1 / 6 : ℝ) • (k1 + (2 : ℝ) • k2 + (2 : ℝ) • k3 + k4)).pos = i.state.arr.vel := by
    show (1 / 6 : ℝ) • (k1.pos + (2 : ℝ) • k2.pos + (2 : ℝ) • k3.pos + k4.pos) = _
    rw [b1, b2, b3, b4]
    funext x; simp only [Pi.add_apply, Pi.smul_apply, smul_eq_mul]; ring
  have a5 : ((1 / 6 : ℝ) • (k1 + (2 : ℝ) • k2 + (2 : ℝ) • k3 + k4)).vel = fun _ => 0 := by
    show (1 / 6 : ℝ) • (k1.vel + (2 : ℝ) • k2.vel + (2 : ℝ) • k3.vel + k4.vel) = _
    rw [a1, a2, a3, a4]
    funext x; simp only [Pi.add_apply, Pi.smul_apply, smul_eq_mul]; ring
  subst ek1
  have hd2 : (0 : ℝ) ≤ i.dt / 2 := by linarith
  obtain ⟨s', e1, e2, e3⟩ := rk4_completes hdef h.consistent hcl (dt := i.dt) h.outside
    (by rw [p2 _ b1]; exact far _ hd2) ek2 (by rw [p2 _ b2]; exact far _ hd2) ek3 (by rw [p2 _ b3]; exact far _ hdt.le) ek4
    (by rw [p2 _ b5]; exact far _ hdt.le)
  have ep : s'.arr.pos = i.state.arr.pos + i.dt • i.state.arr.vel := by rw [e3, p2 _ b5]
  have ev : s'.arr.vel = i.state.arr.vel := by rw [e3, v2 _ a5]
  have e4 : 6.3e6 ≤ npNorm s'.arr.pos := by rw [ep]; exact far _ hdt.le
  have hin : InRange (cl.datetime + timedelta i.dt) := by
    have := hcal 1 (by omega)
    rwa [Nat.cast_one, one_mul] at this
  have htick : cl.tick i.dt = (.ok (), { cl with datetime := cl.datetime + timedelta i.dt }) := by
    simp only [JClock.tick, if_pos hin]
  obtain ⟨s6, e6, -⟩ := C127_new { s'.arr with att := normalizeV s'.arr.att }
    { cl with datetime := cl.datetime + timedelta i.dt } e4
  obtain ⟨gy, rng, hgy, w1, w2⟩ := propagate_completes (g := i.gyro) hdt h.arw h.rrw i.rng
  obtain ⟨q1, q2, q3⟩ := C80_new e6
  have e6' : mkState { s'.arr with att := normalizeV s'.arr.att }
    (some { cl with datetime := cl.datetime + timedelta i.dt }) = .ok s6 := e6
  refine ⟨{ i with state := s6, gyro := gy, rng := rng }, ?_, ⟨q1, hdt, by rw [w1]; exact h.arw, by rw [w2]; exact h.rrw,
    ?_, ?_, _, q3, fun j hj => ?_⟩, rfl⟩
  · unfold Integ.update
    simp only [e1, e2, htick, SatState.update, e6', hgy]
  · rw [q2]; exact e4
  · show 0 ≤ s6.arr.pos ⬝ᵥ s6.arr.vel
    rw [q2]
    show 0 ≤ s'.arr.pos ⬝ᵥ s'.arr.vel
    rw [ep, ev, add_dotProduct, smul_dotProduct, smul_eq_mul]
    have hv : 0 ≤ i.state.arr.vel ⬝ᵥ i.state.arr.vel := by
      rw [Matrix.vec3_dotProduct]
      nlinarith [sq_nonneg (i.state.arr.vel 0), sq_nonneg (i.state.arr.vel 1), sq_nonneg (i.state.arr.vel 2)]
    have := mul_nonneg hdt.le hv
    linarith [h.away]
  · have := hcal (j + 1) (by omega)
    push_cast at this
    show InRange (cl.datetime + timedelta i.dt + j * timedelta i.dt)
    rwa [show cl.datetime + ((j : ℤ) + 1) * timedelta i.dt = cl.datetime + timedelta i.dt + j * timedelta i.dt by
      ring] at this

theorem flying_runs {sat : Satellite} (hm : sat.mass ≠ 0) (a : Fin sat.rw.n → ℝ) (m : ℕ) : ∀ {N : ℕ} {i : Integ sat.rw.n},
    Spec.Flying (N + m) i →
    ∃ i', runs (fun st => derivative sat st ⟨0, 0⟩ a) m i = (.ok (), i') ∧ Spec.Flying N i' ∧ i'.dt = i.dt := by
  induction m with
  | zero => intro N i h; exact ⟨i, rfl, h, rfl⟩
  | succ m ih =>
    intro N i h
    obtain ⟨i1, u1, f1, d1⟩ := flying_update hm a (N := N + m) (i := i) h
    obtain ⟨i2, u2, f2, d2⟩ := ih f1
    refine ⟨i2, ?_, f2, d2.trans d1⟩
    rw [show m + 1 = 1 + m by omega, runs_add]
    simp only [runs, u1]
    exact u2

/-- Such runs exist, of any number of intervals of any number of steps, from every integrator whose satellite flies away from
the Earth in free flight, as long as the calendar does not run out. -/
theorem C212_exists (c : RwController) (hm : c.sat.mass ≠ 0) (hw : UnlimitedWheels c.sat) (hav : c.objAvoidance = false)
    (s0 : Measurements c.sat.rw.n) (objs0 : List V3) (hobj : c.objects s0 = .ok objs0) (qc : V4) (m N : ℕ) (tr0 : Trigger)
    (i0 : Integ c.sat.rw.n) (hf : Spec.Flying (N * m) i0) :
    ∃ tr i, tr 0 = tr0 ∧ i 0 = i0 ∧ Spec.SimRun c qc 0 m N tr i := by
  induction N generalizing tr0 i0 with
  | zero => exact ⟨fun _ => tr0, fun _ => i0, rfl, rfl, fun n hn => absurd hn (Nat.not_lt_zero n)⟩
  | succ N ih =>
    obtain ⟨s, objs, law, c', a, h1, h2, h3, h4, h5, -⟩ := commands_exist c hw hav s0 objs0 hobj qc tr0 i0.state
    obtain ⟨i1, u1, f1, d1⟩ := flying_runs hm a m (N := N * m) (by rw [← Nat.succ_mul]; exact hf)
    obtain ⟨tr, i, e1, e2, hr⟩ := ih c'.trigger i1 f1
    refine ⟨fun n => Nat.casesOn n tr0 tr, fun n => Nat.casesOn n i0 i, rfl, rfl, ?_⟩
    intro n hn
    cases n with
    | zero =>
      refine ⟨s, objs, law, c', a, fun st => derivative c.sat st ⟨0, 0⟩ a, h1, h2, Or.inl hav, h3, e1.symm, h5,
        fun st d _ hd => ⟨0, 0, ?_, hd⟩, ?_⟩
      · rw [npNorm_eq_zero.2 rfl]
      · show runs _ m i0 = (.ok (), i 0)
        rw [e2]; exact u1
    | succ n => exact hr n (by omega)

/-- The hypotheses of `C212_converges` and of `C212_exists` are met by a satellite that is built by the library and starts
off turning at 0.37 radians per second with spinning wheels, for any number of intervals. -/
example : ∃ (c : RwController) (s0 : Measurements c.sat.rw.n) (objs0 : List V3), 0 < c.alpha ∧ 0 < c.gamma ∧
    Built c.sat 2 ![0.1, 0.1, 0.2] 0.8 2.2 ∧ UnlimitedWheels c.sat ∧ c.objAvoidance = false ∧ c.objects s0 = .ok objs0 ∧
    ∀ (dt : ℝ) (m N : ℕ), 0 < dt → N * m * (dt * 1000000 + 1) ≤ (10 : ℝ) ^ 15 → ∃ i0 : Integ c.sat.rw.n, i0.dt = dt ∧
      Spec.Flying (N * m) i0 ∧ npNorm i0.state.attrs.attitude = 1 ∧ i0.state.attrs.bodyAngVel = ![0.1, 0.2, 0.3] ∧
      i0.state.attrs.wheelVel = fun _ => 100 := by
  obtain ⟨model, c, st, s, objs, hc, hb, hw, hav, hs, hobj, hn, hrate, -⟩ := exLoop ![0.1, 0.2, 0.3] 0 []
  obtain ⟨g1, -, g2, -⟩ := C69_gains model 1 1 c hc
  refine ⟨{ c with objAvoidance := false }, s, objs, g1, ?_, hb, hw, rfl, hobj, ?_⟩
  · show 0 < c.gamma
    rw [g2]; norm_num
  intro dt m N hdt hcal
  obtain ⟨s1, hs1, -⟩ := exState c.sat.rw.n
  obtain ⟨q1, q2, q3⟩ := C80_new hs1
  obtain ⟨gy, hgy⟩ : ∃ gy : Gyro, 0 ≤ gy.arwVar ∧ 0 ≤ gy.rrwVar :=
    ⟨⟨⟨0, 0.01⟩, 0, 0, 0, 0, 0, 0.0001, 0⟩, by norm_num, le_rfl⟩
  refine ⟨⟨s1, dt, gy, fun _ => 0⟩, rfl, ⟨q1, hdt, hgy.1, hgy.2, ?_, ?_, _, q3, ?_⟩, ?_, ?_, ?_⟩
  · show 6.3e6 ≤ npNorm s1.arr.pos
    rw [q2, npNorm, Fin.sum_univ_three]
    simp [exRaw]; norm_num
  · show 0 ≤ s1.arr.pos ⬝ᵥ s1.arr.vel
    rw [q2, Matrix.vec3_dotProduct]
    simp [exRaw]
  · intro j hj
    have h1 := abs_le.1 (timedelta_error dt)
    have hj' : (j : ℝ) ≤ N * m := by exact_mod_cast hj
    have hj0 : (0 : ℝ) ≤ j := Nat.cast_nonneg j
    have h2 : (j : ℝ) * timedelta dt ≤ 10 ^ 15 := by
      refine le_trans ?_ hcal
      have : (timedelta dt : ℝ) ≤ dt * 1000000 + 1 := by linarith [h1.2]
      calc (j : ℝ) * timedelta dt ≤ j * (dt * 1000000 + 1) := mul_le_mul_of_nonneg_left this hj0
        _ ≤ N * m * (dt * 1000000 + 1) := mul_le_mul_of_nonneg_right hj' (by positivity)
    have h3 : (0 : ℤ) ≤ timedelta dt := by
      have : (-1 : ℝ) < (timedelta dt : ℝ) := by nlinarith [h1.1]
      have : (-1 : ℤ) < timedelta dt := by exact_mod_cast this
      omega
    have h4 : (j : ℤ) * timedelta dt ≤ 10 ^ 15 := by exact_mod_cast h2
    have h5 : 0 ≤ (j : ℤ) * timedelta dt := mul_nonneg (Int.natCast_nonneg j) h3
    show InRange (exClock.datetime + j * timedelta dt)
    simp only [InRange, exClock, usDay]
    constructor <;> norm_num at h4 ⊢ <;> linarith
  · show npNorm s1.attrs.attitude = 1
    rw [q1.attitude, q2]
    exact npNorm_vec4 (by norm_num)
  · show s1.attrs.bodyAngVel = _
    rw [q1.bodyAngVel, q2]; rfl
  · show s1.attrs.wheelVel = _
    rw [q1.wheelVel, q2]; rfl

end Adcs
