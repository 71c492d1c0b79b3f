import Verif.Proofs.Tracking
import Verif.Props.MagControl
import Verif.Props.JClock
import Mathlib.Analysis.Real.Pi.Bounds
import Mathlib.Analysis.Calculus.Deriv.MeanValue

set_option autoImplicit false

/-! # C69, C98-C102: the tracking law in closed loop with the library's dynamics -/

namespace Adcs

open Str Ctl Sens JDay Quat Vec Dyn
open scoped Matrix

/-- The controller is given the true attitude, rate and wheel speeds. -/
def Measured {n : ℕ} (s : Measurements n) (st : SatState n) : Prop :=
  s.att = st.attrs.attitude ∧ s.rate = st.attrs.bodyAngVel ∧ s.whl = st.attrs.wheelVel

/-- A pure quaternion. -/
def pureQ (w : V3) : V4 := ![0, w 0, w 1, w 2]

/-- The energy-like function. -/
noncomputable def lyap (alpha sgn q0 : ℝ) (w : V3) : ℝ := (w ⬝ᵥ w) / 2 + 2 * alpha * (1 - sgn * q0)

/-- Commands of the law without avoidance, for any reference, and the angular acceleration they cause under
any torque of the environment: the gyroscopic torque and the wheels' momentum cancel. -/
theorem C69_acceleration (c : RwController) {mass : ℝ} {dims : V3} {ab cd : ℝ}
    (hb : Built c.sat mass dims ab cd) (hm : mass ≠ 0) (hw : UnlimitedWheels c.sat)
    (hav : c.objAvoidance = false) (st : SatState c.sat.rw.n) (s : Measurements c.sat.rw.n)
    (hs : Measured s st) (objs : List V3) (hobj : c.objects s = .ok objs) (wc wcd : V3) (qc : V4) (F T : V3) :
    ∃ law c' a d, c.tracking s wc wcd qc = (.ok law, c') ∧ c.actuatorCommands law = .ok a ∧
      derivative c.sat st ⟨F, T⟩ a = .ok d ∧
      c'.trigger = (c.trigger.sign (errorQuat s.att qc 0)).2 ∧
      d.att = (0.5 : ℝ) • product s.att (pureQ s.rate) ∧
      d.rate = c.sat.invTotMoment *ᵥ T - (c'.trigger.memory * c.alpha) • vecPart (errorQuat s.att qc)
        - c.gamma • (s.rate - sandwich (errorQuat s.att qc) wc)
        - (s.rate ⨯₃ sandwich (errorQuat s.att qc) wc + sandwich (errorQuat s.att qc) wcd) := by
  obtain ⟨h1, h2, h3⟩ := hs
  have ht := tracking_plain hav hobj wc wcd qc
  set law := npCross s.rate (c.sat.totalMoment *ᵥ s.rate + c.sat.rw.momentum s.whl) +
        c.sat.totalMoment *ᵥ ((-(c.trigger.sign (errorQuat s.att qc 0)).1 * c.alpha) • vecPart (errorQuat s.att qc)
          - c.gamma • (s.rate - sandwich (errorQuat s.att qc) wc)
          - (npCross s.rate (sandwich (errorQuat s.att qc) wc) + sandwich (errorQuat s.att qc) wcd)) with hlaw
  obtain ⟨a, ha, hta⟩ := hw.accelerations (-law)
  obtain ⟨d, hd, -, -, hatt, hrate⟩ := derivative_rate hb hm st law F T a hta
  refine ⟨law, _, a, d, ht, ha, hd, rfl, ?_, ?_⟩
  · rw [hatt, ← h1, ← h2]; rfl
  · rw [hrate, ← h2, ← h3, hlaw]
    have e : ∀ g x T : V3, T + (g + x) - g = T + x := by intro g x T; abel
    rw [e, Matrix.mulVec_add, hb.cancel, npCross_eq_crossProduct]
    have : (c.trigger.sign (errorQuat s.att qc 0)).2.memory = (c.trigger.sign (errorQuat s.att qc 0)).1 := rfl
    rw [this, neg_mul, neg_smul]
    abel

/-- The rate of change of the scalar part of the attitude error. -/
theorem error_scalar_deriv {q : ℝ → V4} {w : V3} {t : ℝ} (qc : V4)
    (hq : HasDerivAt q ((0.5 : ℝ) • product (q t) (pureQ w)) t) :
    HasDerivAt (fun τ => errorQuat (q τ) qc 0) (-0.5 * (vecPart (errorQuat (q t) qc) ⬝ᵥ w)) t := by
  have h := hasDerivAt_pi.1 (hasDerivAt_product (hasDerivAt_const t (conjugate qc)) hq) 0
  refine h.congr_deriv ?_
  simp only [errorQuat, Pi.add_apply, Matrix.vec3_dotProduct, product_0, product_1, product_2, product_3,
    Pi.zero_apply, Pi.smul_apply, smul_eq_mul, pureQ, vecPart_0, vecPart_1, vecPart_2,
    Matrix.cons_val_zero, Matrix.cons_val_one, cons4_2, cons4_3]
  ring

theorem lyap_deriv {q : ℝ → V4} {w : ℝ → V3} {t : ℝ} {qc : V4} {alpha gamma sgn : ℝ}
    (hq : HasDerivAt q ((0.5 : ℝ) • product (q t) (pureQ (w t))) t)
    (hw : HasDerivAt w (-(sgn * alpha) • vecPart (errorQuat (q t) qc) - gamma • w t) t) :
    HasDerivAt (fun τ => lyap alpha sgn (errorQuat (q τ) qc 0) (w τ)) (-gamma * (w t ⬝ᵥ w t)) t := by
  have h0 := error_scalar_deriv qc hq
  have hc := hasDerivAt_pi.1 hw
  have h1 := (((hc 0).fun_mul (hc 0)).fun_add ((hc 1).fun_mul (hc 1))).fun_add ((hc 2).fun_mul (hc 2))
  have e : (fun τ => lyap alpha sgn (errorQuat (q τ) qc 0) (w τ)) = fun τ =>
      (w τ 0 * w τ 0 + w τ 1 * w τ 1 + w τ 2 * w τ 2) / 2 + 2 * alpha * (1 - sgn * errorQuat (q τ) qc 0) := by
    funext τ; rw [lyap, Matrix.vec3_dotProduct]
  rw [e]
  refine ((h1.div_const 2).fun_add (((h0.const_mul sgn).const_sub 1).const_mul (2 * alpha))).congr_deriv ?_
  simp only [Matrix.vec3_dotProduct, Pi.sub_apply, Pi.smul_apply, smul_eq_mul]
  ring

/-- Along every motion with the derivative given by the library's dynamics for the commands of the law
(constant attitude command, no disturbance), the energy-like function falls at the rate `gamma |w|^2`. -/
theorem C69_energy (c : RwController) {mass : ℝ} {dims : V3} {ab cd : ℝ}
    (hb : Built c.sat mass dims ab cd) (hm : mass ≠ 0) (hw : UnlimitedWheels c.sat)
    (hav : c.objAvoidance = false) (st : SatState c.sat.rw.n) (s : Measurements c.sat.rw.n)
    (hs : Measured s st) (objs : List V3) (hobj : c.objects s = .ok objs) (qc : V4) (F : V3) :
    ∃ law c' a d, c.tracking s 0 0 qc = (.ok law, c') ∧ c.actuatorCommands law = .ok a ∧
      derivative c.sat st ⟨F, 0⟩ a = .ok d ∧
      ∀ (q : ℝ → V4) (w : ℝ → V3) (t : ℝ), q t = st.attrs.attitude → w t = st.attrs.bodyAngVel →
        HasDerivAt q d.att t → HasDerivAt w d.rate t →
        HasDerivAt (fun τ => lyap c.alpha c'.trigger.memory (errorQuat (q τ) qc 0) (w τ))
          (-c.gamma * (w t ⬝ᵥ w t)) t := by
  obtain ⟨law, c', a, d, h1, h2, h3, -, h5, h6⟩ :=
    C69_acceleration c hb hm hw hav st s hs objs hobj 0 0 qc F 0
  refine ⟨law, c', a, d, h1, h2, h3, fun q w t hq hwt hdq hdw => ?_⟩
  have z : sandwich (errorQuat s.att qc) 0 = 0 := by
    rw [sandwich_eq_dcm, Matrix.mulVec_zero]
  rw [z, Matrix.mulVec_zero, zero_sub, sub_zero, LinearMap.map_zero, add_zero, sub_zero, hs.1, hs.2.1,
    ← hq, ← hwt] at h6
  rw [hs.1, hs.2.1, ← hq, ← hwt] at h5
  rw [h5] at hdq
  rw [h6, ← neg_smul] at hdw
  exact lyap_deriv hdq hdw

/-- A switch of the hysteretic sign lowers the function by at least `4 alpha half_width`. -/
theorem C69_switch (c : RwController) (htr : c.trigger.memory = 1 ∨ c.trigger.memory = -1)
    (halpha : 0 < c.alpha) (q0 : ℝ) (w : V3) (h : (c.trigger.sign q0).1 ≠ c.trigger.memory) :
    lyap c.alpha (c.trigger.sign q0).1 q0 w ≤
      lyap c.alpha c.trigger.memory q0 w - 4 * c.alpha * c.trigger.halfWidth := by
  have hj : q0 * c.trigger.memory ≤ -c.trigger.halfWidth := by
    by_contra h'
    apply h
    simp only [Trigger.sign, Trigger.step, if_neg h']
  have hf : (c.trigger.sign q0).1 = -c.trigger.memory :=
    pm_flip htr (trigger_step_pm htr q0) h
  rw [hf]
  unfold lyap
  nlinarith

/-- For a controller made by the constructor the decrease at a switch is strict. -/
theorem C69_gains (model : CtlModel) (damping natFreq : ℝ) (c : RwController)
    (h : RwController.init model damping natFreq = .ok c) :
    0 < c.alpha ∧ c.alpha = 2 * natFreq ^ 2 ∧ c.gamma = 2 * damping * natFreq ∧ c.trigger.halfWidth = 0.3 ∧
      c.trigger.memory = 1 ∧ c.sat = model.sat := by
  unfold RwController.init at h
  split at h
  · cases h
  · simp only at h
    split_ifs at h with h0
    simp only [Except.ok.injEq] at h
    subst h
    have : natFreq ≠ 0 := fun h => h0 (by rw [h, mul_zero])
    refine ⟨by positivity, rfl, rfl, rfl, ?_, rfl⟩
    simp [Trigger.init, npSign]

/-- The function is zero exactly at rest in the commanded attitude, and otherwise positive. -/
theorem C69_definite (alpha sgn : ℝ) (ha : 0 < alpha) (hs : sgn = 1 ∨ sgn = -1) (q qc : V4) (hq : npNorm q = 1)
    (hc : npNorm qc = 1) (w : V3) :
    0 ≤ lyap alpha sgn (errorQuat q qc 0) w ∧
    (lyap alpha sgn (errorQuat q qc 0) w = 0 ↔ w = 0 ∧ q = sgn • qc) := by
  have hu : IsUnit4 (errorQuat q qc) := errorQuat_unit ((isUnit4_iff _).2 hq) ((isUnit4_iff _).2 hc)
  unfold IsUnit4 at hu
  have h1 : sgn * errorQuat q qc 0 ≤ 1 := by
    rcases hs with rfl | rfl <;> nlinarith [sq_nonneg (errorQuat q qc 1), sq_nonneg (errorQuat q qc 2), sq_nonneg (errorQuat q qc 3)]
  have h2 : 0 ≤ w ⬝ᵥ w := by
    rw [Matrix.vec3_dotProduct]; nlinarith [sq_nonneg (w 0), sq_nonneg (w 1), sq_nonneg (w 2)]
  have h3 : 0 ≤ 2 * alpha * (1 - sgn * errorQuat q qc 0) := by
    have : 0 ≤ 1 - sgn * errorQuat q qc 0 := by linarith
    positivity
  unfold lyap
  refine ⟨by linarith, ?_, ?_⟩
  · intro h
    have hw : w ⬝ᵥ w = 0 := by linarith
    have h4 : 2 * alpha * (1 - sgn * errorQuat q qc 0) = 0 := by linarith
    have h5 : sgn * errorQuat q qc 0 = 1 := by
      rcases mul_eq_zero.1 h4 with h | h
      · linarith
      · linarith
    refine ⟨dotProduct_self_eq_zero.1 hw, ?_⟩
    have h0 : errorQuat q qc 0 = sgn := by
      rcases hs with rfl | rfl <;> linarith
    have hs2 : sgn ^ 2 = 1 := by rcases hs with rfl | rfl <;> norm_num
    rw [h0, hs2] at hu
    have e1 : errorQuat q qc 1 = 0 := by
      nlinarith [sq_nonneg (errorQuat q qc 1), sq_nonneg (errorQuat q qc 2), sq_nonneg (errorQuat q qc 3)]
    have e2 : errorQuat q qc 2 = 0 := by
      nlinarith [sq_nonneg (errorQuat q qc 1), sq_nonneg (errorQuat q qc 2), sq_nonneg (errorQuat q qc 3)]
    have e3 : errorQuat q qc 3 = 0 := by
      nlinarith [sq_nonneg (errorQuat q qc 1), sq_nonneg (errorQuat q qc 2), sq_nonneg (errorQuat q qc 3)]
    have he : errorQuat q qc = sgn • ![1, 0, 0, 0] := by
      apply vec4_ext <;> simp [h0, e1, e2, e3]
    have := (C09_error_quat q qc hq hc).1
    rw [he, (C04_product_bilinear qc ![1, 0, 0, 0] 0 sgn).2.2.2, product_one] at this
    exact this.symm
  · rintro ⟨rfl, rfl⟩
    have : errorQuat (sgn • qc) qc 0 = sgn := by
      rw [errorQuat, (C04_product_bilinear (conjugate qc) qc 0 sgn).2.2.2,
        conj_product_self ((isUnit4_iff _).2 hc)]
      simp
    rw [this]
    rcases hs with rfl | rfl <;> simp

/-- Runs of the closed loop with a switching sign: continuous pieces of motion with the derivative of
`C69_acceleration` and a held sign up to their end, and switches (counted) at the condition of the trigger. -/
inductive HybridRun (alpha gamma hw : ℝ) (qc : V4) (s0 : ℝ) (q0 : V4) (w0 : V3) :
    ℝ → V4 → V3 → ℕ → Prop
  | start : HybridRun alpha gamma hw qc s0 q0 w0 s0 q0 w0 0
  | flow {s : ℝ} {n : ℕ} (q : ℝ → V4) (w : ℝ → V3) (T : ℝ) (hT : 0 ≤ T) :
      HybridRun alpha gamma hw qc s0 q0 w0 s (q 0) (w 0) n →
      ContinuousOn q (Set.Icc 0 T) → ContinuousOn w (Set.Icc 0 T) →
      (∀ t ∈ Set.Ico 0 T, HasDerivAt q ((0.5 : ℝ) • product (q t) (pureQ (w t))) t) →
      (∀ t ∈ Set.Ico 0 T, HasDerivAt w (-(s * alpha) • vecPart (errorQuat (q t) qc) - gamma • w t) t) →
      HybridRun alpha gamma hw qc s0 q0 w0 s (q T) (w T) n
  | switch {s : ℝ} {n : ℕ} {q : V4} {w : V3} : HybridRun alpha gamma hw qc s0 q0 w0 s q w n →
      errorQuat q qc 0 * s ≤ -hw → HybridRun alpha gamma hw qc s0 q0 w0 (-s) q w (n + 1)

theorem norm_flow {q : ℝ → V4} {w : ℝ → V3} {T : ℝ} (hT : 0 ≤ T) (hc : ContinuousOn q (Set.Icc 0 T))
    (h : ∀ t ∈ Set.Ico 0 T, HasDerivAt q ((0.5 : ℝ) • product (q t) (pureQ (w t))) t) :
    npNorm (q T) = npNorm (q 0) := by
  have hd : ∀ t ∈ Set.Ico 0 T, HasDerivAt (fun τ => q τ 0 ^ 2 + q τ 1 ^ 2 + q τ 2 ^ 2 + q τ 3 ^ 2) 0 t := by
    intro t ht
    have k := hasDerivAt_pi.1 (h t ht)
    have := ((((k 0).fun_pow 2).fun_add ((k 1).fun_pow 2)).fun_add ((k 2).fun_pow 2)).fun_add ((k 3).fun_pow 2)
    refine this.congr_deriv ?_
    simp only [Nat.reduceSub, pow_one, Nat.cast_ofNat, Pi.smul_apply, smul_eq_mul, product_0, product_1, product_2,
      product_3, pureQ, Matrix.cons_val_zero, Matrix.cons_val_one, cons4_2, cons4_3]
    ring
  have hc' : ContinuousOn (fun τ => q τ 0 ^ 2 + q τ 1 ^ 2 + q τ 2 ^ 2 + q τ 3 ^ 2) (Set.Icc 0 T) := by
    have k := continuousOn_pi.1 hc
    exact ((((k 0).pow 2).add ((k 1).pow 2)).add ((k 2).pow 2)).add ((k 3).pow 2)
  have := constant_of_has_deriv_right_zero hc' (fun t ht => (hd t ht).hasDerivWithinAt) T ⟨hT, le_rfl⟩
  unfold npNorm
  rw [Fin.sum_univ_four, Fin.sum_univ_four, this]

theorem errorQuat_continuous (qc : V4) : Continuous fun q : V4 => errorQuat q qc := by
  refine continuous_pi fun i => ?_
  fin_cases i
  all_goals
    simp only [Fin.zero_eta, Fin.mk_one, Fin.reduceFinMk, errorQuat, product_0, product_1, product_2, product_3]
    fun_prop

theorem lyap_continuousOn {alpha s : ℝ} {qc : V4} {q : ℝ → V4} {w : ℝ → V3} {S : Set ℝ} (hq : ContinuousOn q S)
    (hw : ContinuousOn w S) : ContinuousOn (fun τ => lyap alpha s (errorQuat (q τ) qc 0) (w τ)) S := by
  have h1 := continuousOn_pi.1 ((errorQuat_continuous qc).comp_continuousOn hq) 0
  have h2 := continuousOn_pi.1 hw
  unfold lyap
  simp only [Matrix.vec3_dotProduct]
  exact (((((h2 0).mul (h2 0)).add ((h2 1).mul (h2 1))).add ((h2 2).mul (h2 2))).div_const 2).add
    (continuousOn_const.mul (continuousOn_const.sub (continuousOn_const.mul h1)))

/-- In every run the function does not increase, and every switch costs at least `4 alpha hw`: the number
of switches is bounded, the attitude stays a unit quaternion and the rate stays bounded. -/
theorem C69_run {alpha gamma hw : ℝ} (hg : 0 ≤ gamma) (ha : 0 < alpha) {qc : V4} (hqc : npNorm qc = 1)
    {s0 : ℝ} (hs0 : s0 = 1 ∨ s0 = -1) {q0 : V4} (hq0 : npNorm q0 = 1) {w0 : V3} {s : ℝ} {q : V4} {w : V3} {n : ℕ}
    (h : HybridRun alpha gamma hw qc s0 q0 w0 s q w n) :
    (s = 1 ∨ s = -1) ∧ npNorm q = 1 ∧
    lyap alpha s (errorQuat q qc 0) w + 4 * alpha * hw * n ≤ lyap alpha s0 (errorQuat q0 qc 0) w0 ∧
    4 * alpha * hw * n ≤ lyap alpha s0 (errorQuat q0 qc 0) w0 := by
  have key : (s = 1 ∨ s = -1) ∧ npNorm q = 1 ∧
    lyap alpha s (errorQuat q qc 0) w + 4 * alpha * hw * n ≤ lyap alpha s0 (errorQuat q0 qc 0) w0 := by
    induction h with
    | start => exact ⟨hs0, hq0, by simp⟩
    | @flow s n q w T hT _ hcq hcw hdq hdw ih =>
      obtain ⟨i1, i2, i3⟩ := ih
      refine ⟨i1, (norm_flow hT hcq hdq).trans i2, le_trans (add_le_add_left ?_ _) i3⟩
      have hd : ∀ t ∈ Set.Ico 0 T, HasDerivAt (fun τ => lyap alpha s (errorQuat (q τ) qc 0) (w τ))
          (-gamma * (w t ⬝ᵥ w t)) t := fun t ht => lyap_deriv (hdq t ht) (hdw t ht)
      have hanti : AntitoneOn (fun τ => lyap alpha s (errorQuat (q τ) qc 0) (w τ)) (Set.Icc 0 T) := by
        apply antitoneOn_of_deriv_nonpos (convex_Icc 0 T)
        · exact lyap_continuousOn hcq hcw
        · intro t ht
          rw [interior_Icc] at ht
          exact (hd t ⟨ht.1.le, ht.2⟩).differentiableAt.differentiableWithinAt
        · intro t ht
          rw [interior_Icc] at ht
          rw [(hd t ⟨ht.1.le, ht.2⟩).deriv]
          have : 0 ≤ w t ⬝ᵥ w t := by
            rw [Matrix.vec3_dotProduct]; nlinarith [sq_nonneg (w t 0), sq_nonneg (w t 1), sq_nonneg (w t 2)]
          nlinarith
      exact hanti ⟨le_rfl, hT⟩ ⟨hT, le_rfl⟩ hT
    | @switch s n q w _ hj ih =>
      obtain ⟨i1, i2, i3⟩ := ih
      refine ⟨?_, i2, le_trans ?_ i3⟩
      · rcases i1 with rfl | rfl
        · right; rfl
        · left; norm_num
      · unfold lyap
        push_cast
        nlinarith
  refine ⟨key.1, key.2.1, key.2.2, ?_⟩
  have := (C69_definite alpha s ha key.1 q qc key.2.1 hqc w).1
  linarith [key.2.2]

/-! ## A concrete closed loop -/

/-- A controller made by the constructor for a concrete satellite, in a concrete state with this rate, magnetic
field and instruments. -/
theorem exLoop (w mag : V3) (ins : List Instrument) :
    ∃ (model : CtlModel) (c : RwController) (st : SatState c.sat.rw.n) (s : Measurements c.sat.rw.n)
      (objs : List V3), RwController.init model 1 1 = .ok c ∧
    Built c.sat 2 ![0.1, 0.1, 0.2] 0.8 2.2 ∧ UnlimitedWheels c.sat ∧ c.objAvoidance = true ∧
    Measured s st ∧ c.objects s = .ok objs ∧ npNorm s.att = 1 ∧ s.rate = w ∧ s.mag = mag ∧ 
    c.instruments = ins.map (fun i => setGains i Real.pi 2) ∧
    c.sat.nMt = 3 ∧ s.whl = fun _ => 100 := by
  obtain ⟨sat, hb, hpd, ⟨h3, -⟩, hI, hins, hrw⟩ := exSat3 false ins
  set model : CtlModel := ⟨sat, some exClock, some fun _ _ => .ok ![1, 0, 0]⟩ with hmodel
  have hc0 : RwController.init model 1 1 =
      .ok ⟨sat, exClock, some fun _ _ => .ok ![1, 0, 0], true, Trigger.init 1 0.3, 2 * 1 ^ 2, 2 * 1 * 1,
        sat.instruments.map fun i => setGains i Real.pi (2 * 1 ^ 2 * 1)⟩ := by
    unfold RwController.init
    simp only [hmodel]
    rw [if_neg (by norm_num)]
  set a : Raw sat.rw.n := { exRaw sat.rw.n with rate := w } with ha
  have hpos : a.pos 0 ^ 2 + a.pos 1 ^ 2 = 6800000 ^ 2 := by simp [ha, exRaw]
  obtain ⟨st, hst, -, -, -⟩ := mkState_equator a exClock (by simp [ha, exRaw]) (by rw [hpos]; norm_num)
    (by
      rw [hpos, Real.sqrt_sq (by norm_num)]
      have := wgsE2_lt; have := wgsE2_pos
      unfold Fr.wgsA; nlinarith)
  obtain ⟨hcons, harr, -⟩ := C80_new hst
  refine ⟨model, _, st,
    ⟨st.attrs.position, st.attrs.velocity, st.attrs.attitude, st.attrs.bodyAngVel, st.attrs.wheelVel, mag, 0⟩,
    [sandwich st.attrs.attitude ![1, 0, 0], -normalizeV st.attrs.position], hc0, hb, ?_, rfl, ⟨rfl, rfl, rfl⟩, rfl,
    ?_, ?_, rfl, ?_, h3, ?_⟩
  · exact ⟨3, exAxes, fun _ => 1e-5, fun _ => 2e-6, 0.002, fun _ => by norm_num, hrw⟩
  · simp only [hcons.attitude, harr, ha, exRaw]
    exact npNorm_vec4 (by norm_num)
  · simp only [hcons.bodyAngVel, harr, ha]
  · simp only [hins]; norm_num
  · simp only [hcons.wheelVel, harr, ha, exRaw]

/-- The hypotheses of `C69_acceleration` and `C69_energy` are met. -/
example : ∃ (c : RwController) (st : SatState c.sat.rw.n) (s : Measurements c.sat.rw.n) (objs : List V3),
    Built c.sat 2 ![0.1, 0.1, 0.2] 0.8 2.2 ∧ UnlimitedWheels c.sat ∧ c.objAvoidance = false ∧
    Measured s st ∧ c.objects s = .ok objs ∧ s.rate = ![0.1, 0.2, 0.3] := by
  obtain ⟨model, c, st, s, objs, hc, hb, hw, hav, hs, hobj, hn, hrate, -⟩ := exLoop ![0.1, 0.2, 0.3] 0 []
  exact ⟨{ c with objAvoidance := false }, st, s, objs, hb, hw, rfl, hs, hobj, hrate⟩

/-- A run with a switch: the error is 180 degrees and more on the far side. -/
example : HybridRun 2 2 0.3 ![1, 0, 0, 0] 1 ![-1, 0, 0, 0] 0 (-1) ![-1, 0, 0, 0] 0 1 := by
  apply HybridRun.switch .start
  norm_num [errorQuat, product_0, conjugate_0, conjugate_1, conjugate_2, conjugate_3]

/-! ## C101: the gains -/

/-- Rotation about a fixed axis: with the body turned by `theta` about `e` from the command and turning at
`rate` about `e`, the closed loop accelerates it about `e` only, by `-2 n^2 sin(theta/2) - 2 z n rate`; for
small angles this is the oscillator of natural frequency `n` and damping ratio `z`. -/
theorem C101_gains (model : CtlModel) (damping natFreq : ℝ) (c : RwController)
    (hc : RwController.init model damping natFreq = .ok c) {mass : ℝ} {dims : V3} {ab cd : ℝ}
    (hb : Built c.sat mass dims ab cd) (hm : mass ≠ 0) (hw : UnlimitedWheels c.sat) (st : SatState c.sat.rw.n)
    (s : Measurements c.sat.rw.n) (hs : Measured s st) (objs : List V3) (hobj : c.objects s = .ok objs) (qc : V4)
    (e : V3) (theta rate : ℝ) (_he : npNorm e = 1) (hcos : -0.3 < Real.cos (theta / 2))
    (hq : errorQuat s.att qc = axisangleToQuat e theta) (hr : s.rate = rate • e) (F : V3) :
    ∃ law c' a d, ({ c with objAvoidance := false } : RwController).tracking s 0 0 qc = (.ok law, c') ∧
      c.actuatorCommands law = .ok a ∧ derivative c.sat st ⟨F, 0⟩ a = .ok d ∧
      d.rate = (-(2 * natFreq ^ 2 * Real.sin (theta / 2)) - 2 * damping * natFreq * rate) • e ∧
      HasDerivAt (fun x => 2 * natFreq ^ 2 * Real.sin (x / 2)) (natFreq ^ 2) 0 := by
  obtain ⟨-, halpha, hgamma, hhw, hmem, -⟩ := C69_gains model damping natFreq c hc
  obtain ⟨law, c', a, d, h1, h2, h3, h4, -, h6⟩ :=
    C69_acceleration { c with objAvoidance := false } hb hm hw rfl st s hs objs hobj 0 0 qc F 0
  refine ⟨law, c', a, d, h1, h2, h3, ?_, ?_⟩
  · have z : sandwich (errorQuat s.att qc) 0 = 0 := by
      rw [sandwich_eq_dcm, Matrix.mulVec_zero]
    have ht : c'.trigger.memory = 1 := by
      rw [h4]
      simp only [Trigger.sign, Trigger.step, hhw, hmem, mul_one]
      rw [if_neg]
      · exact hmem
      · rw [hq]
        simp only [axisangleToQuat, Matrix.cons_val_zero, not_le]
        exact hcos
    have hv : vecPart (axisangleToQuat e theta) = Real.sin (theta / 2) • e := by
      apply vec3_ext <;> simp [vecPart, axisangleToQuat]
    rw [h6, z, ht, hq, hv, hr, Matrix.mulVec_zero, LinearMap.map_zero, add_zero, sub_zero, sub_zero, zero_sub]
    simp only [halpha, hgamma]
    rw [smul_smul, smul_smul, ← neg_smul, ← sub_smul]
    congr 1; ring
  · have h := ((Real.hasDerivAt_sin ((0 : ℝ) / 2)).comp 0 ((hasDerivAt_id (0 : ℝ)).div_const 2)).const_mul (2 * natFreq ^ 2)
    refine h.congr_deriv ?_
    simp; ring

/-- The hypotheses of `C101_gains` are met, turned by one radian and still turning. -/
example : ∃ (model : CtlModel) (c : RwController) (st : SatState c.sat.rw.n) (s : Measurements c.sat.rw.n)
    (objs : List V3) (qc : V4) (e : V3) (rate : ℝ), RwController.init model 1 1 = .ok c ∧
    Built c.sat 2 ![0.1, 0.1, 0.2] 0.8 2.2 ∧ UnlimitedWheels c.sat ∧ Measured s st ∧ c.objects s = .ok objs ∧
    npNorm e = 1 ∧ -0.3 < Real.cos (1 / 2 : ℝ) ∧ errorQuat s.att qc = axisangleToQuat e 1 ∧ s.rate = rate • e := by
  obtain ⟨model, c, st, s, objs, hc, hb, hw, hav, hs, hobj, hn, hrate, -⟩ := exLoop ((0.5 : ℝ) • ![0.6, 0, 0.8]) 0 []
  have hc2 : 0 < Real.cos (1 / 2 : ℝ) := Real.cos_pos_of_mem_Ioo ⟨by have := Real.pi_gt_three; linarith, by have := Real.pi_gt_three; linarith⟩
  refine ⟨model, c, st, s, objs, product s.att (conjugate (axisangleToQuat ![0.6, 0, 0.8] 1)), ![0.6, 0, 0.8], 0.5,
    hc, hb, hw, hs, hobj, npNorm_vec3 (by norm_num), by linarith, ?_, hrate⟩
  rw [errorQuat, conjugate_product, conjugate_conjugate, product_assoc, conj_product_self ((isUnit4_iff _).2 hn),
    product_one]

/-! ## C102: moving references -/

/-- The claim: for every reference attitude `r` that turns with rate `u` (in its own coordinates) and angular
acceleration `u'`, handed to `tracking`, the rate error obeys the regulator's equation. -/
def TracksMovingReference : Prop :=
  ∀ (c : RwController) (mass : ℝ) (dims : V3) (ab cd : ℝ), Built c.sat mass dims ab cd → mass ≠ 0 →
    UnlimitedWheels c.sat → c.objAvoidance = false →
    ∀ (st : SatState c.sat.rw.n) (s : Measurements c.sat.rw.n), Measured s st →
    ∀ (objs : List V3), c.objects s = .ok objs →
    ∀ (q r : ℝ → V4) (w u : ℝ → V3) (u' F : V3) (t : ℝ), q t = s.att → w t = s.rate → npNorm (q t) = 1 →
    npNorm (r t) = 1 → HasDerivAt r ((0.5 : ℝ) • product (r t) (pureQ (u t))) t → HasDerivAt u u' t →
    ∀ law c' a d, c.tracking s (u t) u' (r t) = (.ok law, c') → c.actuatorCommands law = .ok a →
      derivative c.sat st ⟨F, 0⟩ a = .ok d → HasDerivAt q d.att t → HasDerivAt w d.rate t →
      HasDerivAt (fun τ => w τ - sandwich (errorQuat (q τ) (r τ)) (u τ))
        (-(c'.trigger.memory * c.alpha) • vecPart (errorQuat (q t) (r t))
          - c.gamma • (w t - sandwich (errorQuat (q t) (r t)) (u t))) t

/-- What the law really does: the angular acceleration of the reference is subtracted where it should be
added, so the rate error is driven by minus twice the angular acceleration. -/
theorem C102_error (c : RwController) {mass : ℝ} {dims : V3} {ab cd : ℝ} (hb : Built c.sat mass dims ab cd)
    (hm : mass ≠ 0) (hw : UnlimitedWheels c.sat) (hav : c.objAvoidance = false) (st : SatState c.sat.rw.n)
    (s : Measurements c.sat.rw.n) (hs : Measured s st) (objs : List V3) (hobj : c.objects s = .ok objs)
    (q r : ℝ → V4) (w u : ℝ → V3) (u' F : V3) (t : ℝ) (hq : q t = s.att) (hwt : w t = s.rate)
    (hqn : npNorm (q t) = 1) (hrn : npNorm (r t) = 1)
    (hr : HasDerivAt r ((0.5 : ℝ) • product (r t) (pureQ (u t))) t) (hu : HasDerivAt u u' t)
    (law : V3) (c' : RwController) (a : Fin c.sat.rw.n → ℝ) (d : Raw c.sat.rw.n)
    (h1 : c.tracking s (u t) u' (r t) = (.ok law, c')) (h2 : c.actuatorCommands law = .ok a)
    (h3 : derivative c.sat st ⟨F, 0⟩ a = .ok d) (hdq : HasDerivAt q d.att t) (hdw : HasDerivAt w d.rate t) :
    HasDerivAt (fun τ => w τ - sandwich (errorQuat (q τ) (r τ)) (u τ))
        (-(c'.trigger.memory * c.alpha) • vecPart (errorQuat (q t) (r t))
          - c.gamma • (w t - sandwich (errorQuat (q t) (r t)) (u t))
          - (2 : ℝ) • sandwich (errorQuat (q t) (r t)) u') t := by
  obtain ⟨law', c'', a', d', k1, k2, k3, -, k5, k6⟩ :=
    C69_acceleration c hb hm hw hav st s hs objs hobj (u t) u' (r t) F 0
  obtain ⟨e1, e2⟩ := Prod.mk.inj (k1.symm.trans h1)
  obtain rfl := Except.ok.inj e1
  subst e2
  obtain rfl := Except.ok.inj (k2.symm.trans h2)
  obtain rfl := Except.ok.inj (k3.symm.trans h3)
  rw [← hq, ← hwt] at k5 k6
  rw [k5] at hdq
  have he := error_kinematics hrn hqn hdq hr
  have hs2 := hasDerivAt_sandwich2 he hu
  rw [sandwich_kinematics] at hs2
  refine (hdw.fun_sub hs2).congr_deriv ?_
  rw [k6, Matrix.mulVec_zero, zero_sub, npCross_eq_crossProduct, LinearMap.map_sub₂, cross_self, sub_zero, two_smul,
    neg_smul]
  abel

/-- What holds of the claim: references with constant rate. Missing: references with angular acceleration. -/
theorem C102_constant_rate_partial (c : RwController) {mass : ℝ} {dims : V3} {ab cd : ℝ}
    (hb : Built c.sat mass dims ab cd)
    (hm : mass ≠ 0) (hw : UnlimitedWheels c.sat) (hav : c.objAvoidance = false) (st : SatState c.sat.rw.n)
    (s : Measurements c.sat.rw.n) (hs : Measured s st) (objs : List V3) (hobj : c.objects s = .ok objs)
    (q r : ℝ → V4) (w u : ℝ → V3) (F : V3) (t : ℝ) (hq : q t = s.att) (hwt : w t = s.rate)
    (hqn : npNorm (q t) = 1) (hrn : npNorm (r t) = 1)
    (hr : HasDerivAt r ((0.5 : ℝ) • product (r t) (pureQ (u t))) t) (hu : HasDerivAt u 0 t)
    (law : V3) (c' : RwController) (a : Fin c.sat.rw.n → ℝ) (d : Raw c.sat.rw.n)
    (h1 : c.tracking s (u t) 0 (r t) = (.ok law, c')) (h2 : c.actuatorCommands law = .ok a)
    (h3 : derivative c.sat st ⟨F, 0⟩ a = .ok d) (hdq : HasDerivAt q d.att t) (hdw : HasDerivAt w d.rate t) :
    HasDerivAt (fun τ => w τ - sandwich (errorQuat (q τ) (r τ)) (u τ))
        (-(c'.trigger.memory * c.alpha) • vecPart (errorQuat (q t) (r t))
          - c.gamma • (w t - sandwich (errorQuat (q t) (r t)) (u t))) t := by
  have h := C102_error c hb hm hw hav st s hs objs hobj q r w u 0 F t hq hwt hqn hrn hr hu law c' a d h1 h2 h3 hdq hdw
  refine h.congr_deriv ?_
  rw [sandwich_eq_dcm _ 0, Matrix.mulVec_zero, smul_zero, sub_zero]

/-- The claim is false: at rest in a reference that starts to turn. -/
theorem C102_moving_fails : ¬ TracksMovingReference := by
  intro H
  obtain ⟨c, st, s, objs, hb, hw, hav, hs, hobj, hn⟩ :
      ∃ (c : RwController) (st : SatState c.sat.rw.n) (s : Measurements c.sat.rw.n) (objs : List V3),
      Built c.sat 2 ![0.1, 0.1, 0.2] 0.8 2.2 ∧ UnlimitedWheels c.sat ∧ c.objAvoidance = false ∧
      Measured s st ∧ c.objects s = .ok objs ∧ npNorm s.att = 1 := by
    obtain ⟨model, c, st, s, objs, hc, hb, hw, hav, hs, hobj, hn, -⟩ := exLoop 0 0 []
    exact ⟨{ c with objAvoidance := false }, st, s, objs, hb, hw, rfl, hs, hobj, hn⟩
  have hm : (2 : ℝ) ≠ 0 := by norm_num
  obtain ⟨law, c', a, d, k1, k2, k3, -, k5, k6⟩ :=
    C69_acceleration c hb hm hw hav st s hs objs hobj 0 ![1, 0, 0] s.att 0 0
  -- straight lines through the state
  have hline : ∀ {m : ℕ} (x v : Fin m → ℝ), HasDerivAt (fun τ : ℝ => x + τ • v) v 0 := by
    intro m x v
    have := ((hasDerivAt_id (0 : ℝ)).smul_const v).const_add x
    simpa using this
  have hu := hline (0 : V3) ![1, 0, 0]
  have hr : HasDerivAt (fun _ : ℝ => s.att)
      ((0.5 : ℝ) • product s.att (pureQ ((fun τ : ℝ => (0 : V3) + τ • ![1, 0, 0]) 0))) 0 := by
    have : ((0.5 : ℝ) • product s.att (pureQ ((fun τ : ℝ => (0 : V3) + τ • ![1, 0, 0]) 0))) = 0 := by
      apply vec4_ext <;> simp [product_0, product_1, product_2, product_3, pureQ]
    rw [this]; exact hasDerivAt_const _ _
  have e0 : (fun τ : ℝ => (0 : V3) + τ • (![1, 0, 0] : V3)) 0 = 0 := by simp
  have eq0 : (fun τ : ℝ => s.att + τ • d.att) 0 = s.att := by simp
  have ew0 : (fun τ : ℝ => s.rate + τ • d.rate) 0 = s.rate := by simp
  have g1 := H c 2 _ _ _ hb hm hw hav st s hs objs hobj (fun τ => s.att + τ • d.att) (fun _ => s.att)
    (fun τ => s.rate + τ • d.rate) (fun τ => (0 : V3) + τ • ![1, 0, 0]) ![1, 0, 0] 0 0 eq0 ew0
    (by simpa using hn) hn hr hu law c' a d (by simpa using k1) k2 k3 (hline _ _) (hline _ _)
  have g2 := C102_error c hb hm hw hav st s hs objs hobj (fun τ => s.att + τ • d.att) (fun _ => s.att)
    (fun τ => s.rate + τ • d.rate) (fun τ => (0 : V3) + τ • ![1, 0, 0]) ![1, 0, 0] 0 0 eq0 ew0
    (by simpa using hn) hn hr hu law c' a d (by simpa using k1) k2 k3 (hline _ _) (hline _ _)
  have h := g1.unique g2
  have hz : (2 : ℝ) • sandwich (errorQuat ((fun τ : ℝ => s.att + τ • d.att) 0) s.att) ![1, 0, 0] = 0 := by
    have := sub_eq_self.1 h.symm
    exact this
  rw [eq0] at hz
  have h1 : errorQuat s.att s.att = ![1, 0, 0, 0] := conj_product_self ((isUnit4_iff _).2 hn)
  rw [h1, sandwich_one] at hz
  have := congrFun hz 0
  simp at this

/-! ## C99: tracking while the torquers act -/

/-- With the moment of the torquers handed to `track_and_desaturate`, the angular acceleration under the
torque `m x B` of the torquers is the one of `tracking` alone without it. -/
theorem C99_compensation (c : RwController) {mass : ℝ} {dims : V3} {ab cd : ℝ}
    (hb : Built c.sat mass dims ab cd) (hm : mass ≠ 0) (hw : UnlimitedWheels c.sat)
    (st : SatState c.sat.rw.n) (s : Measurements c.sat.rw.n) (wc wcd : V3) (qc : V4) (moment F T : V3)
    (law : V3) (c' : RwController) (hlaw : c.tracking s wc wcd qc = (.ok law, c')) :
    ∃ a1 a2 d1 d2, c.actuatorCommands law = .ok a1 ∧
      c.trackAndDesaturate s moment wc wcd qc = (.ok a2, c') ∧
      derivative c.sat st ⟨F, T⟩ a1 = .ok d1 ∧ derivative c.sat st ⟨F, T + moment ⨯₃ s.mag⟩ a2 = .ok d2 ∧
      d1.rate = d2.rate ∧
      c.sat.rw.torque a2 = c.sat.rw.torque a1 + moment ⨯₃ s.mag := by
  obtain ⟨a1, h1, t1⟩ := hw.accelerations (-law)
  obtain ⟨a2, h2, t2⟩ := hw.accelerations (-(law + npCross s.mag moment))
  obtain ⟨d1, hd1, -, -, -, r1⟩ := derivative_rate hb hm st law F T a1 t1
  obtain ⟨d2, hd2, -, -, -, r2⟩ := derivative_rate hb hm st (law + npCross s.mag moment) F (T + moment ⨯₃ s.mag) a2 t2
  refine ⟨a1, a2, d1, d2, h1, ?_, hd1, hd2, ?_, ?_⟩
  · unfold RwController.trackAndDesaturate
    rw [hlaw]
    simp only [RwController.actuatorCommands, h2]
  · rw [r1, r2, npCross_eq_crossProduct s.mag, ← cross_anticomm moment s.mag]
    congr 1; abel
  · rw [t1, t2, npCross_eq_crossProduct s.mag, ← cross_anticomm moment s.mag]
    abel

/-! ## C100: unloading the wheels -/

/-- At rest in the commanded attitude, with the moment asked for by `desaturate` in the measured field, the
body keeps still and the square of the wheels' excess momentum falls, unless it is along the field. -/
theorem C100_unloads (c : RwController) (mc : MagController) {mass : ℝ} {dims : V3} {ab cd : ℝ}
    (hb : Built c.sat mass dims ab cd) (hm : mass ≠ 0) (hw : UnlimitedWheels c.sat)
    (hav : c.objAvoidance = false) (hmc : mc.sat = c.sat) (st : SatState c.sat.rw.n)
    (s : Measurements c.sat.rw.n) (hs : Measured s st) (objs : List V3) (hobj : c.objects s = .ok objs)
    (hrest : s.rate = 0) (hatt : npNorm s.att = 1) (hB : s.mag ≠ 0) (ref : Fin c.sat.rw.n → ℝ) (moment F : V3)
    (hmo : magMoment s.mag (mc.desaturateTorque (hmc ▸ s.whl) (hmc ▸ ref)) = .ok moment) :
    ∃ a c' d, c.trackAndDesaturate s moment 0 0 s.att = (.ok a, c') ∧
      derivative c.sat st ⟨F, moment ⨯₃ s.mag⟩ a = .ok d ∧ d.rate = 0 ∧
      (c.sat.rw.momentum s.whl - c.sat.rw.momentum ref) ⬝ᵥ c.sat.rw.torque d.whl ≤ 0 ∧
      ((c.sat.rw.momentum s.whl - c.sat.rw.momentum ref) ⨯₃ s.mag ≠ 0 →
        (c.sat.rw.momentum s.whl - c.sat.rw.momentum ref) ⬝ᵥ c.sat.rw.torque d.whl < 0) := by
  obtain ⟨satm, tq, hb1, hb2, bb, trs⟩ := mc
  dsimp only at hmc
  subst hmc
  obtain ⟨law, c', a0, d0, k1, k2, k3, -, k5, k6⟩ :=
    C69_acceleration c hb hm hw hav st s hs objs hobj 0 0 s.att F 0
  have he : errorQuat s.att s.att = ![1, 0, 0, 0] := conj_product_self ((isUnit4_iff _).2 hatt)
  have hv : vecPart (![1, 0, 0, 0] : V4) = 0 := by apply vec3_ext <;> simp [vecPart]
  have hd0 : d0.rate = 0 := by
    rw [k6, he, hv, sandwich_one, hrest, Matrix.mulVec_zero, smul_zero]
    simp
  obtain ⟨a1, a2, d1, d2, g1, g2, g3, g4, g5, g6⟩ :=
    C99_compensation c hb hm hw st s 0 0 s.att moment F 0 law c' k1
  obtain rfl := Except.ok.inj (k2.symm.trans g1)
  obtain rfl := Except.ok.inj (k3.symm.trans g3)
  -- the law is zero at rest
  have hlaw : law = 0 := by
    have := tracking_plain hav hobj 0 0 s.att
    rw [k1] at this
    have := Except.ok.inj (Prod.mk.inj this).1
    rw [this, he, hv, sandwich_one, hrest]
    have z : npCross 0 (c.sat.totalMoment *ᵥ 0 + c.sat.rw.momentum s.whl) = 0 := by
      apply vec3_ext <;> simp [npCross]
    have z2 : npCross 0 0 = 0 := by apply vec3_ext <;> simp [npCross]
    rw [z, z2]
    simp
  obtain ⟨a1', h1, t1⟩ := hw.accelerations (-law)
  obtain rfl := Except.ok.inj (h1.symm.trans k2)
  have ht2 : c.sat.rw.torque a2 = moment ⨯₃ s.mag := by
    rw [g6, t1, hlaw, neg_zero, zero_add]
  have hw2 : d2.whl = a2 := by
    obtain ⟨d, hd, -, hwl, -⟩ := derivative_rate (F := F) (T := 0 + moment ⨯₃ s.mag) hb hm st (-(c.sat.rw.torque a2)) a2 (by rw [neg_neg])
    rw [Except.ok.inj (g4.symm.trans hd)]; exact hwl
  set D := c.sat.rw.momentum s.whl - c.sat.rw.momentum ref with hD
  have hmo' : magMoment s.mag ((-kBbq) • D) = .ok moment := hmo
  have hp := npDot_pos hB
  rw [npDot_eq_dotProduct] at hp
  have e := detumble_dot hB D D hmo'
  have hc := cauchy3 s.mag D
  have hle : (s.mag ⬝ᵥ D) * (s.mag ⬝ᵥ D) / (s.mag ⬝ᵥ s.mag) ≤ D ⬝ᵥ D := (div_le_iff₀ hp).2 hc
  rw [zero_add] at g4
  refine ⟨a2, c', d2, g2, g4, g5 ▸ hd0, ?_, ?_⟩
  · rw [hw2, ht2, e]
    nlinarith [kBbq_pos]
  · intro hne
    rw [hw2, ht2, e]
    have hlt : (s.mag ⬝ᵥ D) * (s.mag ⬝ᵥ D) / (s.mag ⬝ᵥ s.mag) < D ⬝ᵥ D := by
      rw [div_lt_iff₀ hp]
      refine lt_of_le_of_ne hc fun heq => hne (dotProduct_self_eq_zero.1 ?_)
      have h2 : (D ⬝ᵥ D) * (s.mag ⬝ᵥ s.mag) - (s.mag ⬝ᵥ D) * (s.mag ⬝ᵥ D) = 0 := by rw [heq]; ring
      rw [← h2]
      simp only [cross_apply, Matrix.vec3_dotProduct, Matrix.cons_val_zero, Matrix.cons_val_one, cons3_2]
      ring
    nlinarith [kBbq_pos]

/-- The hypotheses of `C100_unloads` are met, with momentum across the field. -/
example : ∃ (c : RwController) (mc : MagController) (hmc : mc.sat = c.sat) (st : SatState c.sat.rw.n)
    (s : Measurements c.sat.rw.n) (objs : List V3) (moment : V3),
    Built c.sat 2 ![0.1, 0.1, 0.2] 0.8 2.2 ∧ UnlimitedWheels c.sat ∧ c.objAvoidance = false ∧ Measured s st ∧
    c.objects s = .ok objs ∧ s.rate = 0 ∧ npNorm s.att = 1 ∧ s.mag ≠ 0 ∧
    magMoment s.mag (mc.desaturateTorque (hmc ▸ s.whl) (hmc ▸ (0 : Fin c.sat.rw.n → ℝ))) = .ok moment := by
  obtain ⟨model, c, st, s, objs, hc, hb, hw, hav, hs, hobj, hn, hrate, hmag, -, h3, hwhl⟩ := exLoop 0 ![1e-5, 0, 0] []
  have hB : s.mag ≠ 0 := by
    rw [hmag]; intro h; have := congrFun h 0; norm_num at this
  set mc : MagController := ⟨c.sat, fun i => c.sat.mt (i.cast h3.symm), c.sat.totalMoment *ᵥ bbq,
    npNorm (c.sat.totalMoment *ᵥ bbq) • Quat.sandwichOpp ecl ![0, 0, 1], false, fun _ => Trigger.init 1 0.3⟩
  have : MagController.init ⟨c.sat, some exClock, none⟩ h3 false = .ok mc := rfl
  have hm := magMoment_ok hB (mc.desaturateTorque s.whl 0)
  exact ⟨{ c with objAvoidance := false }, mc, rfl, st, s, objs, _,
    hb, hw, rfl, hs, hobj, hrate, hn, hB, hm⟩

/-! ## C98: the reference of the barbecue roll -/

/-- The claim: while the clock ticks by `dt`, the reference attitude of `induce_bbq_roll_attitude` turns about
the body's z axis at the commanded rate. -/
def RollFollowsClock : Prop :=
  ∀ (c : RwController) (dt : ℝ) (clk : JClock), c.clock.tick dt = (.ok (), clk) →
    ({ c with clock := clk } : RwController).eclipticAttitude true =
      product (c.eclipticAttitude true) (axisangleToQuat ![0, 0, 1] (bbq 2 * dt))

theorem ecl_unit : npNorm ecl = 1 := by
  apply npNorm_vec4
  have := Real.sin_sq_add_cos_sq (0.5 * npRadians 23.439291)
  linarith

/-- The reference never moves, because the clock's `absolute` does not. -/
theorem C98_frozen (c : RwController) (dts : List ℝ) (r : Py Unit) (clk : JClock)
    (h : c.clock.ticks dts = (r, clk)) :
    ({ c with clock := clk } : RwController).eclipticAttitude true = c.eclipticAttitude true := by
  have := C30_jclock_absolute_frozen h
  simp only [RwController.eclipticAttitude, this]

/-- C98 fails: `absolute` of a `JClock` never moves, so that after a tick of one second the reference is the same. -/
theorem C98_roll_fails : ¬ RollFollowsClock := by
  intro H
  obtain ⟨-, c0, -⟩ := exLoop 0 0 []
  set c : RwController := { c0 with clock := ⟨usDay * 730120, 0⟩ } with hc
  have hr : InRange (usDay * 730120 + 1000000) := by decide
  have ht : c.clock.tick 1 = (.ok (), ⟨usDay * 730120 + 1000000, 0⟩) := by
    have : timedelta 1 = 1000000 := timedelta_whole (by norm_num)
    simp [JClock.tick, this, hr, hc]
  have h1 := H c 1 _ ht
  have h2 := C98_frozen c [1] (.ok ()) ⟨usDay * 730120 + 1000000, 0⟩ (by simp [JClock.ticks, ht])
  rw [h2] at h1
  -- then the rotation would be the identity
  have hu : IsUnit4 (c.eclipticAttitude true) := by
    simp only [RwController.eclipticAttitude, if_true]
    refine isUnit4_product ((isUnit4_iff _).2 ecl_unit) ?_
    unfold IsUnit4
    simp only [Matrix.cons_val_zero, Matrix.cons_val_one, cons4_2, cons4_3]
    nlinarith [Real.sin_sq_add_cos_sq (0.5 * (bbq 2 * c.clock.absolute))]
  have h3 := congrArg (product (conjugate (c.eclipticAttitude true))) h1
  rw [← product_assoc, conj_product_self hu, one_product] at h3
  have h4 := congrFun h3 3
  simp [axisangleToQuat, bbq] at h4
  have h5 : 0 < Real.sin (4 * 7.33e-3 / 2) := by
    apply Real.sin_pos_of_pos_of_lt_pi (by norm_num)
    have := Real.pi_gt_three
    norm_num; linarith
  norm_num at h4 h5
  linarith

/-- What holds: as a function of `absolute` the reference turns at the commanded rate `bbq`, which is also the
rate handed to `tracking`, and it keeps the body's z axis on the pole of the ecliptic. Missing: the clock's
`absolute` never moves. -/
theorem C98_roll_partial (c : RwController) (t dt : ℝ) :
    let ref := fun t => ({ c with clock := { c.clock with absolute := t } } : RwController).eclipticAttitude true
    ref (t + dt) = product (ref t) (axisangleToQuat ![0, 0, 1] (bbq 2 * dt)) ∧ npNorm (ref t) = 1 ∧
    HasDerivAt ref ((0.5 : ℝ) • product (ref t) (pureQ bbq)) t ∧
    sandwichOpp (ref t) ![0, 0, 1] = sandwichOpp ecl ![0, 0, 1] := by
  have h0 : bbq 0 = 0 ∧ bbq 1 = 0 := by constructor <;> simp [bbq]
  intro ref
  have hrot : ∀ x, ref x = product ecl ![Real.cos (0.5 * (bbq 2 * x)), 0, 0, Real.sin (0.5 * (bbq 2 * x))] :=
    fun x => rfl
  refine ⟨?_, ?_, ?_, ?_⟩
  · rw [hrot, hrot, product_assoc]
    congr 1
    have e : 0.5 * (bbq 2 * (t + dt)) = 0.5 * (bbq 2 * t) + bbq 2 * dt / 2 := by ring
    rw [e, Real.cos_add, Real.sin_add]
    apply vec4_ext <;> simp [product_0, product_1, product_2, product_3, axisangleToQuat] <;> ring
  · rw [hrot, C04_product_norm, ecl_unit, one_mul]
    apply npNorm_vec4
    nlinarith [Real.sin_sq_add_cos_sq (0.5 * (bbq 2 * t))]
  · have hin : HasDerivAt (fun x : ℝ => 0.5 * (bbq 2 * x)) (0.5 * (bbq 2 * 1)) t :=
      (((hasDerivAt_id t).const_mul (bbq 2)).const_mul 0.5)
    have hq : HasDerivAt (fun x => (![Real.cos (0.5 * (bbq 2 * x)), 0, 0, Real.sin (0.5 * (bbq 2 * x))] : V4))
        ![-Real.sin (0.5 * (bbq 2 * t)) * (0.5 * (bbq 2 * 1)), 0, 0, Real.cos (0.5 * (bbq 2 * t)) * (0.5 * (bbq 2 * 1))] t := by
      rw [hasDerivAt_pi]
      intro i
      fin_cases i
      · exact hin.cos
      · exact hasDerivAt_const t 0
      · exact hasDerivAt_const t 0
      · exact hin.sin
    have := hasDerivAt_product (hasDerivAt_const t ecl) hq
    refine this.congr_deriv ?_
    rw [hrot]
    apply vec4_ext <;>
      simp only [Pi.add_apply, Pi.smul_apply, smul_eq_mul, Pi.zero_apply, product_0, product_1, product_2, product_3,
        pureQ, Matrix.cons_val_zero, Matrix.cons_val_one, cons4_2, cons4_3, h0.1, h0.2] <;> ring
  · rw [hrot, (C08_sandwich_product _ _ _).2]
    congr 1
    unfold sandwichOpp
    apply vec3_ext
    · rw [sandwich_0]; simp [conjugate_0, conjugate_1, conjugate_2, conjugate_3]
    · rw [sandwich_1]; simp [conjugate_0, conjugate_1, conjugate_2, conjugate_3]
    · rw [sandwich_2]; simp [conjugate_0, conjugate_1, conjugate_2, conjugate_3]

end Adcs
