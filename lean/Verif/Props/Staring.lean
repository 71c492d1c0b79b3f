import Verif.Proofs.Staring
import Mathlib.Analysis.Calculus.MeanValue

set_option autoImplicit false

/-! # C217: the closed loop of `point_and_stare`

`point_and_stare` computes at every call the shortest turn from the present attitude and tracks its end, with the rate of
the line of sight as feed-forward. -/

namespace Adcs

open Str Ctl Sens JDay Quat Vec Dyn
open scoped Matrix Topology

/-- The angular velocity of the line of sight from a satellite at `p` with velocity `v` to a fixed target. -/
noncomputable def Spec.sightRate (target p v : V3) : V3 := (1 / npNorm (target - p) ^ 2) • ((p - target) ⨯₃ v)

/-- The unit vector to the target, in body coordinates. -/
noncomputable def Spec.sightBody (target : V3) {n : ℕ} (st : SatState n) : V3 :=
  sandwich st.attrs.attitude ((1 / npNorm (target - st.attrs.position)) • (target - st.attrs.position))

/-- The rate of the body minus that of the line of sight, in body coordinates. -/
noncomputable def Spec.sightError (target : V3) {n : ℕ} (st : SatState n) : V3 :=
  st.attrs.bodyAngVel - sandwich st.attrs.attitude (Spec.sightRate target st.attrs.position st.attrs.velocity)

/-- One instant of staring: the controller with the memory `tr` is given the true state, no object to be avoided is near
(or avoidance is off), and `d` is the derivative which the library's dynamics give for the commands of `point_and_stare`
under any force and a torque that accelerates by at most `δ`. -/
def Spec.StareInstant (c : RwController) (bore target : V3) (δ : ℝ) (tr tr' : Trigger) (st : SatState c.sat.rw.n)
    (d : Raw c.sat.rw.n) : Prop :=
  ∃ (s : Measurements c.sat.rw.n) (objs : List V3) (c' : RwController) (a : Fin c.sat.rw.n → ℝ) (F T : V3),
    Measured s st ∧ s.pos = st.attrs.position ∧ s.vel = st.attrs.velocity ∧
    ({ c with trigger := tr } : RwController).objects s = .ok objs ∧
    (c.objAvoidance = false ∨ Clear c.instruments objs) ∧
    ({ c with trigger := tr } : RwController).pointAndStare s bore target = (.ok a, c') ∧ c'.trigger = tr' ∧
    npNorm (c.sat.invTotMoment *ᵥ T) ≤ δ ∧ derivative c.sat st ⟨F, T⟩ a = .ok d

/-- A stretch of staring without switch of the trigger: the line of sight turns by at most `ν`, and its rate changes by at
most `a`. -/
def Spec.StareRun (c : RwController) (bore target : V3) (δ ν a : ℝ) (tr : Trigger) (st : ℝ → SatState c.sat.rw.n)
    (T : ℝ) : Prop :=
  ContinuousOn (fun τ => (st τ).attrs.position) (Set.Icc 0 T) ∧
  ContinuousOn (fun τ => (st τ).attrs.velocity) (Set.Icc 0 T) ∧
  ContinuousOn (fun τ => (st τ).attrs.attitude) (Set.Icc 0 T) ∧
  ContinuousOn (fun τ => (st τ).attrs.bodyAngVel) (Set.Icc 0 T) ∧
  (∀ τ ∈ Set.Icc 0 T, target ≠ (st τ).attrs.position ∧
    npNorm (Spec.sightRate target (st τ).attrs.position (st τ).attrs.velocity) ≤ ν) ∧
  ∀ τ ∈ Set.Ioo 0 T, ∃ d, Spec.StareInstant c bore target δ tr tr (st τ) d ∧
    HasDerivAt (fun τ => (st τ).attrs.position) d.pos τ ∧ HasDerivAt (fun τ => (st τ).attrs.velocity) d.vel τ ∧
    HasDerivAt (fun τ => (st τ).attrs.attitude) d.att τ ∧ HasDerivAt (fun τ => (st τ).attrs.bodyAngVel) d.rate τ ∧
    ∃ l, HasDerivAt (fun τ => Spec.sightRate target (st τ).attrs.position (st τ).attrs.velocity) l τ ∧ npNorm l ≤ a

/-! ## What happens at an instant -/

theorem sightRate_npVDiv {target p : V3} (v : V3) (h : target ≠ p) :
    npVDiv (npCross (p - target) v) (npDot (p - target) (p - target)) = .ok (Spec.sightRate target p v) := by
  have h0 := npNorm_pos (sub_ne_zero.2 h)
  have e : npDot (p - target) (p - target) = npNorm (target - p) ^ 2 := by
    rw [npNorm3_sq, npDot3]
    simp only [Pi.sub_apply]; ring
  unfold npVDiv
  rw [e, if_neg (by positivity)]
  congr 1
  funext i
  unfold Spec.sightRate
  rw [← npCross_eq_crossProduct, Pi.smul_apply, smul_eq_mul]
  ring

theorem pointingVector_spec {target p : V3} (h : target ≠ p) :
    pointingVector p target = (1 / npNorm (target - p)) • (target - p) := by
  rw [pointingVector, normalize_eq (sub_ne_zero.2 h), one_div]

theorem derivative_pos {sat : Satellite} {st : SatState sat.rw.n} {env : FT} {a : Fin sat.rw.n → ℝ} {d : Raw sat.rw.n}
    (h : derivative sat st env a = .ok d) : d.pos = st.attrs.velocity := by
  unfold derivative at h
  simp only at h
  split at h
  · cases h
  · simp only [Except.ok.injEq] at h
    rw [← h]

theorem errorQuat_turn {q r : V4} (hq : npNorm q = 1) : errorQuat q (product q r) = conjugate r := by
  rw [errorQuat, conjugate_product, product_assoc, conj_product_self ((isUnit4_iff _).2 hq), product_one]

/-- The acceleration at an instant. -/
theorem stareInstant_eq {c : RwController} {mass : ℝ} {dims : V3} {ab cd : ℝ} (hb : Built c.sat mass dims ab cd)
    (hm : mass ≠ 0) (hw : UnlimitedWheels c.sat) {bore target : V3} {δ : ℝ} {tr tr' : Trigger}
    {st : SatState c.sat.rw.n} {d : Raw c.sat.rw.n} (h : Spec.StareInstant c bore target δ tr tr' st d)
    (hu : npNorm st.attrs.attitude = 1) (hne : target ≠ st.attrs.position) :
    let acq := acquireTarget st.attrs.position st.attrs.attitude bore target
    let u := sandwich st.attrs.attitude (Spec.sightRate target st.attrs.position st.attrs.velocity)
    tr' = tr.step (acq 0) ∧ d.pos = st.attrs.velocity ∧
    d.att = (0.5 : ℝ) • product st.attrs.attitude (pureQ st.attrs.bodyAngVel) ∧
    ∃ x : V3, npNorm x ≤ δ ∧ d.rate = x - (tr'.memory * c.alpha) • vecPart (conjugate acq)
      - c.gamma • (st.attrs.bodyAngVel - sandwich (conjugate acq) u)
      - st.attrs.bodyAngVel ⨯₃ sandwich (conjugate acq) u := by
  intro acq u
  obtain ⟨s, objs, c', a, F, T, hs, hp, hv, hobj, hcl, ht, htr, hT, hd⟩ := h
  have hpr := pointReference_ok (attitude := s.att) (data1 := bore) (sightRate_npVDiv (p := s.pos) s.vel (hp ▸ hne))
  unfold RwController.pointAndStare at ht
  rw [hpr] at ht
  simp only at ht
  rw [hp, hv, hs.1] at ht
  obtain ⟨law2, c2, a2, d2, h1, h2, h3, h4, h5, h6⟩ :=
    C69_acceleration { c with trigger := tr, objAvoidance := false } hb hm hw rfl st s hs objs hobj u 0
      (product st.attrs.attitude acq) F T
  have e1 := congrArg Prod.fst h1
  have hk := tracking_clear hobj hcl u 0 (product st.attrs.attitude acq)
  have hk' : ({ c with trigger := tr } : RwController).tracking s u 0 (product st.attrs.attitude acq) =
      (.ok law2, { c with trigger := (tr.sign (errorQuat s.att (product st.attrs.attitude acq) 0)).2 }) :=
    hk.trans (Prod.ext e1 rfl)
  change (match ({ c with trigger := tr } : RwController).tracking s u 0 (product st.attrs.attitude acq) with
    | (Except.error e, c') => ((Except.error e, c') : Py (Fin c.sat.rw.n → ℝ) × RwController)
    | (Except.ok T, c') => (({ c with trigger := tr } : RwController).actuatorCommands T, c')) = _ at ht
  rw [hk'] at ht
  simp only [Prod.mk.injEq] at ht
  obtain ⟨e2, e3⟩ := ht
  have e4 : a2 = a := Except.ok.inj (h2.symm.trans e2)
  subst e4
  have e5 : d2 = d := Except.ok.inj (h3.symm.trans hd)
  subst e5
  have herr : errorQuat s.att (product st.attrs.attitude acq) = conjugate acq := by
    rw [hs.1]; exact errorQuat_turn hu
  rw [herr] at h4 h6
  have hstep : tr' = tr.step (acq 0) := by
    rw [← htr, ← e3]
    simp only [herr]
    rfl
  have hmem : c2.trigger.memory = tr'.memory := by
    rw [h4, hstep]; rfl
  refine ⟨hstep, derivative_pos hd, by rw [h5, hs.1, hs.2.1], c.sat.invTotMoment *ᵥ T, hT, ?_⟩
  have z : ∀ q : V4, sandwich q 0 = 0 := fun q => by rw [sandwich_eq_dcm, Matrix.mulVec_zero]
  rw [h6, z, hmem, hs.2.1, add_zero]

theorem sightBody_unit {target : V3} {n : ℕ} {st : SatState n} (hu : npNorm st.attrs.attitude = 1)
    (hne : target ≠ st.attrs.position) : npNorm (Spec.sightBody target st) = 1 := by
  unfold Spec.sightBody
  rw [← pointingVector_spec hne]
  exact toBody_direction hu hne

/-- The turn of `acquire_target`, unless the target is right behind. -/
theorem acquire_front {target bore : V3} {n : ℕ} {st : SatState n} (hu : npNorm st.attrs.attitude = 1)
    (hb : npNorm bore = 1) (hne : target ≠ st.attrs.position) (h0 : 0 < halfCos bore (Spec.sightBody target st)) :
    acquireTarget st.attrs.position st.attrs.attitude bore target 0 = halfCos bore (Spec.sightBody target st) ∧
    vecPart (conjugate (acquireTarget st.attrs.position st.attrs.attitude bore target)) =
      stareVec bore (Spec.sightBody target st) ∧
    IsUnit4 (conjugate (acquireTarget st.attrs.position st.attrs.attitude bore target)) := by
  have hd := sightBody_unit (target := target) hu hne
  have hpos : -1 < bore ⬝ᵥ Spec.sightBody target st := by
    have := Real.sqrt_pos.1 h0; linarith
  obtain ⟨e1, e2⟩ := align_eq hb hd hpos
  have e : acquireTarget st.attrs.position st.attrs.attitude bore target =
      axisangleToQuat (rAxisAngle bore (Spec.sightBody target st)).1 (rAxisAngle bore (Spec.sightBody target st)).2 := by
    unfold acquireTarget Spec.sightBody
    rw [pointingVector_spec hne]
  rw [← e] at e1 e2
  have e3 : vecPart (conjugate (acquireTarget st.attrs.position st.attrs.attitude bore target)) =
      stareVec bore (Spec.sightBody target st) := by
    have : ∀ q : V4, vecPart (conjugate q) = -vecPart q := fun q => by
      apply vec3_ext <;> simp [vecPart_0, vecPart_1, vecPart_2, conjugate_1, conjugate_2, conjugate_3]
    rw [this, e2]
    unfold stareVec
    rw [neg_smul, npCross_eq_crossProduct]
    rfl
  refine ⟨e1, e3, ?_⟩
  have h1 := stareVec_dot hb hd h0
  rw [← e3, Matrix.vec3_dotProduct, vecPart_0, vecPart_1, vecPart_2] at h1
  unfold IsUnit4
  have e0 : conjugate (acquireTarget st.attrs.position st.attrs.attitude bore target) 0 =
      halfCos bore (Spec.sightBody target st) := by rw [conjugate_0, e1]; rfl
  rw [e0]
  linarith

theorem unit_flow {q : ℝ → V4} {w : ℝ → V3} {T : ℝ} (hc : ContinuousOn q (Set.Icc 0 T))
    (h : ∀ t ∈ Set.Ioo 0 T, HasDerivAt q ((0.5 : ℝ) • product (q t) (pureQ (w t))) t) (hu : npNorm (q 0) = 1) :
    ∀ t ∈ Set.Icc 0 T, npNorm (q t) = 1 := by
  have hci := continuousOn_pi.1 hc
  have c0 := hci 0
  have c1 := hci 1
  have c2 := hci 2
  have c3 := hci 3
  have hcont : ContinuousOn (fun τ => q τ 0 ^ 2 + q τ 1 ^ 2 + q τ 2 ^ 2 + q τ 3 ^ 2) (Set.Icc 0 T) := by fun_prop
  have hd : ∀ t ∈ Set.Ioo 0 T, HasDerivAt (fun τ => q τ 0 ^ 2 + q τ 1 ^ 2 + q τ 2 ^ 2 + q τ 3 ^ 2) 0 t := by
    intro t ht
    have k := hasDerivAt_pi.1 (h t ht)
    have := ((((k 0).fun_pow 2).fun_add ((k 1).fun_pow 2)).fun_add ((k 2).fun_pow 2)).fun_add ((k 3).fun_pow 2)
    refine this.congr_deriv ?_
    simp only [Pi.smul_apply, smul_eq_mul, product_0, product_1, product_2, product_3, pureQ, Matrix.cons_val_zero,
      Matrix.cons_val_one, cons4_2, cons4_3]
    ring
  have e : ∀ t, npNorm (q t) = 1 ↔ q t 0 ^ 2 + q t 1 ^ 2 + q t 2 ^ 2 + q t 3 ^ 2 = 1 := fun t => (isUnit4_iff _).symm
  intro t ht
  have hT : 0 ≤ T := ht.1.trans ht.2
  have h1 := anti_flow hcont (fun t ht => ⟨0, hd t ht, le_rfl⟩) ⟨le_rfl, hT⟩ ht ht.1
  have h2 := mono_flow hcont (fun t ht => ⟨0, hd t ht, le_rfl⟩) ⟨le_rfl, hT⟩ ht ht.1
  simp only at h1 h2
  rw [e]
  have := (e 0).1 hu
  linarith

theorem pointingVector_eq (target p : V3) : pointingVector p target = (1 / npNorm (target - p)) • (target - p) := by
  by_cases h : target = p
  · rw [pointingVector, h, sub_self, normalize_zero, smul_zero]
  · exact pointingVector_spec h

/-- How the unit vector to the target moves. -/
theorem sight_moves {target : V3} {p : ℝ → V3} {v : V3} {t : ℝ} (hp : HasDerivAt p v t) (hne : target ≠ p t) :
    HasDerivAt (fun τ => (1 / npNorm (target - p τ)) • (target - p τ))
      (Spec.sightRate target (p t) v ⨯₃ ((1 / npNorm (target - p t)) • (target - p t))) t := by
  obtain ⟨u', hu, he⟩ := C97_line_of_sight target p v t hp hne
  rw [sightRate_npVDiv v hne] at he
  have he' : Spec.sightRate target (p t) v = pointingVector (p t) target ⨯₃ u' := Except.ok.inj he
  have hn : pointingVector (p t) target ⬝ᵥ pointingVector (p t) target = 1 := by
    rw [dot_self3, show npNorm (pointingVector (p t) target) = 1 from npNorm_normalize (sub_ne_zero.2 hne), one_pow]
  have horth : u' ⬝ᵥ pointingVector (p t) target = 0 := by
    have h1 := hasDerivAt_dot3 hu hu
    have h2 : HasDerivAt (fun τ => pointingVector (p τ) target ⬝ᵥ pointingVector (p τ) target) 0 t := by
      refine (hasDerivAt_const t (1 : ℝ)).congr_of_eventuallyEq ?_
      filter_upwards [hp.continuousAt.eventually_ne hne.symm] with τ hτ
      rw [dot_self3, show npNorm (pointingVector (p τ) target) = 1 from npNorm_normalize (sub_ne_zero.2 hτ.symm), one_pow]
    have := h1.unique h2
    rw [dotProduct_comm (pointingVector (p t) target) u'] at this
    linarith
  have hfun : (fun τ => (1 / npNorm (target - p τ)) • (target - p τ)) = fun τ => pointingVector (p τ) target := by
    funext τ; rw [pointingVector_eq]
  rw [hfun, ← pointingVector_eq, he']
  refine hu.congr_deriv ?_
  rw [Matrix.vec3_dotProduct] at horth hn
  simp only [← npCross_eq_crossProduct]
  generalize pointingVector (p t) target = n at *
  apply vec3_ext <;> simp only [npCross_0, npCross_1, npCross_2]
  · linear_combination n 0 * horth - u' 0 * hn
  · linear_combination n 1 * horth - u' 1 * hn
  · linear_combination n 2 * horth - u' 2 * hn

theorem sandwich_continuousOn {q : ℝ → V4} {v : ℝ → V3} {s : Set ℝ} (hq : ContinuousOn q s) (hv : ContinuousOn v s) :
    ContinuousOn (fun t => sandwich (q t) (v t)) s := by
  have hqi := continuousOn_pi.1 hq
  have hvi := continuousOn_pi.1 hv
  have q0 := hqi 0
  have q1 := hqi 1
  have q2 := hqi 2
  have q3 := hqi 3
  have v0 := hvi 0
  have v1 := hvi 1
  have v2 := hvi 2
  refine continuousOn_pi.2 fun i => ?_
  fin_cases i
  all_goals
    simp only [Fin.zero_eta, Fin.mk_one, Fin.reduceFinMk, sandwich_0, sandwich_1, sandwich_2]
    fun_prop

theorem npNorm_continuousOn3 {v : ℝ → V3} {s : Set ℝ} (hv : ContinuousOn v s) : ContinuousOn (fun t => npNorm (v t)) s := by
  have hvi := continuousOn_pi.1 hv
  have v0 := hvi 0
  have v1 := hvi 1
  have v2 := hvi 2
  unfold npNorm
  simp only [Fin.sum_univ_three]
  fun_prop

theorem cross_continuousOn {u v : ℝ → V3} {s : Set ℝ} (hu : ContinuousOn u s) (hv : ContinuousOn v s) :
    ContinuousOn (fun t => u t ⨯₃ v t) s := by
  have hvi := continuousOn_pi.1 hv
  have hui := continuousOn_pi.1 hu
  have v0 := hvi 0
  have v1 := hvi 1
  have v2 := hvi 2
  have u0 := hui 0
  have u1 := hui 1
  have u2 := hui 2
  refine continuousOn_pi.2 fun i => ?_
  simp only [← npCross_eq_crossProduct]
  fin_cases i
  all_goals
    simp only [Fin.zero_eta, Fin.mk_one, Fin.reduceFinMk, npCross_0, npCross_1, npCross_2]
    fun_prop

section Run

variable {c : RwController} {bore target : V3} {δ ν a : ℝ} {tr : Trigger} {st : ℝ → SatState c.sat.rw.n} {T : ℝ}

theorem StareRun.continuousOn (h : Spec.StareRun c bore target δ ν a tr st T) :
    ContinuousOn (fun t => Spec.sightBody target (st t)) (Set.Icc 0 T) ∧
    ContinuousOn (fun t => Spec.sightError target (st t)) (Set.Icc 0 T) := by
  obtain ⟨hp, hv, hq, hw, hl, -⟩ := h
  have hs : ContinuousOn (fun τ => target - (st τ).attrs.position) (Set.Icc 0 T) := continuousOn_const.sub hp
  have hn0 : ∀ τ ∈ Set.Icc 0 T, npNorm (target - (st τ).attrs.position) ≠ 0 := fun τ hτ =>
    (npNorm_pos (sub_ne_zero.2 (hl τ hτ).1)).ne'
  refine ⟨sandwich_continuousOn hq ((continuousOn_const.div (npNorm_continuousOn3 hs) hn0).smul hs), ?_⟩
  refine hw.sub (sandwich_continuousOn hq ?_)
  exact (continuousOn_const.div ((npNorm_continuousOn3 hs).pow 2) fun τ hτ => pow_ne_zero 2 (hn0 τ hτ)).smul
    (cross_continuousOn (hp.sub continuousOn_const) hv)

variable {mass : ℝ} {dims : V3} {ab cd : ℝ}

theorem StareRun.unit (hb : Built c.sat mass dims ab cd) (hm : mass ≠ 0) (hw : UnlimitedWheels c.sat)
    (h : Spec.StareRun c bore target δ ν a tr st T) (hu : npNorm (st 0).attrs.attitude = 1) :
    ∀ t ∈ Set.Icc 0 T, npNorm (st t).attrs.attitude = 1 := by
  obtain ⟨hp, hv, hq, hw', hl, hd⟩ := h
  refine unit_flow (w := fun τ => (st τ).attrs.bodyAngVel) hq (fun t ht => ?_) hu
  obtain ⟨d, ⟨s, objs, c', a, F, T, hs, -, -, -, -, -, -, -, hdd⟩, -, -, h3, -⟩ := hd t ht
  refine h3.congr_deriv ?_
  unfold derivative at hdd
  simp only at hdd
  split at hdd
  · cases hdd
  · simp only [Except.ok.injEq] at hdd
    rw [← hdd]; rfl

theorem StareRun.moves (h : Spec.StareRun c bore target δ ν a tr st T) {t : ℝ} (ht : t ∈ Set.Ioo 0 T)
    (hb : Built c.sat mass dims ab cd) (hm : mass ≠ 0) (hw : UnlimitedWheels c.sat) (hu : npNorm (st t).attrs.attitude = 1) :
    HasDerivAt (fun t => Spec.sightBody target (st t)) (Spec.sightBody target (st t) ⨯₃ Spec.sightError target (st t)) t := by
  obtain ⟨hp, hv, hq, hw', hl, hd⟩ := h
  obtain ⟨d, hi, h1, h2, h3, h4, -⟩ := hd t ht
  have hne := (hl t ⟨ht.1.le, ht.2.le⟩).1
  obtain ⟨-, e1, e2, -⟩ := stareInstant_eq hb hm hw hi hu hne
  rw [e1] at h1
  rw [e2] at h3
  have hdir := sight_moves h1 hne
  have hs := hasDerivAt_sandwich2 h3 hdir
  refine hs.congr_deriv ?_
  have hk := sandwich_kinematics (st t).attrs.attitude (st t).attrs.bodyAngVel
    ((1 / npNorm (target - (st t).attrs.position)) • (target - (st t).attrs.position))
    (Spec.sightRate target (st t).attrs.position (st t).attrs.velocity ⨯₃
      ((1 / npNorm (target - (st t).attrs.position)) • (target - (st t).attrs.position)))
  refine Eq.trans hk ?_
  rw [sandwich_cross ((isUnit4_iff _).2 hu)]
  unfold Spec.sightError
  change sandwich _ _ ⨯₃ Spec.sightBody target (st t) - npCross _ (Spec.sightBody target (st t)) = _
  simp only [← npCross_eq_crossProduct]
  apply vec3_ext <;> simp only [npCross_0, npCross_1, npCross_2, Pi.sub_apply] <;> ring

theorem StareRun.turns (h : Spec.StareRun c bore target δ ν a tr st T) {t : ℝ} (ht : t ∈ Set.Ioo 0 T)
    (hb : Built c.sat mass dims ab cd) (hm : mass ≠ 0) (hw : UnlimitedWheels c.sat) (hu : npNorm (st t).attrs.attitude = 1)
    (hbore : npNorm bore = 1) (hg : 0 ≤ c.gamma)
    (h0 : 0 < halfCos bore (Spec.sightBody target (st t))) :
    ∃ p : V3, npNorm p ≤ 2 * ν * (c.gamma + ν) * npNorm (stareVec bore (Spec.sightBody target (st t)))
        + 2 * ν * (npNorm (stareVec bore (Spec.sightBody target (st t))) * npNorm (Spec.sightError target (st t)))
        + (a + δ) ∧
      HasDerivAt (fun t => Spec.sightError target (st t)) (-(tr.memory * c.alpha) • stareVec bore (Spec.sightBody target (st t))
        - c.gamma • Spec.sightError target (st t) + p) t := by
  obtain ⟨hp, hv, hq, hw', hl, hd⟩ := h
  obtain ⟨d, hi, h1, h2, h3, h4, l, h5, hla⟩ := hd t ht
  obtain ⟨hne, hnu⟩ := hl t ⟨ht.1.le, ht.2.le⟩
  obtain ⟨-, e1, e2, x, hx, e3⟩ := stareInstant_eq hb hm hw hi hu hne
  obtain ⟨-, f2, f3⟩ := acquire_front hu hbore hne h0
  obtain ⟨q, hqd⟩ : ∃ q, q = conjugate (acquireTarget (st t).attrs.position (st t).attrs.attitude bore target) := ⟨_, rfl⟩
  obtain ⟨u, hud⟩ : ∃ u, u = sandwich (st t).attrs.attitude
    (Spec.sightRate target (st t).attrs.position (st t).attrs.velocity) := ⟨_, rfl⟩
  rw [← hqd] at e3 f2 f3
  rw [← hud] at e3
  rw [e2] at h3
  have hs := hasDerivAt_sandwich2 h3 h5
  have hk := sandwich_kinematics (st t).attrs.attitude (st t).attrs.bodyAngVel
    (Spec.sightRate target (st t).attrs.position (st t).attrs.velocity) l
  have hs' := hs.congr_deriv hk
  rw [← hud] at hs'
  have hz := h4.fun_sub hs'
  have hun : npNorm u ≤ ν := by
    rw [hud, (C06_sandwich_preserves _ hu _ 0).2.1]; exact hnu
  have hmv : npNorm (sandwich q u - u) ≤ 2 * npNorm (stareVec bore (Spec.sightBody target (st t))) * ν := by
    refine (sandwich_move f3 u).trans ?_
    rw [f2]
    exact mul_le_mul_of_nonneg_left hun (by have := npNorm_nonneg (stareVec bore (Spec.sightBody target (st t))); positivity)
  have hzu : Spec.sightError target (st t) = (st t).attrs.bodyAngVel - u := by rw [hud]; rfl
  have hwn : npNorm (st t).attrs.bodyAngVel ≤ npNorm (Spec.sightError target (st t)) + ν := by
    have : (st t).attrs.bodyAngVel = Spec.sightError target (st t) + u := by rw [hzu]; abel
    rw [this]
    exact (npNorm_add3 _ _).trans (by linarith)
  refine ⟨c.gamma • (sandwich q u - u) - npCross (st t).attrs.bodyAngVel (sandwich q u - u) + (x - sandwich (st t).attrs.attitude l),
    ?_, ?_⟩
  · have n1 : npNorm (c.gamma • (sandwich q u - u)) ≤ c.gamma *
        (2 * npNorm (stareVec bore (Spec.sightBody target (st t))) * ν) := by
      rw [npNorm_smul, abs_of_nonneg hg]
      exact mul_le_mul_of_nonneg_left hmv hg
    have n2 : npNorm (npCross (st t).attrs.bodyAngVel (sandwich q u - u)) ≤
        (npNorm (Spec.sightError target (st t)) + ν) * (2 * npNorm (stareVec bore (Spec.sightBody target (st t))) * ν) :=
      (cross_norm_le _ _).trans (mul_le_mul hwn hmv (npNorm_nonneg _) ((npNorm_nonneg _).trans hwn))
    have n3 : npNorm (x - sandwich (st t).attrs.attitude l) ≤ δ + a := by
      refine (npNorm_sub3 _ _).trans ?_
      rw [(C06_sandwich_preserves _ hu _ 0).2.1]
      linarith
    have n4 := npNorm_add3 (c.gamma • (sandwich q u - u) - npCross (st t).attrs.bodyAngVel (sandwich q u - u))
      (x - sandwich (st t).attrs.attitude l)
    have n5 := npNorm_sub3 (c.gamma • (sandwich q u - u)) (npCross (st t).attrs.bodyAngVel (sandwich q u - u))
    linarith
  · refine hz.congr_deriv ?_
    rw [e3, f2, hzu]
    generalize stareVec bore (Spec.sightBody target (st t)) = ev
    generalize sandwich (st t).attrs.attitude l = Rl
    generalize sandwich q u = Su
    simp only [← npCross_eq_crossProduct]
    apply vec3_ext <;>
      simp only [npCross_0, npCross_1, npCross_2, Pi.sub_apply, Pi.add_apply, Pi.smul_apply, smul_eq_mul] <;> ring

end Run

/-! ## Convergence -/

/-- C217: from every state whose energy is below that of the target right behind the boresight, with the trigger at `1`,
a line of sight that turns slowly and a torque that is not too large, the boresight comes to the target, and the body
turns with the line of sight, up to errors in proportion to the acceleration of the line of sight and to the torque.
The constants depend on the gains and on the energy only.

Missing: a trigger left at `-1` by earlier tracking and a target behind (`C217_never`), and the target right behind the
boresight (`C217_fails`). -/
theorem C217_converges_partial {alpha gamma E : ℝ} (ha : 0 < alpha) (hg : 0 < gamma) (hE0 : 0 ≤ E) (hE : E < 2 * alpha) :
    ∃ k C ν0 a0 : ℝ, 0 < k ∧ 0 ≤ C ∧ 0 < ν0 ∧ 0 < a0 ∧ ∀ (c : RwController), c.alpha = alpha → c.gamma = gamma →
      ∀ (mass : ℝ) (dims : V3) (ab cd : ℝ), Built c.sat mass dims ab cd → mass ≠ 0 → UnlimitedWheels c.sat →
      ∀ (bore target : V3), npNorm bore = 1 → ∀ (δ ν a : ℝ), 0 ≤ ν → ν ≤ ν0 → 0 ≤ a + δ → a + δ ≤ a0 →
      ∀ (tr : Trigger) (st : ℝ → SatState c.sat.rw.n) (T : ℝ), tr.memory = 1 → 0 ≤ T →
      npNorm (st 0).attrs.attitude = 1 → Spec.StareRun c bore target δ ν a tr st T →
      Spec.sightError target (st 0) ⬝ᵥ Spec.sightError target (st 0) / 2
        + alpha * (2 - npNorm (Spec.sightBody target (st 0) + bore)) ≤ E →
      Spec.sightError target (st T) ⬝ᵥ Spec.sightError target (st T) / 2
          + alpha / 4 * npNorm (Spec.sightBody target (st T) - bore) ^ 2 ≤
        4 * Real.exp (-k * T) * (Spec.sightError target (st 0) ⬝ᵥ Spec.sightError target (st 0) / 2
          + alpha * (2 - npNorm (Spec.sightBody target (st 0) + bore))) + C * (a + δ) ^ 2 := by
  obtain ⟨k, C, ν0, a0, hk, hC, hν0, ha0, H⟩ := stare_abstract ha hg hE0 hE
  refine ⟨k, C, ν0, a0, hk, hC, hν0, ha0, ?_⟩
  rintro c rfl rfl mass dims ab cd hb hm hw bore target hbore δ ν a hν hν' haδ haδ' tr st T hmem hT hu hrun hV
  have hunit := StareRun.unit hb hm hw hrun hu
  have hdu : ∀ t ∈ Set.Icc 0 T, npNorm (Spec.sightBody target (st t)) = 1 := fun t ht =>
    sightBody_unit (hunit t ht) (hrun.2.2.2.2.1 t ht).1
  obtain ⟨hcd, hcz⟩ := StareRun.continuousOn hrun
  have h0 := norm_sub_halfCos hbore (hdu 0 ⟨le_rfl, hT⟩)
  have h1 := norm_sub_halfCos hbore (hdu T ⟨hT, le_rfl⟩)
  have e0 : c.alpha * (2 - npNorm (Spec.sightBody target (st 0) + bore)) =
      2 * c.alpha * (1 - halfCos bore (Spec.sightBody target (st 0))) := by rw [h0.2]; ring
  rw [e0] at hV ⊢
  have := H ν (a + δ) hν hν' haδ haδ' bore (fun t => Spec.sightBody target (st t)) (fun t => Spec.sightError target (st t)) T
    hbore hT hdu hcd hcz (fun t ht => StareRun.moves hrun ht hb hm hw (hunit t ⟨ht.1.le, ht.2.le⟩))
    (fun t ht hp => by
      obtain ⟨p, hp, hd⟩ := StareRun.turns hrun ht hb hm hw (hunit t ⟨ht.1.le, ht.2.le⟩) hbore hg.le hp
      rw [hmem, one_mul] at hd
      exact ⟨p, hp, hd⟩) hV
  refine le_trans ?_ this
  rw [h1.1]
  have hle := halfCos_le hbore (hdu T ⟨hT, le_rfl⟩)
  have hn : 0 ≤ halfCos bore (Spec.sightBody target (st T)) := Real.sqrt_nonneg _
  have hsq : 0 ≤ (1 - halfCos bore (Spec.sightBody target (st T))) ^ 2 := sq_nonneg _
  have := mul_nonneg ha.le hsq
  linarith

/-- The trigger at `-1` is turned round by the first call if the target is not too far behind. -/
theorem C217_turns_round_partial {c : RwController} {mass : ℝ} {dims : V3} {ab cd : ℝ} (hb : Built c.sat mass dims ab cd)
    (hm : mass ≠ 0) (hw : UnlimitedWheels c.sat) {bore target : V3} (hbore : npNorm bore = 1) {δ : ℝ} {tr tr' : Trigger}
    {st : SatState c.sat.rw.n} {d : Raw c.sat.rw.n} (h : Spec.StareInstant c bore target δ tr tr' st d)
    (hu : npNorm st.attrs.attitude = 1) (hne : target ≠ st.attrs.position) (hh : 0 < tr.halfWidth)
    (hfar : 2 * tr.halfWidth ≤ npNorm (Spec.sightBody target st + bore)) (hm1 : tr.memory = 1 ∨ tr.memory = -1) :
    tr'.memory = 1 := by
  have hd := sightBody_unit (target := target) hu hne
  rw [(norm_sub_halfCos hbore hd).2] at hfar
  have hpos : 0 < halfCos bore (Spec.sightBody target st) := by linarith
  obtain ⟨e, -⟩ := stareInstant_eq hb hm hw h hu hne
  rw [(acquire_front hu hbore hne hpos).1] at e
  rw [e, Trigger.step]
  rcases hm1 with hm1 | hm1 <;> rw [hm1]
  · rw [if_neg (by linarith)]; exact hm1
  · rw [if_pos (by linarith), npSign, if_neg hpos.not_gt, if_neg hpos.ne']
    simp

/-- The rate of the line of sight and its change, for a satellite at the distance `D` of the target. -/
theorem C217_sight {target : V3} {p v : ℝ → V3} {f : V3} {t : ℝ} (hp : HasDerivAt p (v t) t) (hv : HasDerivAt v f t)
    (hne : target ≠ p t) :
    npNorm (Spec.sightRate target (p t) (v t)) ≤ npNorm (v t) / npNorm (target - p t) ∧
    ∃ l, HasDerivAt (fun τ => Spec.sightRate target (p τ) (v τ)) l t ∧
      npNorm l ≤ npNorm f / npNorm (target - p t) + 2 * (npNorm (v t) / npNorm (target - p t)) ^ 2 := by
  have hD := npNorm_pos (sub_ne_zero.2 hne)
  have hsym : ∀ τ, npNorm (p τ - target) = npNorm (target - p τ) := fun τ => by
    rw [← npNorm_neg3, neg_sub]
  have hcr : npNorm ((p t - target) ⨯₃ v t) ≤ npNorm (target - p t) * npNorm (v t) := by
    rw [← npCross_eq_crossProduct, ← hsym]; exact cross_norm_le _ _
  have hpp : HasDerivAt (fun τ => p τ - target) (v t) t := hp.sub_const target
  have hsq : HasDerivAt (fun τ => npNorm (target - p τ) ^ 2) (2 * ((p t - target) ⬝ᵥ v t)) t := by
    have e : (fun τ => npNorm (target - p τ) ^ 2) = fun τ => (p τ - target) ⬝ᵥ (p τ - target) := by
      funext τ; rw [dot_self3, hsym]
    rw [e]
    refine (hasDerivAt_dot3 hpp hpp).congr_deriv ?_
    rw [dotProduct_comm (v t)]; ring
  have hcross : HasDerivAt (fun τ => (p τ - target) ⨯₃ v τ) ((p t - target) ⨯₃ f) t := by
    have k1 := hasDerivAt_pi.1 hpp
    have k2 := hasDerivAt_pi.1 hv
    rw [hasDerivAt_pi]
    intro i
    simp only [← npCross_eq_crossProduct]
    fin_cases i <;> simp only [Fin.zero_eta, Fin.mk_one, Fin.reduceFinMk, npCross_0, npCross_1, npCross_2]
    · refine (((k1 1).fun_mul (k2 2)).fun_sub ((k1 2).fun_mul (k2 1))).congr_deriv ?_; ring
    · refine (((k1 2).fun_mul (k2 0)).fun_sub ((k1 0).fun_mul (k2 2))).congr_deriv ?_; ring
    · refine (((k1 0).fun_mul (k2 1)).fun_sub ((k1 1).fun_mul (k2 0))).congr_deriv ?_; ring
  have hinv := (hasDerivAt_const t (1 : ℝ)).fun_div hsq (by positivity)
  have hl := hinv.fun_smul hcross
  constructor
  · unfold Spec.sightRate
    rw [npNorm_smul, abs_of_nonneg (by positivity), div_mul_eq_mul_div, one_mul, div_le_div_iff₀ (by positivity) hD]
    have := mul_le_mul_of_nonneg_right hcr hD.le
    linarith
  · refine ⟨_, hl, ?_⟩
    refine (npNorm_add3 _ _).trans (add_le_add ?_ ?_)
    · have h1 : npNorm ((p t - target) ⨯₃ f) ≤ npNorm (target - p t) * npNorm f := by
        rw [← npCross_eq_crossProduct, ← hsym]; exact cross_norm_le _ _
      rw [npNorm_smul, abs_of_nonneg (by positivity), div_mul_eq_mul_div, one_mul, div_le_div_iff₀ (by positivity) hD]
      have := mul_le_mul_of_nonneg_right h1 hD.le
      linarith
    · have h2 := dot_le_norms (p t - target) (v t)
      rw [hsym] at h2
      rw [npNorm_smul, zero_mul, zero_sub, abs_div, abs_neg, one_mul, abs_mul, abs_of_pos (show (0 : ℝ) < 2 by norm_num),
        abs_of_nonneg (show 0 ≤ (npNorm (target - p t) ^ 2) ^ 2 by positivity), div_mul_eq_mul_div, div_pow,
        mul_div_assoc', div_le_div_iff₀ (by positivity) (by positivity)]
      have h3 := mul_le_mul h2 hcr (npNorm_nonneg _) (by have := npNorm_nonneg (v t); positivity)
      have h4 := mul_le_mul_of_nonneg_right h3 (show 0 ≤ 2 * npNorm (target - p t) ^ 2 by positivity)
      linarith

/-! ## A trigger at `-1` -/

/-- A sum whose second term is not negative, falling where that term is positive, and with a falling first term where it
vanishes. -/
theorem zigzag_anti {f g : ℝ → ℝ} {T : ℝ} (hT : 0 ≤ T) (hf : ContinuousOn f (Set.Icc 0 T)) (hg : ContinuousOn g (Set.Icc 0 T))
    (hg0 : ∀ t ∈ Set.Icc 0 T, 0 ≤ g t)
    (h1 : ∀ t ∈ Set.Ioo 0 T, 0 < g t → ∃ y, y ≤ 0 ∧ HasDerivAt (fun t => f t + g t) y t)
    (h2 : ∀ t ∈ Set.Ioo 0 T, g t = 0 → ∃ y, y ≤ 0 ∧ HasDerivAt f y t) : f T + g T ≤ f 0 + g 0 := by
  have hE : ContinuousOn (fun t => f t + g t) (Set.Icc 0 T) := hf.add hg
  rcases hT.eq_or_lt with h | hT0
  · rw [← h]
  -- from an inner start
  have key : ∀ s ∈ Set.Ioo 0 T, f T + g T ≤ f s + g s := by
    intro s hs
    have hε : ∀ ε > 0, f T + g T ≤ f s + g s + ε * (T - s) := by
      intro ε hε
      refine image_le_of_liminf_slope_right_lt_deriv_boundary' (f := fun t => f t + g t) (f' := fun _ => 0)
        (B := fun t => f s + g s + ε * (t - s)) (B' := fun _ => ε) (a := s) (b := T)
        (hE.mono (Set.Icc_subset_Icc_left hs.1.le)) ?_ (by simp) (by fun_prop) ?_ (fun _ _ _ => hε) ⟨hs.2.le, le_rfl⟩
      · intro x hx r hr
        have hx' : x ∈ Set.Ioo 0 T := ⟨hs.1.trans_le hx.1, hx.2⟩
        have hslope : ∀ (F : ℝ → ℝ) (y : ℝ), y ≤ 0 → HasDerivAt F y x → ∀ᶠ z in 𝓝[>] x, slope F x z < r := by
          intro F y hy hF
          have := (hasDerivAt_iff_tendsto_slope.1 hF).mono_left (nhdsGT_le_nhdsNE x)
          exact this.eventually (gt_mem_nhds (by linarith))
        rcases (hg0 x ⟨hx'.1.le, hx'.2.le⟩).eq_or_lt with h0 | h0
        · by_cases hz : ∃ᶠ z in 𝓝[>] x, g z = 0
          · obtain ⟨y, hy, hd⟩ := h2 x hx' h0.symm
            refine (hz.and_eventually (hslope f y hy hd)).mono fun z hz => ?_
            rw [slope_def_field] at hz ⊢
            rw [hz.1, ← h0, add_zero, add_zero]
            exact hz.2
          · rw [Filter.not_frequently] at hz
            obtain ⟨u, hu, hball⟩ := (mem_nhdsGT_iff_exists_Ioo_subset).1 hz
            have hev : ∀ᶠ z in 𝓝[>] x, z ∈ Set.Ioo x (min u T) := Ioo_mem_nhdsGT (lt_min hu hx.2)
            refine (hev.mono fun z hz => ?_).frequently
            have hzu : z < u := hz.2.trans_le (min_le_left _ _)
            have hzT : z < T := hz.2.trans_le (min_le_right _ _)
            have hanti : AntitoneOn (fun t => f t + g t) (Set.Icc x z) := by
              have hdr : ∀ t ∈ Set.Ioo x z, ∃ y, y ≤ 0 ∧ HasDerivAt (fun t => f t + g t) y t := fun t ht => by
                have htI : t ∈ Set.Ioo 0 T := ⟨hx'.1.trans ht.1, ht.2.trans hzT⟩
                refine h1 t htI ((hg0 t ⟨htI.1.le, htI.2.le⟩).lt_of_ne fun h => ?_)
                exact hball ⟨ht.1, ht.2.trans hzu⟩ h.symm
              apply antitoneOn_of_deriv_nonpos (convex_Icc x z)
              · exact hE.mono (Set.Icc_subset_Icc hx'.1.le hzT.le)
              · intro t ht
                rw [interior_Icc] at ht
                obtain ⟨y, -, h⟩ := hdr t ht
                exact h.differentiableAt.differentiableWithinAt
              · intro t ht
                rw [interior_Icc] at ht
                obtain ⟨y, hy, h⟩ := hdr t ht
                rw [h.deriv]; exact hy
            have := hanti ⟨le_rfl, hz.1.le⟩ ⟨hz.1.le, le_rfl⟩ hz.1.le
            rw [slope_def_field]
            refine lt_of_le_of_lt (div_nonpos_of_nonpos_of_nonneg ?_ (by linarith [hz.1])) hr
            simp only at this
            linarith
        · obtain ⟨y, hy, hd⟩ := h1 x hx' h0
          exact (hslope _ y hy hd).frequently
      · intro x _
        have : HasDerivAt (fun t => f s + g s + ε * (t - s)) ε x := by
          simpa using (((hasDerivAt_id x).sub_const s).const_mul ε).const_add (f s + g s)
        exact this.hasDerivWithinAt
    refine le_of_forall_pos_le_add fun η hη => ?_
    have hpos : 0 < T - s := by linarith [hs.2]
    have := hε (η / (T - s)) (by positivity)
    rwa [div_mul_cancel₀ _ hpos.ne'] at this
  -- and to the start
  have hcw : Filter.Tendsto (fun t => f t + g t) (𝓝[Set.Ioo 0 T] 0) (𝓝 (f 0 + g 0)) :=
    (hE 0 ⟨le_rfl, hT⟩).mono Set.Ioo_subset_Icc_self
  haveI : (𝓝[Set.Ioo 0 T] (0 : ℝ)).NeBot := by
    rw [← mem_closure_iff_nhdsWithin_neBot, closure_Ioo hT0.ne]
    exact ⟨le_rfl, hT⟩
  refine ge_of_tendsto hcw ?_
  filter_upwards [self_mem_nhdsWithin] with s hs
  exact key s hs

/-- Runs of staring at a target in a fixed direction, without torques: stretches and switches of the trigger. -/
inductive Spec.StareRuns (c : RwController) (bore target : V3) (tr0 : Trigger) (st0 : SatState c.sat.rw.n) :
    ℝ → Trigger → SatState c.sat.rw.n → Prop
  | start : StareRuns c bore target tr0 st0 0 tr0 st0
  | stretch {t : ℝ} {tr : Trigger} (st : ℝ → SatState c.sat.rw.n) (T : ℝ) (hT : 0 ≤ T) :
      StareRuns c bore target tr0 st0 t tr (st 0) → Spec.StareRun c bore target 0 0 0 tr st T →
      StareRuns c bore target tr0 st0 (t + T) tr (st T)
  | switch {t : ℝ} {tr tr' : Trigger} {st : SatState c.sat.rw.n} {d : Raw c.sat.rw.n} :
      StareRuns c bore target tr0 st0 t tr st → Spec.StareInstant c bore target 0 tr tr' st d → tr' ≠ tr →
      StareRuns c bore target tr0 st0 t tr' st

theorem halfCos_zero {b d : V3} (hb : npNorm b = 1) (hd : npNorm d = 1) (h : halfCos b d = 0) : d = -b := by
  have h1 := (norm_sub_halfCos hb hd).2
  rw [h, mul_zero] at h1
  have h2 : d + b = 0 := by
    by_contra hne
    exact (npNorm_pos hne).ne' h1
  exact eq_neg_of_add_eq_zero_left h2

/-- The turn of `acquire_target` to a target right behind. -/
theorem acquire_behind {target bore : V3} {n : ℕ} {st : SatState n} 
    (hb : npNorm bore = 1) (hne : target ≠ st.attrs.position) (h0 : Spec.sightBody target st = -bore) :
    acquireTarget st.attrs.position st.attrs.attitude bore target = 0 := by
  have e : acquireTarget st.attrs.position st.attrs.attitude bore target =
      axisangleToQuat (rAxisAngle bore (Spec.sightBody target st)).1 (rAxisAngle bore (Spec.sightBody target st)).2 := by
    unfold acquireTarget Spec.sightBody
    rw [pointingVector_spec hne]
  have hb2 := npNorm3_sq bore
  rw [hb] at hb2
  have hc : npCross bore (-bore) = 0 := by
    apply vec3_ext <;> simp only [npCross_0, npCross_1, npCross_2, Pi.neg_apply, Pi.zero_apply] <;> ring
  have hdot : npDot bore (-bore) = -1 := by
    rw [npDot3]; simp only [Pi.neg_apply]; linarith
  rw [e, h0]
  simp only [rAxisAngle, hc, hdot, normalize_zero, npClip]
  apply vec4_ext <;> simp [axisangleToQuat, Real.arccos_neg_one]

theorem sightRate_zero {c : RwController} {bore target : V3} {δ a : ℝ} {tr : Trigger} {st : ℝ → SatState c.sat.rw.n}
    {T t : ℝ} (h : Spec.StareRun c bore target δ 0 a tr st T) (ht : t ∈ Set.Icc 0 T) :
    Spec.sightRate target (st t).attrs.position (st t).attrs.velocity = 0 := by
  by_contra hne
  exact absurd (h.2.2.2.2.1 t ht).2 (not_le.2 (npNorm_pos hne))

/-- The energy of a stretch with the trigger at `-1`. -/
theorem stare_back {c : RwController} {mass : ℝ} {dims : V3} {ab cd : ℝ} (hb : Built c.sat mass dims ab cd)
    (hm : mass ≠ 0) (hw : UnlimitedWheels c.sat) (ha : 0 < c.alpha) (hg : 0 ≤ c.gamma) {bore target : V3}
    (hbore : npNorm bore = 1) {tr : Trigger} (hmem : tr.memory = -1) {st : ℝ → SatState c.sat.rw.n} {T : ℝ} (hT : 0 ≤ T)
    (h : Spec.StareRun c bore target 0 0 0 tr st T) (hu : npNorm (st 0).attrs.attitude = 1) :
    Spec.sightError target (st T) ⬝ᵥ Spec.sightError target (st T) / 2
        + c.alpha * npNorm (Spec.sightBody target (st T) + bore) ≤
      Spec.sightError target (st 0) ⬝ᵥ Spec.sightError target (st 0) / 2
        + c.alpha * npNorm (Spec.sightBody target (st 0) + bore) := by
  have hunit := StareRun.unit hb hm hw h hu
  have hdu : ∀ t ∈ Set.Icc 0 T, npNorm (Spec.sightBody target (st t)) = 1 := fun t ht =>
    sightBody_unit (hunit t ht) (h.2.2.2.2.1 t ht).1
  obtain ⟨hcd, hcz⟩ := StareRun.continuousOn h
  have hsub : ∀ t ∈ Set.Ioo 0 T, t ∈ Set.Icc 0 T := fun t ht => ⟨ht.1.le, ht.2.le⟩
  have hz := zigzag_anti (f := fun t => Spec.sightError target (st t) ⬝ᵥ Spec.sightError target (st t) / 2)
    (g := fun t => 2 * c.alpha * halfCos bore (Spec.sightBody target (st t))) hT ?_ ?_ ?_ ?_ ?_
  · rw [(norm_sub_halfCos hbore (hdu T ⟨hT, le_rfl⟩)).2, (norm_sub_halfCos hbore (hdu 0 ⟨le_rfl, hT⟩)).2]
    linarith
  · have hzi := continuousOn_pi.1 hcz
    have z0 := hzi 0
    have z1 := hzi 1
    have z2 := hzi 2
    simp only [Matrix.vec3_dotProduct]
    fun_prop
  · exact continuousOn_const.mul (halfCos_continuousOn hcd)
  · intro t _
    exact mul_nonneg (by positivity) (Real.sqrt_nonneg _)
  · intro t ht hpos
    have hpos' : 0 < halfCos bore (Spec.sightBody target (st t)) := by
      by_contra hn
      have := mul_nonpos_of_nonneg_of_nonpos (show 0 ≤ 2 * c.alpha by positivity) (not_lt.1 hn)
      linarith
    have hd := StareRun.moves h ht hb hm hw (hunit t (hsub t ht))
    obtain ⟨p, hp, hdz⟩ := StareRun.turns h ht hb hm hw (hunit t (hsub t ht)) hbore hg hpos'
    have hp0 : p = 0 := by
      by_contra hne
      have := npNorm_pos hne
      simp only [mul_zero, zero_mul, add_zero] at hp
      linarith
    rw [hp0, hmem, add_zero] at hdz
    have h1 := ((hasDerivAt_dot3 hdz hdz).div_const 2).fun_add
      ((hasDerivAt_halfCos hpos' hd).const_mul (2 * c.alpha))
    refine ⟨_, ?_, h1⟩
    have hn := dot_self_nonneg3 (Spec.sightError target (st t))
    simp only [sub_dotProduct, dotProduct_sub, smul_dotProduct, dotProduct_smul, smul_eq_mul]
    rw [dotProduct_comm (Spec.sightError target (st t)) (stareVec bore (Spec.sightBody target (st t)))]
    have := mul_nonneg hg hn
    linarith
  · intro t ht hzero
    have hz0 : halfCos bore (Spec.sightBody target (st t)) = 0 := by
      rcases mul_eq_zero.1 hzero with h | h
      · linarith
      · exact h
    have hbehind := halfCos_zero hbore (hdu t (hsub t ht)) hz0
    obtain ⟨d, hi, h1, h2, h3, h4, l, h5, hl⟩ := h.2.2.2.2.2 t ht
    have hne := (h.2.2.2.2.1 t (hsub t ht)).1
    obtain ⟨-, -, e2, x, hx, e3⟩ := stareInstant_eq hb hm hw hi (hunit t (hsub t ht)) hne
    have hsz : ∀ q : V4, sandwich q 0 = 0 := fun q => by rw [sandwich_eq_dcm, Matrix.mulVec_zero]
    have hx0 : x = 0 := by
      by_contra hn
      exact absurd hx (not_le.2 (npNorm_pos hn))
    have hl0 : l = 0 := by
      by_contra hn
      exact absurd hl (not_le.2 (npNorm_pos hn))
    have hcz0 : vecPart (conjugate 0) = 0 := by
      apply vec3_ext <;> simp [vecPart_0, vecPart_1, vecPart_2, conjugate_1, conjugate_2, conjugate_3]
    rw [acquire_behind hbore hne hbehind, sightRate_zero h (hsub t ht), hsz, hsz, hcz0, hx0] at e3
    simp only [smul_zero, sub_zero, zero_sub, LinearMap.map_zero] at e3
    rw [e2] at h3
    have hs := (hasDerivAt_sandwich2 h3 h5).congr_deriv (sandwich_kinematics (st t).attrs.attitude
      (st t).attrs.bodyAngVel (Spec.sightRate target (st t).attrs.position (st t).attrs.velocity) l)
    have hzd := h4.fun_sub hs
    rw [hl0, sightRate_zero h (hsub t ht), hsz, e3] at hzd
    have hc0 : npCross (st t).attrs.bodyAngVel 0 = 0 := by
      rw [npCross_eq_crossProduct, LinearMap.map_zero]
    rw [hc0, sub_zero, sub_zero] at hzd
    have hze : Spec.sightError target (st t) = (st t).attrs.bodyAngVel := by
      unfold Spec.sightError
      rw [sightRate_zero h (hsub t ht), hsz, sub_zero]
    have hdd := (hasDerivAt_dot3 (f := fun t => Spec.sightError target (st t))
      (g := fun t => Spec.sightError target (st t)) hzd hzd).div_const 2
    refine ⟨_, ?_, hdd⟩
    have hn := dot_self_nonneg3 (st t).attrs.bodyAngVel
    simp only [hze, neg_dotProduct, dotProduct_neg, smul_dotProduct, dotProduct_smul, smul_eq_mul]
    have := mul_nonneg hg hn
    linarith

/-- C217: with the trigger at `-1` and the target behind, more than `2 arccos(half_width)` from the boresight, the turn goes
away from the target: from every state with little energy, in every run, the trigger never switches and the boresight
never comes nearer to the target. For a fixed direction of the target and without torques. -/
theorem C217_never {c : RwController} {mass : ℝ} {dims : V3} {ab cd : ℝ} (hb : Built c.sat mass dims ab cd)
    (hm : mass ≠ 0) (hw : UnlimitedWheels c.sat) (ha : 0 < c.alpha) (hg : 0 ≤ c.gamma) {bore target : V3}
    (hbore : npNorm bore = 1) {tr0 tr : Trigger} (hmem : tr0.memory = -1) (hh : 0 < tr0.halfWidth)
    {st0 st : SatState c.sat.rw.n} {t : ℝ} (hu : npNorm st0.attrs.attitude = 1) (hne : target ≠ st0.attrs.position)
    (hrun : Spec.StareRuns c bore target tr0 st0 t tr st)
    (hE : Spec.sightError target st0 ⬝ᵥ Spec.sightError target st0 / 2
      + c.alpha * npNorm (Spec.sightBody target st0 + bore) < 2 * c.alpha * tr0.halfWidth) :
    tr = tr0 ∧ npNorm (Spec.sightBody target st + bore) < 2 * tr0.halfWidth ∧
    Spec.sightError target st ⬝ᵥ Spec.sightError target st / 2 + c.alpha * npNorm (Spec.sightBody target st + bore) ≤
      Spec.sightError target st0 ⬝ᵥ Spec.sightError target st0 / 2
        + c.alpha * npNorm (Spec.sightBody target st0 + bore) := by
  have hlt : ∀ st : SatState c.sat.rw.n,
      Spec.sightError target st ⬝ᵥ Spec.sightError target st / 2 + c.alpha * npNorm (Spec.sightBody target st + bore) ≤
        Spec.sightError target st0 ⬝ᵥ Spec.sightError target st0 / 2
          + c.alpha * npNorm (Spec.sightBody target st0 + bore) →
      npNorm (Spec.sightBody target st + bore) < 2 * tr0.halfWidth := fun st h => by
    have := dot_self_nonneg3 (Spec.sightError target st)
    have h' : c.alpha * npNorm (Spec.sightBody target st + bore) < c.alpha * (2 * tr0.halfWidth) := by linarith
    exact lt_of_mul_lt_mul_left h' ha.le
  have hmain : tr = tr0 ∧ npNorm st.attrs.attitude = 1 ∧ target ≠ st.attrs.position ∧
      Spec.sightError target st ⬝ᵥ Spec.sightError target st / 2 + c.alpha * npNorm (Spec.sightBody target st + bore) ≤
        Spec.sightError target st0 ⬝ᵥ Spec.sightError target st0 / 2
          + c.alpha * npNorm (Spec.sightBody target st0 + bore) := by
    induction hrun with
    | start => exact ⟨rfl, hu, hne, le_rfl⟩
    | stretch st T hT _ hr ih =>
      obtain ⟨i1, i2, i3, i4⟩ := ih
      rw [i1] at hr
      exact ⟨i1, StareRun.unit hb hm hw hr i2 T ⟨hT, le_rfl⟩, (hr.2.2.2.2.1 T ⟨hT, le_rfl⟩).1,
        (stare_back hb hm hw ha hg hbore hmem hT hr i2).trans i4⟩
    | @switch t tr tr' st d _ hi hne' ih =>
      obtain ⟨i1, i2, i3, i4⟩ := ih
      exfalso
      apply hne'
      obtain ⟨e, -⟩ := stareInstant_eq hb hm hw hi i2 i3
      rw [e]
      have hd := sightBody_unit (target := target) i2 i3
      have hl := hlt st i4
      rw [(norm_sub_halfCos hbore hd).2] at hl
      have hacq : acquireTarget st.attrs.position st.attrs.attitude bore target 0 = halfCos bore (Spec.sightBody target st) := by
        rcases (Real.sqrt_nonneg ((1 + bore ⬝ᵥ Spec.sightBody target st) / 2)).eq_or_lt with h | h
        · have h' : halfCos bore (Spec.sightBody target st) = 0 := h.symm
          rw [acquire_behind hbore i3 (halfCos_zero hbore hd h'), h']
          rfl
        · exact (acquire_front i2 hbore i3 h).1
      refine step_hold ?_
      rw [hacq, i1, hmem]
      linarith
  exact ⟨hmain.1, hlt st hmain.2.2.2, hmain.2.2.2⟩

/-! ## The full claim is false -/

/-- The claim: with a controller made by the constructor, a satellite at rest, and a target in a fixed direction, without
torques, the boresight comes to the target. -/
def C217_claim : Prop :=
  ∀ (model : CtlModel) (damping natFreq : ℝ) (c : RwController) (av : Bool) (mass : ℝ) (dims : V3) (ab cd : ℝ),
    0 < damping → 0 < natFreq → RwController.init model damping natFreq = .ok c →
    Built c.sat mass dims ab cd → mass ≠ 0 → UnlimitedWheels c.sat →
    ∀ (bore target : V3), npNorm bore = 1 → ∀ (st : ℝ → SatState c.sat.rw.n),
    npNorm (st 0).attrs.attitude = 1 → (st 0).attrs.bodyAngVel = 0 →
    (∀ T, Spec.StareRun { c with objAvoidance := av } bore target 0 0 0 c.trigger st T) →
    Filter.Tendsto (fun t => npNorm (Spec.sightBody target (st t) - bore)) Filter.atTop (𝓝 0)

/-- Every state of a satellite has an instant of staring. -/
theorem stareInstant_exists (c : RwController) {mass : ℝ} {dims : V3} {ab cd : ℝ} (hb : Built c.sat mass dims ab cd)
    (hm : mass ≠ 0) (hw : UnlimitedWheels c.sat) (hav : c.objAvoidance = false) (st : SatState c.sat.rw.n)
    (sun : V3) (f : JClock → V3 → Py V3) (hf : c.sunVector = some f) (hsun : f c.clock st.attrs.position = .ok sun)
    (bore target : V3) (hne : target ≠ st.attrs.position) (tr : Trigger) (hu : npNorm st.attrs.attitude = 1) :
    ∃ tr' d, Spec.StareInstant c bore target 0 tr tr' st d ∧ d.vel = 0 := by
  set s : Measurements c.sat.rw.n :=
    ⟨st.attrs.position, st.attrs.velocity, st.attrs.attitude, st.attrs.bodyAngVel, st.attrs.wheelVel, 0, 0⟩ with hs
  have hobj : ({ c with trigger := tr } : RwController).objects s =
      .ok [sandwich st.attrs.attitude sun, -normalizeV st.attrs.position] := by
    unfold RwController.objects
    simp only [hf, hs, hsun]
  obtain ⟨law, c', a, d, h1, h2, h3, h4, h5, h6⟩ :=
    C69_acceleration { c with trigger := tr } hb hm hw hav st s ⟨rfl, rfl, rfl⟩ _ hobj
      (sandwich st.attrs.attitude (Spec.sightRate target st.attrs.position st.attrs.velocity)) 0
      (product st.attrs.attitude (acquireTarget st.attrs.position st.attrs.attitude bore target)) 0 0
  have hpr := pointReference_ok (attitude := s.att) (data1 := bore) (sightRate_npVDiv (p := s.pos) s.vel hne)
  refine ⟨c'.trigger, d, ⟨s, _, c', a, 0, 0, ⟨rfl, rfl, rfl⟩, rfl, rfl, hobj, .inl hav, ?_, rfl, ?_, h3⟩, ?_⟩
  · unfold RwController.pointAndStare
    rw [hpr]
    simp only
    rw [show ({ c with trigger := tr } : RwController).tracking s (sandwich s.att (Spec.sightRate target s.pos s.vel)) 0
      (product s.att (acquireTarget s.pos s.att bore target)) = (.ok law, c') from h1]
    simp only
    rw [show ({ c with trigger := tr } : RwController).actuatorCommands law = .ok a from h2]
  · rw [Matrix.mulVec_zero]; simp [npNorm]
  · unfold derivative at h3
    simp only at h3
    split at h3
    · cases h3
    · next dv hdv =>
      simp only [Except.ok.injEq] at h3
      rw [← h3]
      unfold npVDiv at hdv
      split_ifs at hdv
      simp only [Except.ok.injEq] at hdv
      rw [← hdv]
      funext i
      simp

/-- **C217** (the limit, partial). Under the conditions of the claim and with less energy at the start than at rest with the
target behind, the boresight comes to the target and the rate to zero. Missing: the starts with more energy. -/
theorem C217_limit_partial {c : RwController} {mass : ℝ} {dims : V3} {ab cd : ℝ} (hb : Built c.sat mass dims ab cd)
    (hm : mass ≠ 0) (hw : UnlimitedWheels c.sat) (ha : 0 < c.alpha) (hg : 0 < c.gamma) {bore target : V3}
    (hbore : npNorm bore = 1) {tr : Trigger} (hmem : tr.memory = 1) {st : ℝ → SatState c.sat.rw.n}
    (hu : npNorm (st 0).attrs.attitude = 1) (hrun : ∀ T, Spec.StareRun c bore target 0 0 0 tr st T)
    (hE : Spec.sightError target (st 0) ⬝ᵥ Spec.sightError target (st 0) / 2
      + c.alpha * (2 - npNorm (Spec.sightBody target (st 0) + bore)) < 2 * c.alpha) :
    Filter.Tendsto (fun t => npNorm (Spec.sightBody target (st t) - bore)) Filter.atTop (𝓝 0) ∧
    Filter.Tendsto (fun t => npNorm (Spec.sightError target (st t))) Filter.atTop (𝓝 0) := by
  obtain ⟨E, hEd⟩ : ∃ E, E = Spec.sightError target (st 0) ⬝ᵥ Spec.sightError target (st 0) / 2
      + c.alpha * (2 - npNorm (Spec.sightBody target (st 0) + bore)) := ⟨_, rfl⟩
  have hd0 := sightBody_unit hu ((hrun 1).2.2.2.2.1 0 ⟨le_rfl, zero_le_one⟩).1
  have hE0 : 0 ≤ E := by
    have h1 := dot_self_nonneg3 (Spec.sightError target (st 0))
    have h2 := npNorm_add3 (Spec.sightBody target (st 0)) bore
    rw [hd0, hbore] at h2
    have h3 : 0 ≤ c.alpha * (2 - npNorm (Spec.sightBody target (st 0) + bore)) := mul_nonneg ha.le (by linarith)
    rw [hEd]; linarith
  rw [← hEd] at hE
  obtain ⟨k, C, ν0, a0, hk, -, hν0, ha0, H⟩ := C217_converges_partial ha hg hE0 hE
  have hb' : ∀ T, 0 ≤ T → Spec.sightError target (st T) ⬝ᵥ Spec.sightError target (st T) / 2
      + c.alpha / 4 * npNorm (Spec.sightBody target (st T) - bore) ^ 2 ≤ 4 * Real.exp (-k * T) * E := fun T hT => by
    have := H c rfl rfl mass dims ab cd hb hm hw bore target hbore 0 0 0 le_rfl hν0.le (by simp) (by simpa using ha0.le) tr st T
      hmem hT hu (hrun T) hEd.ge
    rw [← hEd] at this
    simpa using this
  have hexp : Filter.Tendsto (fun T : ℝ => 4 * Real.exp (-k * T) * E) Filter.atTop (𝓝 0) := by
    have h1 : Filter.Tendsto (fun T : ℝ => Real.exp (-k * T)) Filter.atTop (𝓝 0) :=
      Real.tendsto_exp_atBot.comp (Filter.tendsto_id.const_mul_atTop_of_neg (neg_lt_zero.2 hk))
    simpa using (h1.const_mul 4).mul_const E
  have hsq : ∀ {f : ℝ → ℝ} {r : ℝ}, 0 < r → (∀ T, 0 ≤ f T) → (∀ T, 0 ≤ T → r * f T ^ 2 ≤ 4 * Real.exp (-k * T) * E) →
      Filter.Tendsto f Filter.atTop (𝓝 0) := by
    intro f r hr h0 hf
    have h1 : Filter.Tendsto (fun T => f T ^ 2) Filter.atTop (𝓝 0) := by
      have hlim := hexp.div_const r
      rw [zero_div] at hlim
      refine squeeze_zero' (Filter.Eventually.of_forall fun T => sq_nonneg _) ?_ hlim
      filter_upwards [Filter.eventually_ge_atTop 0] with T hT
      rw [le_div_iff₀ hr]; linarith [hf T hT]
    have h2 := h1.sqrt
    simp only [Real.sqrt_zero] at h2
    refine h2.congr fun T => Real.sqrt_sq (h0 T)
  constructor
  · refine hsq (r := c.alpha / 4) (by positivity) (fun T => npNorm_nonneg _) fun T hT => ?_
    have := hb' T hT
    have h1 := dot_self_nonneg3 (Spec.sightError target (st T))
    linarith
  · refine hsq (r := 1 / 2) (by norm_num) (fun T => npNorm_nonneg _) fun T hT => ?_
    have := hb' T hT
    rw [dot_self3] at this
    have h1 : 0 ≤ c.alpha / 4 * npNorm (Spec.sightBody target (st T) - bore) ^ 2 := by positivity
    linarith

/-- It is false: a target right behind the boresight stays there. -/
theorem C217_fails : ¬ C217_claim := by
  intro H
  obtain ⟨model, c, st, s, objs, hc, hb, hw, hav, hs, hobj, hn, hrate, -⟩ := exLoop 0 0 []
  have hu : npNorm st.attrs.attitude = 1 := by rw [← hs.1]; exact hn
  have hw0 : st.attrs.bodyAngVel = 0 := by rw [← hs.2.1]; exact hrate
  obtain ⟨-, -, -, hhw, hmem, -⟩ := C69_gains model 1 1 c hc
  set st' : SatState c.sat.rw.n := { st with attrs := { st.attrs with position := s.pos, velocity := 0 } } with hst'
  set target : V3 := s.pos + ![1, 0, 0] with htar
  have hne : target ≠ st'.attrs.position := by
    intro h
    have h0 : s.pos 0 + 1 = s.pos 0 := congrFun h 0
    linarith
  set bore : V3 := -Spec.sightBody target st' with hbored
  have hbn : npNorm bore = 1 := by
    rw [hbored, npNorm_neg3]
    exact sightBody_unit hu hne
  have hbehind : Spec.sightBody target st' = -bore := by rw [hbored, neg_neg]
  have hrate0 : ∀ p, Spec.sightRate target p 0 = 0 := fun p => by
    unfold Spec.sightRate; rw [LinearMap.map_zero, smul_zero]
  have hsz : ∀ q : V4, sandwich q 0 = 0 := fun q => by rw [sandwich_eq_dcm, Matrix.mulVec_zero]
  obtain ⟨f, sun, hf, hsun⟩ : ∃ f sun, c.sunVector = some f ∧ f c.clock s.pos = .ok sun := by
    unfold RwController.objects at hobj
    split at hobj
    · cases hobj
    · next f hf =>
      split at hobj
      · cases hobj
      · next sun hsun => exact ⟨f, sun, hf, hsun⟩
  obtain ⟨tr', d, hi, hdv⟩ := stareInstant_exists { c with objAvoidance := false } hb (by norm_num) hw rfl st' sun f hf hsun
    bore target hne c.trigger hu
  obtain ⟨e0, e1, e2, x, hx, e3⟩ := stareInstant_eq (c := { c with objAvoidance := false }) hb (by norm_num) hw hi hu hne
  have hx0 : x = 0 := by
    by_contra hn
    exact absurd hx (not_le.2 (npNorm_pos hn))
  have hcz0 : vecPart (conjugate 0) = 0 := by
    apply vec3_ext <;> simp [vecPart_0, vecPart_1, vecPart_2, conjugate_1, conjugate_2, conjugate_3]
  have hv0 : st'.attrs.velocity = 0 := rfl
  have hw0' : st'.attrs.bodyAngVel = 0 := hw0
  rw [acquire_behind hbn hne hbehind] at e0 e3
  rw [hv0, hrate0, hsz, hsz, hcz0, hx0, hw0'] at e3
  simp only [smul_zero, sub_zero, LinearMap.map_zero] at e3
  have htr : tr' = c.trigger := by
    rw [e0]
    refine step_hold ?_
    rw [hhw]; norm_num
  rw [htr] at hi
  rw [hw0'] at e2
  have e2' : d.att = 0 := by
    rw [e2]
    apply vec4_ext <;> simp [product_0, product_1, product_2, product_3, pureQ]
  have hT := H model 1 1 c false 2 ![0.1, 0.1, 0.2] 0.8 2.2 one_pos one_pos hc hb (by norm_num) hw bore target hbn
    (fun _ => st') hu hw0 fun T => by
      refine ⟨continuousOn_const, continuousOn_const, continuousOn_const, continuousOn_const, fun τ _ => ⟨hne, ?_⟩,
        fun τ _ => ⟨d, hi, ?_, ?_, ?_, ?_, 0, ?_, ?_⟩⟩
      · rw [hv0, hrate0]; simp [npNorm]
      · rw [e1]; exact hasDerivAt_const τ _
      · rw [hdv]; exact hasDerivAt_const τ _
      · rw [e2']; exact hasDerivAt_const τ _
      · rw [e3]; simpa using hasDerivAt_const τ st'.attrs.bodyAngVel
      · exact hasDerivAt_const τ _
      · simp [npNorm]
  have hval := tendsto_nhds_unique hT tendsto_const_nhds
  have : Spec.sightBody target st' - bore = (-2 : ℝ) • bore := by
    rw [hbehind]; module
  rw [this, npNorm_smul, hbn] at hval
  norm_num at hval

/-! ## Runs exist -/

/-- Staring at a fixed direction `n` as a field. -/
noncomputable def stareField (al ga : ℝ) (b n : V3) (x : V4 × V3) : V4 × V3 :=
  ((0.5 : ℝ) • product x.1 (pureQ x.2), -al • stareVec b (sandwich x.1 n) - ga • x.2)

theorem stareField_contDiffAt (al ga : ℝ) (b n : V3) {x : V4 × V3} (h : 0 < halfCos b (sandwich x.1 n)) :
    ContDiffAt ℝ 1 (stareField al ga b n) x := by
  have c1 : ∀ i : Fin 4, ContDiff ℝ 1 (fun x : V4 × V3 => x.1 i) := fun i => (contDiff_apply ℝ ℝ i).comp contDiff_fst
  have c2 : ∀ i : Fin 3, ContDiff ℝ 1 (fun x : V4 × V3 => x.2 i) := fun i => (contDiff_apply ℝ ℝ i).comp contDiff_snd
  have p : ∀ i, ContDiff ℝ 1 (fun x : V4 × V3 => product x.1 (pureQ x.2) i) := by
    intro i
    fin_cases i
    all_goals
      simp only [Fin.zero_eta, Fin.mk_one, Fin.reduceFinMk, product_0, product_1, product_2, product_3, pureQ,
        Matrix.cons_val_zero, Matrix.cons_val_one, cons4_2, cons4_3, mul_zero]
      fun_prop
  have s : ∀ i, ContDiff ℝ 1 (fun x : V4 × V3 => sandwich x.1 n i) := by
    intro i
    fin_cases i
    all_goals
      simp only [Fin.zero_eta, Fin.mk_one, Fin.reduceFinMk, sandwich_0, sandwich_1, sandwich_2]
      fun_prop
  have cr : ContDiff ℝ 1 (fun x : V4 × V3 => b ⨯₃ sandwich x.1 n) := by
    have s0 := s 0
    have s1 := s 1
    have s2 := s 2
    refine contDiff_pi.2 fun i => ?_
    simp only [← npCross_eq_crossProduct]
    fin_cases i <;> simp only [Fin.zero_eta, Fin.mk_one, Fin.reduceFinMk, npCross_0, npCross_1, npCross_2] <;> fun_prop
  have dt : ContDiff ℝ 1 (fun x : V4 × V3 => (1 + b ⬝ᵥ sandwich x.1 n) / 2) := by
    have s0 := s 0
    have s1 := s 1
    have s2 := s 2
    simp only [Matrix.vec3_dotProduct]
    fun_prop
  have hc : ContDiffAt ℝ 1 (fun x : V4 × V3 => halfCos b (sandwich x.1 n)) x :=
    dt.contDiffAt.sqrt (Real.sqrt_pos.1 h).ne'
  have hv : ContDiffAt ℝ 1 (fun x : V4 × V3 => stareVec b (sandwich x.1 n)) x :=
    ((contDiffAt_const.div (contDiffAt_const.mul hc) (by positivity)).neg).smul cr.contDiffAt
  refine ContDiffAt.prodMk ?_ ?_
  · exact ((contDiff_pi.2 p).const_smul _).contDiffAt
  · exact (hv.const_smul _).sub (contDiff_snd.const_smul _).contDiffAt

/-- A solution of the field is a stretch of staring. -/
theorem stareRun_of_flow (c : RwController) {mass : ℝ} {dims : V3} {ab cd : ℝ} (hb : Built c.sat mass dims ab cd)
    (hm : mass ≠ 0) (hw : UnlimitedWheels c.sat) (hav : c.objAvoidance = false) (st : SatState c.sat.rw.n)
    (sun : V3) (f : JClock → V3 → Py V3) (hf : c.sunVector = some f) (hsun : f c.clock st.attrs.position = .ok sun)
    (bore target : V3) (hbore : npNorm bore = 1) (hne : target ≠ st.attrs.position) (tr : Trigger)
    (hv : st.attrs.velocity = 0) {n : V3} (hn : n = (1 / npNorm (target - st.attrs.position)) • (target - st.attrs.position))
    {y : ℝ → V4 × V3} {T : ℝ} (hu : npNorm (y 0).1 = 1)
    (hgood : ∀ τ ∈ Set.Icc 0 T, 0 < halfCos bore (sandwich (y τ).1 n) ∧
      -tr.halfWidth < halfCos bore (sandwich (y τ).1 n) * tr.memory)
    (hder : ∀ τ ∈ Set.Icc 0 T, HasDerivAt y (stareField (tr.memory * c.alpha) c.gamma bore n (y τ)) τ) :
    Spec.StareRun c bore target 0 0 0 tr (fun τ => withMotion st (y τ)) T := by
  have hd : ∀ x : V4 × V3, Spec.sightBody target (withMotion st x) = sandwich x.1 n := fun x => by rw [hn]; rfl
  have hcy : ContinuousOn y (Set.Icc 0 T) := fun τ hτ => (hder τ hτ).continuousAt.continuousWithinAt
  have hunit := unit_flow (q := fun τ => (y τ).1) (w := fun τ => (y τ).2) (T := T)
    (continuous_fst.comp_continuousOn hcy)
    (fun τ hτ => (hder τ ⟨hτ.1.le, hτ.2.le⟩).fst) hu
  have hrate0 : ∀ p, Spec.sightRate target p 0 = 0 := fun p => by
    unfold Spec.sightRate; rw [LinearMap.map_zero, smul_zero]
  have hsz : ∀ q : V4, sandwich q 0 = 0 := fun q => by rw [sandwich_eq_dcm, Matrix.mulVec_zero]
  refine ⟨continuousOn_const, continuousOn_const,
    continuous_fst.comp_continuousOn hcy, continuous_snd.comp_continuousOn hcy, fun τ _ => ⟨hne, ?_⟩, fun τ hτ => ?_⟩
  · rw [show (withMotion st (y τ)).attrs.velocity = 0 from hv, hrate0]; simp [npNorm]
  have hτ' : τ ∈ Set.Icc 0 T := ⟨hτ.1.le, hτ.2.le⟩
  have huτ : npNorm (withMotion st (y τ)).attrs.attitude = 1 := hunit τ hτ'
  have hvτ : (withMotion st (y τ)).attrs.velocity = 0 := hv
  obtain ⟨tr', d, hi, hdv⟩ := stareInstant_exists c hb hm hw hav (withMotion st (y τ)) sun f hf hsun bore target hne tr huτ
  obtain ⟨e0, e1, e2, x, hx, e3⟩ := stareInstant_eq hb hm hw hi huτ hne
  obtain ⟨a1, a2, -⟩ := acquire_front (target := target) huτ hbore hne (by rw [hd]; exact (hgood τ hτ').1)
  have hx0 : x = 0 := by
    by_contra hn
    exact absurd hx (not_le.2 (npNorm_pos hn))
  have hh : tr' = tr := by
    rw [e0, a1, hd]
    exact step_hold (hgood τ hτ').2
  rw [hh] at hi e3
  rw [a2, hvτ, hrate0, hsz, hsz, hx0] at e3
  simp only [sub_zero, zero_sub, LinearMap.map_zero] at e3
  refine ⟨d, hi, ?_, ?_, ?_, ?_, 0, ?_, ?_⟩
  · rw [e1, hvτ]; exact hasDerivAt_const τ _
  · rw [hdv]; exact hasDerivAt_const τ _
  · rw [e2]; exact (hder τ hτ').fst
  · rw [e3, hd]
    have h2 : HasDerivAt (fun τ => (y τ).2) (stareField (tr.memory * c.alpha) c.gamma bore n (y τ)).2 τ := (hder τ hτ').snd
    refine h2.congr_deriv ?_
    simp only [stareField, neg_smul]
    rfl
  · have : (fun τ => Spec.sightRate target (withMotion st (y τ)).attrs.position (withMotion st (y τ)).attrs.velocity) =
        fun _ => (0 : V3) := by
      funext τ
      rw [show (withMotion st (y τ)).attrs.velocity = 0 from hv, hrate0]
    rw [this]
    exact hasDerivAt_const τ _
  · simp [npNorm]

/-- From every state of a satellite with a target that is not exactly behind the boresight and not moving there is a
stretch of staring. -/
theorem stareRun_exists (c : RwController) {mass : ℝ} {dims : V3} {ab cd : ℝ} (hb : Built c.sat mass dims ab cd)
    (hm : mass ≠ 0) (hw : UnlimitedWheels c.sat) (hav : c.objAvoidance = false) (st : SatState c.sat.rw.n)
    (sun : V3) (f : JClock → V3 → Py V3) (hf : c.sunVector = some f) (hsun : f c.clock st.attrs.position = .ok sun)
    (bore target : V3) (hbore : npNorm bore = 1) (hne : target ≠ st.attrs.position) (tr : Trigger)
    (hu : npNorm st.attrs.attitude = 1) (hv : st.attrs.velocity = 0) (hfront : 0 < npNorm (Spec.sightBody target st + bore))
    (htr : -(2 * tr.halfWidth) < npNorm (Spec.sightBody target st + bore) * tr.memory) :
    ∃ (T : ℝ) (y : ℝ → V4 × V3), 0 < T ∧ withMotion st (y 0) = st ∧
      Spec.StareRun c bore target 0 0 0 tr (fun τ => withMotion st (y τ)) T := by
  set n : V3 := (1 / npNorm (target - st.attrs.position)) • (target - st.attrs.position) with hn
  have hd : ∀ x : V4 × V3, Spec.sightBody target (withMotion st x) = sandwich x.1 n := fun x => rfl
  have hd0 : Spec.sightBody target st = sandwich st.attrs.attitude n := rfl
  have hnorm := (norm_sub_halfCos hbore (sightBody_unit hu hne)).2
  rw [hnorm] at hfront htr
  have h0 : 0 < halfCos bore (sandwich st.attrs.attitude n) := by rw [← hd0]; linarith
  obtain ⟨y, hy0, ε, hε, hy⟩ :=
    (stareField_contDiffAt (tr.memory * c.alpha) c.gamma bore n (x := (st.attrs.attitude, st.attrs.bodyAngVel))
      h0).exists_forall_mem_closedBall_exists_eq_forall_mem_Ioo_hasDerivAt₀ 0
  have hycont : ∀ τ ∈ Set.Ioo (-ε) ε, ContinuousAt y τ := fun τ hτ => (hy τ (by simpa using hτ)).continuousAt
  have hc0 : ContinuousOn (fun τ => halfCos bore (sandwich (y τ).1 n)) (Set.Ioo (-ε) ε) := by
    have h1 : ContinuousOn (fun τ => (y τ).1) (Set.Ioo (-ε) ε) := fun τ hτ =>
      (continuous_fst.continuousAt.comp (hycont τ hτ)).continuousWithinAt
    have h2 := continuousOn_pi.1 (sandwich_continuousOn h1 (v := fun _ => n) continuousOn_const)
    have k0 := h2 0
    have k1 := h2 1
    have k2 := h2 2
    unfold halfCos
    simp only [Matrix.vec3_dotProduct]
    fun_prop
  have hcAt := hc0.continuousAt (x := 0) (Ioo_mem_nhds (by linarith) hε)
  have hv0 : halfCos bore (sandwich (y 0).1 n) = halfCos bore (sandwich st.attrs.attitude n) := by rw [hy0]
  rw [hd0] at htr
  have hev1 := hcAt.eventually (lt_mem_nhds (a := 0) (by
    show 0 < halfCos bore (sandwich (y 0).1 n)
    rw [hv0]; exact h0))
  have hev2 := (hcAt.mul (continuousAt_const (y := tr.memory))).eventually
    (lt_mem_nhds (a := -tr.halfWidth) (by
      show -tr.halfWidth < halfCos bore (sandwich (y 0).1 n) * tr.memory
      rw [hv0]; linarith))
  obtain ⟨r, hr, hball⟩ := Metric.eventually_nhds_iff.1 (hev1.and hev2)
  set T := min (ε / 2) (r / 2) with hT
  have hTp : 0 < T := lt_min (by linarith) (by linarith)
  have hTe : T < ε := (min_le_left _ _).trans_lt (by linarith)
  have hTr : T < r := (min_le_right _ _).trans_lt (by linarith)
  have hIn : ∀ τ ∈ Set.Icc 0 T, τ ∈ Set.Ioo (-ε) ε := fun τ hτ => ⟨by linarith [hτ.1], by linarith [hτ.2]⟩
  have hgood : ∀ τ ∈ Set.Icc 0 T, 0 < halfCos bore (sandwich (y τ).1 n) ∧
      -tr.halfWidth < halfCos bore (sandwich (y τ).1 n) * tr.memory := fun τ hτ =>
    hball (by rw [Real.dist_eq, sub_zero, abs_of_nonneg hτ.1]; linarith [hτ.2])
  have hder : ∀ τ ∈ Set.Icc 0 T, HasDerivAt y (stareField (tr.memory * c.alpha) c.gamma bore n (y τ)) τ := fun τ hτ =>
    hy τ (by simpa using hIn τ hτ)
  exact ⟨T, y, hTp, by rw [hy0]; rfl, stareRun_of_flow c hb hm hw hav st sun f hf hsun bore target hbore hne tr hv hn
    (by rw [hy0]; exact hu) hgood hder⟩

/-- A constructed controller, a satellite turning with the rate `w` and a target in the direction `u`. -/
theorem exStareBase (w u : V3) (hu1 : npNorm u = 1) :
    ∃ (model : CtlModel) (c : RwController) (target : V3) (st : SatState c.sat.rw.n) (sun : V3) (f : JClock → V3 → Py V3),
      RwController.init model 1 1 = .ok c ∧ Built c.sat 2 ![0.1, 0.1, 0.2] 0.8 2.2 ∧ UnlimitedWheels c.sat ∧
      c.sunVector = some f ∧ f c.clock st.attrs.position = .ok sun ∧ npNorm st.attrs.attitude = 1 ∧
      target ≠ st.attrs.position ∧ Spec.sightBody target st = u ∧ st.attrs.bodyAngVel = w ∧ st.attrs.velocity = 0 ∧
      ∀ v, Spec.sightError target (withMotion st v) = v.2 := by
  obtain ⟨model, c, st, s, objs, hc, hb, hw, hav, hs, hobj, hn, hrate, -⟩ := exLoop w 0 []
  have hu : npNorm st.attrs.attitude = 1 := by rw [← hs.1]; exact hn
  have hw0 : st.attrs.bodyAngVel = w := by rw [← hs.2.1]; exact hrate
  obtain ⟨f, sun, hf, hsun⟩ : ∃ f sun, c.sunVector = some f ∧ f c.clock s.pos = .ok sun := by
    unfold RwController.objects at hobj
    split at hobj
    · cases hobj
    · next f hf =>
      split at hobj
      · cases hobj
      · next sun hsun => exact ⟨f, sun, hf, hsun⟩
  set st' : SatState c.sat.rw.n := { st with attrs := { st.attrs with position := s.pos, velocity := 0 } } with hst'
  set target : V3 := s.pos + sandwichOpp st.attrs.attitude u with htar
  have hun : npNorm (sandwichOpp st.attrs.attitude u) = 1 := by
    have h1 : npNorm (sandwichOpp st.attrs.attitude u) ^ 2 = 1 := by
      rw [← dot_self3, sandwichOpp, sandwich_dot ((isUnit4_iff _).2 ((C05_conjugate_product st.attrs.attitude 0).2.2.trans hu)),
        dot_self3, hu1, one_pow]
    have h2 := npNorm_nonneg (sandwichOpp st.attrs.attitude u)
    nlinarith
  have hdiff : target - s.pos = sandwichOpp st.attrs.attitude u := by rw [htar, add_sub_cancel_left]
  have hne : target ≠ st'.attrs.position := by
    intro h
    rw [← sub_eq_zero] at h
    rw [← hdiff, show target - s.pos = 0 from h] at hun
    simp [npNorm] at hun
  have hbody : Spec.sightBody target st' = u := by
    unfold Spec.sightBody
    rw [show st'.attrs.position = s.pos from rfl, hdiff, hun, div_one, one_smul]
    exact sandwich_sandwichOpp ((isUnit4_iff _).2 hu) u
  refine ⟨model, c, target, st', sun, f, hc, hb, hw, hf, hsun, hu, hne, hbody, hw0, rfl, fun v => ?_⟩
  unfold Spec.sightError Spec.sightRate
  rw [show (withMotion st' v).attrs.velocity = 0 from rfl, LinearMap.map_zero, smul_zero, sandwich_eq_dcm,
    Matrix.mulVec_zero, sub_zero]
  rfl

/-- A constructed controller, a satellite turning about the axis of `w`, a target in the direction `u` and a boresight. -/
theorem exStare (w u bore : V3) (hu1 : npNorm u = 1) (hbore : npNorm bore = 1) (m : ℝ) (hfront : 0 < npNorm (u + bore))
    (htr : -0.6 < npNorm (u + bore) * m) :
    ∃ (model : CtlModel) (c : RwController) (target : V3) (st : ℝ → SatState c.sat.rw.n) (T : ℝ),
      RwController.init model 1 1 = .ok c ∧ Built c.sat 2 ![0.1, 0.1, 0.2] 0.8 2.2 ∧ UnlimitedWheels c.sat ∧ 0 < T ∧
      npNorm (st 0).attrs.attitude = 1 ∧ target ≠ (st 0).attrs.position ∧ Spec.sightBody target (st 0) = u ∧
      Spec.sightError target (st 0) = w ∧
      Spec.StareRun { c with objAvoidance := false } bore target 0 0 0 { c.trigger with memory := m } st T := by
  obtain ⟨model, c, target, st', sun, f, hc, hb, hw, hf, hsun, hu, hne, hbody, hw0, hv, herr⟩ := exStareBase w u hu1
  obtain ⟨-, -, -, hhw, hmem, -⟩ := C69_gains model 1 1 c hc
  obtain ⟨T, y, hT, h0, hrun⟩ := stareRun_exists { c with objAvoidance := false } hb (by norm_num) hw rfl st' sun f hf hsun
    bore target hbore hne { c.trigger with memory := m } hu hv (by rw [hbody]; exact hfront)
    (by rw [hbody]; simp only [hhw]; norm_num at htr ⊢; exact htr)
  refine ⟨model, c, target, _, T, hc, hb, hw, hT, ?_, ?_, ?_, ?_, hrun⟩
  · simp only; rw [h0]; exact hu
  · simp only; rw [h0]; exact hne
  · simp only; rw [h0]; exact hbody
  · have h1 := herr (y 0)
    have h2 : (withMotion st' (y 0)).attrs.bodyAngVel = (y 0).2 := rfl
    simp only
    rw [h1, ← h2, h0, hw0]

/-- A stretch of staring at a target a right angle off the boresight by a turning satellite: the hypotheses of
`C217_converges_partial` hold with `E = 1.9`, `α = 1`. -/
example : ∃ (model : CtlModel) (c : RwController) (target : V3) (st : ℝ → SatState c.sat.rw.n) (T : ℝ),
      RwController.init model 1 1 = .ok c ∧ 0 < T ∧ npNorm (st 0).attrs.attitude = 1 ∧ c.trigger.memory = 1 ∧
      Spec.StareRun { c with objAvoidance := false } ![1, 0, 0] target 0 0 0 c.trigger st T ∧
      Spec.sightError target (st 0) ⬝ᵥ Spec.sightError target (st 0) / 2
        + 1 * (2 - npNorm (Spec.sightBody target (st 0) + ![1, 0, 0])) ≤ 1.9 := by
  have hn : npNorm (![0, 1, 0] + ![1, 0, 0] : V3) = √2 := by
    unfold npNorm; congr 1; norm_num [Fin.sum_univ_three]
  have h1 : (1 : ℝ) ≤ √2 := by rw [Real.one_le_sqrt]; norm_num
  obtain ⟨model, c, target, st, T, hc, -, -, hT, hu, -, hd, hz, hrun⟩ := exStare ![0, 0, 1] ![0, 1, 0] ![1, 0, 0]
    (by unfold npNorm; norm_num [Fin.sum_univ_three]) (by unfold npNorm; norm_num [Fin.sum_univ_three]) 1
    (by rw [hn]; linarith) (by rw [hn]; norm_num; linarith)
  obtain ⟨-, -, -, hhw, hmem, -⟩ := C69_gains model 1 1 c hc
  refine ⟨model, c, target, st, T, hc, hT, hu, hmem, ?_, ?_⟩
  · have : ({ c.trigger with memory := 1 } : Trigger) = c.trigger := by rw [← hmem]
    rw [this] at hrun; exact hrun
  · rw [hd, hz, hn, Matrix.vec3_dotProduct]
    norm_num; linarith

/-- With the memory at −1 and the target behind, the hypotheses of `C217_never` are met. -/
example : ∃ (model : CtlModel) (c : RwController) (target : V3) (st0 st : SatState c.sat.rw.n) (t : ℝ) (tr : Trigger),
      RwController.init model 1 1 = .ok c ∧ 0 < t ∧ npNorm st0.attrs.attitude = 1 ∧ target ≠ st0.attrs.position ∧
      Spec.StareRuns { c with objAvoidance := false } ![1, 0, 0] target { c.trigger with memory := -1 } st0 t tr st ∧
      Spec.sightBody target st0 ≠ -![1, 0, 0] ∧
      Spec.sightError target st0 ⬝ᵥ Spec.sightError target st0 / 2
        + 1 * npNorm (Spec.sightBody target st0 + ![1, 0, 0]) < 2 * 1 * c.trigger.halfWidth := by
  have hu1 : npNorm (![-0.96, 0.28, 0] : V3) = 1 := by
    unfold npNorm; norm_num [Fin.sum_univ_three]
  have hn : npNorm (![-0.96, 0.28, 0] + ![1, 0, 0] : V3) = √0.08 := by
    unfold npNorm; congr 1; norm_num [Fin.sum_univ_three]
  have h1 : √(0.08 : ℝ) < 0.3 := by rw [Real.sqrt_lt' (by norm_num)]; norm_num
  have h2 : 0 < √(0.08 : ℝ) := Real.sqrt_pos.2 (by norm_num)
  obtain ⟨model, c, target, st, T, hc, -, -, hT, hu, hne, hd, hz, hrun⟩ := exStare ![0, 0, 0.1] ![-0.96, 0.28, 0] ![1, 0, 0]
    hu1 (by unfold npNorm; norm_num [Fin.sum_univ_three]) (-1)
    (by rw [hn]; exact h2) (by rw [hn]; linarith)
  obtain ⟨-, -, -, hhw, hmem, -⟩ := C69_gains model 1 1 c hc
  refine ⟨model, c, target, st 0, st T, 0 + T, _, hc, by linarith, hu, hne,
    Spec.StareRuns.stretch (c := { c with objAvoidance := false }) st T hT.le .start hrun, ?_, ?_⟩
  · rw [hd]; intro h; have := congrFun h 1; norm_num at this
  · rw [hd, hz, hn, hhw, Matrix.vec3_dotProduct]
    generalize √(0.08 : ℝ) = x at h1
    norm_num at h1 ⊢; linarith

/-- A spin about the boresight that points at the target goes on for ever and dies out: the hypotheses of
`C217_limit_partial` are met by a run that never rests. -/
example : ∃ (model : CtlModel) (c : RwController) (target : V3) (st : ℝ → SatState c.sat.rw.n),
      RwController.init model 1 1 = .ok c ∧ c.trigger.memory = 1 ∧ npNorm (st 0).attrs.attitude = 1 ∧
      (∀ T, Spec.StareRun { c with objAvoidance := false } ![1, 0, 0] target 0 0 0 c.trigger st T) ∧
      Spec.sightError target (st 0) ⬝ᵥ Spec.sightError target (st 0) / 2
        + c.alpha * (2 - npNorm (Spec.sightBody target (st 0) + ![1, 0, 0])) < 2 * c.alpha ∧
      ∀ t, Spec.sightError target (st t) ≠ 0 := by
  have hb1 : npNorm (![1, 0, 0] : V3) = 1 := npNorm_vec3 (by norm_num)
  obtain ⟨model, c, target, st, sun, f, hc, hb, hw, hf, hsun, hu, hne, hbody, hw0, hv, herr⟩ :=
    exStareBase ![1, 0, 0] ![1, 0, 0] hb1
  obtain ⟨-, hal, hga, hhw, hmem, -⟩ := C69_gains model 1 1 c hc
  have hg : 0 < c.gamma := by rw [hga]; norm_num
  obtain ⟨n, hn⟩ : ∃ n : V3, n = (1 / npNorm (target - st.attrs.position)) • (target - st.attrs.position) := ⟨_, rfl⟩
  have hbody' : sandwich st.attrs.attitude n = ![1, 0, 0] := by rw [hn]; exact hbody
  obtain ⟨g, hgd⟩ : ∃ g, g = c.gamma := ⟨_, rfl⟩
  rw [← hgd] at hg
  set φ : ℝ → ℝ := fun t => (1 - Real.exp (-g * t)) / (2 * g) with hφ
  set r : ℝ → V4 := fun t => ![Real.cos (φ t), Real.sin (φ t), 0, 0] with hr
  set y : ℝ → V4 × V3 := fun t => (product st.attrs.attitude (r t), ![Real.exp (-g * t), 0, 0]) with hy
  have hru : ∀ t, npNorm (r t) = 1 := fun t => npNorm_vec4 (by
    have := Real.sin_sq_add_cos_sq (φ t); norm_num)
  have hs : ∀ t, sandwich (y t).1 n = ![1, 0, 0] := fun t => by
    simp only [hy]
    rw [sandwich_product, hbody']
    have := Real.sin_sq_add_cos_sq (φ t)
    apply vec3_ext
    · rw [sandwich_0]; simp [hr]
    · rw [sandwich_1]; simp [hr]
    · rw [sandwich_2]; simp [hr]
  have hhc : halfCos ![1, 0, 0] ![1, 0, 0] = 1 := by
    unfold halfCos; rw [Matrix.vec3_dotProduct]; norm_num
  have hsv : stareVec ![1, 0, 0] ![1, 0, 0] = 0 := by
    unfold stareVec; rw [cross_self, smul_zero]
  have he : ∀ t, HasDerivAt (fun t => Real.exp (-g * t)) (-g * Real.exp (-g * t)) t := fun t => by
    have := ((hasDerivAt_id t).const_mul (-g)).exp
    simp only [id_eq, mul_one] at this
    exact this.congr_deriv (mul_comm _ _)
  have hφd : ∀ t, HasDerivAt φ (0.5 * Real.exp (-g * t)) t := fun t => by
    refine (((he t).const_sub 1).div_const (2 * g)).congr_deriv ?_
    field_simp; norm_num
  have hrd : ∀ t, HasDerivAt r ((0.5 : ℝ) • product (r t) (pureQ ![Real.exp (-g * t), 0, 0])) t := fun t => by
    rw [hasDerivAt_pi]
    intro i
    fin_cases i <;> simp only [Fin.zero_eta, Fin.mk_one, Fin.reduceFinMk, Pi.smul_apply, smul_eq_mul, product_0, product_1,
      product_2, product_3, pureQ, hr, Matrix.cons_val_zero, Matrix.cons_val_one, cons4_2, cons4_3]
    · exact (hφd t).cos.congr_deriv (by simp; ring)
    · exact (hφd t).sin.congr_deriv (by simp; ring)
    · exact (hasDerivAt_const t (0 : ℝ)).congr_deriv (by simp)
    · exact (hasDerivAt_const t (0 : ℝ)).congr_deriv (by simp)
  have hyd : ∀ t, HasDerivAt y (stareField (1 * c.alpha) c.gamma ![1, 0, 0] n (y t)) t := fun t => by
    have h2 : HasDerivAt (fun t => (![Real.exp (-g * t), 0, 0] : V3)) (-(g • ![Real.exp (-g * t), 0, 0])) t := by
      rw [hasDerivAt_pi]
      intro i
      fin_cases i
      · simpa using he t
      · simpa using hasDerivAt_const t (0 : ℝ)
      · simpa using hasDerivAt_const t (0 : ℝ)
    refine ((hasDerivAt_product (hasDerivAt_const t st.attrs.attitude) (hrd t)).prodMk h2).congr_deriv ?_
    unfold stareField
    rw [hs, hsv, smul_zero, zero_sub, ← hgd]
    have z : product 0 (r t) = 0 := by
      apply vec4_ext <;> simp [product_0, product_1, product_2, product_3]
    ext1
    · simp only [z, zero_add, hy]
      rw [(C04_product_bilinear _ _ 0 _).2.2.2, product_assoc]
    · rfl
  refine ⟨model, c, target, fun t => withMotion st (y t), hc, hmem, ?_, fun T => ?_, ?_, fun t => ?_⟩
  · show npNorm (product st.attrs.attitude (r 0)) = 1
    rw [C04_product_norm, hu, hru, one_mul]
  · refine stareRun_of_flow { c with objAvoidance := false } hb (by norm_num) hw rfl st sun f hf hsun ![1, 0, 0] target hb1 hne
      c.trigger hv hn ?_ (fun τ _ => ?_) fun τ _ => ?_
    · show npNorm (product st.attrs.attitude (r 0)) = 1
      rw [C04_product_norm, hu, hru, one_mul]
    · rw [hs, hhc, hhw, hmem]; norm_num
    · rw [hmem]; exact hyd τ
  · have e1 : Spec.sightBody target (withMotion st (y 0)) = ![1, 0, 0] := by
      rw [← hs 0, hn]; rfl
    have e2 : npNorm (![1, 0, 0] + ![1, 0, 0] : V3) = 2 := by
      rw [← two_smul ℝ, npNorm_smul, hb1]; norm_num
    rw [herr, e1, e2, Matrix.vec3_dotProduct, hal]
    norm_num [hy]
  · rw [herr]
    intro h
    exact (Real.exp_pos (-g * t)).ne' (congrFun h 0)

end Adcs
