import Verif.Proofs.RollLimit

set_option autoImplicit false

/-! # C200: the magnetic barbecue roll in a field that turns steadily -/

namespace Adcs

open Str Ctl Sens JDay Quat Env Vec Spec Set Filter Topology
open scoped Matrix

/-- The satellite of the controller turns under the moment that `no_q_bbq_roll` asks for in the field `B`, given in
inertial coordinates. -/
def Spec.RollingIn (c : MagController) (B : ℝ → V3) (q : ℝ → V4) (w : ℝ → V3) : Prop :=
  ∀ t, 0 ≤ t → npNorm (q t) = 1 ∧ ∃ m : V3,
    magMoment (sandwich (q t) (B t)) (c.bbqTorque (q t) (w t)) = .ok m ∧
    TurnsAt c.sat.totalMoment q w m (sandwich (q t) (B t)) t

/-! ## The motions exist -/

/-- The torque that the law asks for, as a function of attitude and angular momentum. -/
noncomputable def rollAsk (body intl : V3) (p : Turn) : V3 :=
  (-kBbq) • (p.2.2 - body + (p.2.2 - sandwich p.2.1 intl))

/-- The part of it across the field. -/
noncomputable def rollPull (body intl : V3) (B : ℝ → V3) (p : Turn) : V3 :=
  rollAsk body intl p - ((sandwich p.2.1 (B p.1) ⬝ᵥ rollAsk body intl p) / (B p.1 ⬝ᵥ B p.1)) • sandwich p.2.1 (B p.1)

theorem contDiff_rollAsk (body intl : V3) : ContDiff ℝ 1 (rollAsk body intl) := by
  have hH : ContDiff ℝ 1 fun p : Turn => p.2.2 := contDiff_snd.comp contDiff_snd
  have hq : ContDiff ℝ 1 fun p : Turn => p.2.1 := contDiff_fst.comp contDiff_snd
  have hs := contDiff_sandwich3 hq (contDiff_const (c := intl))
  have h := (hH.sub (contDiff_const (c := body))).add (hH.sub hs)
  have : ContDiff ℝ 1 ((fun _ : Turn => -kBbq) • fun p : Turn => p.2.2 - body + (p.2.2 - sandwich p.2.1 intl)) :=
    contDiff_const.smul h
  exact this

theorem contDiff_rollPull (body intl : V3) {B : ℝ → V3} (hB : ContDiff ℝ 1 B) (hne : ∀ t, B t ≠ 0) :
    ContDiff ℝ 1 (rollPull body intl B) := by
  have hq : ContDiff ℝ 1 fun p : Turn => p.2.1 := contDiff_fst.comp contDiff_snd
  have hBp : ContDiff ℝ 1 fun p : Turn => B p.1 := hB.comp contDiff_fst
  have hs := contDiff_sandwich3 hq hBp
  have hk := contDiff_rollAsk body intl
  unfold rollPull
  refine hk.sub (((contDiff_dot3 hs hk).div (contDiff_dot3 hBp hBp) fun p => ?_).smul hs)
  have := npDot_pos (hne p.1)
  rw [npDot_eq_dotProduct] at this
  exact this.ne'

theorem rollPull_bound (body intl : V3) (B : ℝ → V3) (hne : ∀ t, B t ≠ 0) (p : Turn) (hq : npNorm p.2.1 = 1) :
    |p.2.2 ⬝ᵥ rollPull body intl B p| ≤ kBbq * (2 + npNorm body + npNorm intl) * (1 + npNorm p.2.2 ^ 2) := by
  have hk : 0 ≤ kBbq := kBbq_pos.le
  have hpos := npDot_pos (hne p.1)
  rw [npDot_eq_dotProduct] at hpos
  have hss := (C06_sandwich_preserves p.2.1 hq (B p.1) (B p.1)).1
  have hT : npNorm (rollPull body intl B p) ≤ npNorm (rollAsk body intl p) := by
    refine abs_le_of_sq_le_sq' ?_ (npNorm_nonneg _) |>.2
    simp only [npNorm_sq_dot, npDot_eq_dotProduct]
    unfold rollPull
    generalize sandwich p.2.1 (B p.1) = s at *
    generalize rollAsk body intl p = x
    rw [← hss] at hpos ⊢
    have e : (x - ((s ⬝ᵥ x) / (s ⬝ᵥ s)) • s) ⬝ᵥ (x - ((s ⬝ᵥ x) / (s ⬝ᵥ s)) • s) =
        x ⬝ᵥ x - (s ⬝ᵥ x) ^ 2 / (s ⬝ᵥ s) := by
      simp only [sub_dotProduct, dotProduct_sub, smul_dotProduct, dotProduct_smul, smul_eq_mul, dotProduct_comm x s]
      field_simp
      ring
    rw [e]
    have : 0 ≤ (s ⬝ᵥ x) ^ 2 / (s ⬝ᵥ s) := by positivity
    linarith
  have hA : npNorm (rollAsk body intl p) ≤ kBbq * (2 * npNorm p.2.2 + npNorm body + npNorm intl) := by
    unfold rollAsk
    rw [npNorm_smul, abs_neg, abs_of_nonneg hk]
    refine mul_le_mul_of_nonneg_left ?_ hk
    have h1 := npNorm_add3 (p.2.2 - body) (p.2.2 - sandwich p.2.1 intl)
    have h2 := npNorm_add3 p.2.2 (-body)
    have h3 := npNorm_add3 p.2.2 (-sandwich p.2.1 intl)
    have n1 : npNorm (-body) = npNorm body := by
      rw [← neg_one_smul ℝ body, npNorm_smul, abs_neg, abs_one, one_mul]
    have n2 : npNorm (-sandwich p.2.1 intl) = npNorm intl := by
      rw [← neg_one_smul ℝ (sandwich p.2.1 intl), npNorm_smul, abs_neg, abs_one, one_mul,
        (C06_sandwich_preserves p.2.1 hq intl intl).2.1]
    rw [n1, ← sub_eq_add_neg] at h2
    rw [n2, ← sub_eq_add_neg] at h3
    linarith
  have hD := dot_bound p.2.2 (rollPull body intl B p)
  have h0 := npNorm_nonneg p.2.2
  have hb := npNorm_nonneg body
  have hi := npNorm_nonneg intl
  have h1 : npNorm p.2.2 * npNorm (rollPull body intl B p) ≤
      npNorm p.2.2 * (kBbq * (2 * npNorm p.2.2 + npNorm body + npNorm intl)) :=
    mul_le_mul_of_nonneg_left (hT.trans hA) h0
  have h2 : npNorm p.2.2 * (2 * npNorm p.2.2 + npNorm body + npNorm intl) ≤
      (2 + npNorm body + npNorm intl) * (1 + npNorm p.2.2 ^ 2) := by
    generalize npNorm p.2.2 = x at *
    generalize npNorm body = y at *
    generalize npNorm intl = z at *
    have hx : x ≤ 1 + x ^ 2 := by nlinarith [sq_nonneg (x - 1)]
    nlinarith [mul_le_mul_of_nonneg_right hx hb, mul_le_mul_of_nonneg_right hx hi]
  have h3 := mul_le_mul_of_nonneg_left h2 hk
  linarith

theorem roll_eq (c : MagController) {B : ℝ → V3} {t : ℝ} (hne : B t ≠ 0) {q : V4} (hq : npNorm q = 1) (w : V3) :
    ∃ m, magMoment (sandwich q (B t)) (c.bbqTorque q w) = .ok m ∧
      m ⨯₃ sandwich q (B t) = rollPull c.hdBody c.hdIntl B (t, q, c.sat.totalMoment *ᵥ w) := by
  have hs : sandwich q (B t) ≠ 0 := by
    intro h
    have := (C06_sandwich_preserves q hq (B t) (B t)).2.1
    rw [h, npNorm_eq_zero.2 rfl] at this
    exact hne (npNorm_eq_zero.1 this.symm)
  obtain ⟨m, h1, -, h2⟩ := C65_moment (sandwich q (B t)) (c.bbqTorque q w) hs
  refine ⟨m, h1, h2.trans ?_⟩
  rw [(C06_sandwich_preserves q hq (B t) (B t)).1]
  rfl

/-- The strength of the field makes no difference. -/
theorem rollPull_scale (body intl : V3) {β : ℝ → ℝ} {b : ℝ → V3} {p : Turn} (hβ : β p.1 ≠ 0) :
    rollPull body intl (fun t => β t • b t) p = rollPull body intl b p := by
  unfold rollPull
  have e : sandwich p.2.1 (β p.1 • b p.1) = β p.1 • sandwich p.2.1 (b p.1) := by
    rw [sandwich_eq_dcm, sandwich_eq_dcm, Matrix.mulVec_smul]
  simp only [e, smul_dotProduct, dotProduct_smul, smul_eq_mul, smul_smul]
  congr 2
  field_simp

/-- A motion follows the equations of rotation. -/
theorem rolling_flow {c : MagController} {mass : ℝ} {dims : V3} {ab cd : ℝ} (hb : Built c.sat mass dims ab cd)
    {B : ℝ → V3} (hne : ∀ t, B t ≠ 0) {q : ℝ → V4} {w : ℝ → V3} (h : Spec.RollingIn c B q w) {t : ℝ} (ht : 0 ≤ t) :
    HasDerivAt (fun t => ((t, q t, c.sat.totalMoment *ᵥ w t) : Turn))
      (turnField c.sat.invTotMoment (rollPull c.hdBody c.hdIntl B) (t, q t, c.sat.totalMoment *ᵥ w t)) t := by
  obtain ⟨hu, m, hm, hturn⟩ := h t ht
  obtain ⟨m2, hm2, hmB⟩ := roll_eq c (hne t) hu (w t)
  have hmm : m2 = m := Except.ok.inj (hm2.symm.trans hm)
  subst hmm
  have d := hturn.momentum
  rw [hmB] at d
  refine HasDerivAt.prodMk (hasDerivAt_id t) (HasDerivAt.prodMk ?_ ?_)
  · simp only [hb.cancel]
    exact hturn.attitude
  · simp only [hb.cancel]
    exact d

/-- C200: from every attitude and every rate, in every field that varies smoothly and does not vanish, there is a motion
under the barbecue roll for all later times, and only one. -/
theorem C200_exists {c : MagController} {mass : ℝ} {dims : V3} {ab cd : ℝ} (hb : Built c.sat mass dims ab cd)
    {B : ℝ → V3} (hB : ContDiff ℝ 1 B) (hne : ∀ t, B t ≠ 0) {q0 : V4} (hq0 : npNorm q0 = 1) (w0 : V3) :
    ∃ q w, q 0 = q0 ∧ w 0 = w0 ∧ Spec.RollingIn c B q w ∧
      ∀ q' w', q' 0 = q0 → w' 0 = w0 → Spec.RollingIn c B q' w' → ∀ t, 0 ≤ t → q' t = q t ∧ w' t = w t := by
  have hT := contDiff_rollPull c.hdBody c.hdIntl hB hne
  obtain ⟨y, h0, hy⟩ := turn_forever (Ji := c.sat.invTotMoment) hT
    (fun τ => ⟨_, fun p _ hp => rollPull_bound c.hdBody c.hdIntl B hne p hp⟩) hq0 (c.sat.totalMoment *ᵥ w0)
  have hJ : ∀ v, c.sat.totalMoment *ᵥ (c.sat.invTotMoment *ᵥ v) = v := fun v => by
    rw [Matrix.mulVec_mulVec, hb.inverse, Matrix.one_mulVec]
  refine ⟨fun t => (y t).2.1, fun t => c.sat.invTotMoment *ᵥ (y t).2.2, by simp only [h0], by simp only [h0, hb.cancel],
    ?_, ?_⟩
  · intro t _
    obtain ⟨hd, h1, h2⟩ := hy t
    obtain ⟨m, hm, hmB⟩ := roll_eq c (hne t) h2 (c.sat.invTotMoment *ᵥ (y t).2.2)
    refine ⟨h2, m, hm, ⟨hd.snd.fst, ?_⟩⟩
    simp only [hJ] at hmB ⊢
    rw [hmB, show ((t, (y t).2.1, (y t).2.2) : Turn) = y t from Prod.ext h1.symm rfl]
    exact hd.snd.snd
  · intro q' w' hq' hw' h t ht
    have := flow_unique_right (contDiff_turnField c.sat.invTotMoment hT) (y := y)
      (z := fun t => (t, q' t, c.sat.totalMoment *ᵥ w' t)) (fun t => (hy t).1) (fun s hs => rolling_flow hb hne h hs)
      (by simp only [h0, hq', hw']) t ht
    simp only [this]
    exact ⟨trivial, (hb.cancel _).symm⟩

/-! ## What a motion tends to -/

theorem turning_ne {n : ℝ} {e₁ e₂ : V3} (he : Spec.Plane e₁ e₂) (t : ℝ) : Spec.turning n e₁ e₂ t ≠ 0 := by
  intro h
  have h1 := (turning_frame he n t).1
  rw [h, npNorm_eq_zero.2 rfl] at h1
  exact zero_ne_one h1

/-- The error as a function of attitude and angular momentum. -/
noncomputable def rollV (body intl : V3) (p : Turn) : ℝ :=
  npNorm (p.2.2 - body) ^ 2 + npNorm (p.2.2 - sandwich p.2.1 intl) ^ 2

theorem continuous_rollV (body intl : V3) : Continuous (rollV body intl) := by
  have hH : ContDiff ℝ 1 fun p : Turn => p.2.2 := contDiff_snd.comp contDiff_snd
  have hq : ContDiff ℝ 1 fun p : Turn => p.2.1 := contDiff_fst.comp contDiff_snd
  have hs := contDiff_sandwich3 hq (contDiff_const (c := intl))
  have h1 := hH.sub (contDiff_const (c := body))
  have h2 := hH.sub hs
  have h3 := ((contDiff_dot3 h1 h1).add (contDiff_dot3 h2 h2)).continuous
  have e : rollV body intl = fun p : Turn => (p.2.2 - body) ⬝ᵥ (p.2.2 - body) +
      (p.2.2 - sandwich p.2.1 intl) ⬝ᵥ (p.2.2 - sandwich p.2.1 intl) := by
    funext p
    simp only [rollV, npNorm_sq_dot, npDot_eq_dotProduct]
  rw [e]
  exact h3

theorem rolling_antitone {model : CtlModel} {h3 : model.sat.nMt = 3} {bb : Bool} {c : MagController}
    (hc : MagController.init model h3 bb = .ok c) {a b : ℝ}
    (hJ : model.sat.totalMoment = Matrix.diagonal ![a, a, b]) {B : ℝ → V3} (hne : ∀ t, B t ≠ 0)
    {q : ℝ → V4} {w : ℝ → V3} (h : Spec.RollingIn c B q w) {s t : ℝ} (hs : 0 ≤ s) (hst : s ≤ t) :
    rollError c.sat.totalMoment c.hdBody c.hdIntl (q t) (w t) ≤
      rollError c.sat.totalMoment c.hdBody c.hdIntl (q s) (w s) := by
  have hne' : ∀ u, 0 ≤ u → sandwich (q u) (B u) ≠ 0 := by
    intro u hu h'
    have := (C06_sandwich_preserves (q u) (h u hu).1 (B u) (B u)).2.1
    rw [h', npNorm_eq_zero.2 rfl] at this
    exact hne u (npNorm_eq_zero.1 this.symm)
  choose! m hm hturn using fun u (hu : 0 ≤ u) => (h u hu).2
  exact (C146_run_partial model h3 bb c hc a b hJ t (fun u => sandwich (q u) (B u)) m q w
    (fun u hu => hne' u hu.1) (fun u hu => hm u hu.1) (fun u hu => hturn u hu.1)).1 ⟨hs, hst⟩
    ⟨hs.trans hst, le_rfl⟩ hst

theorem opp_smul (q : V4) (k : ℝ) (v : V3) : sandwichOpp q (k • v) = k • sandwichOpp q v := by
  unfold sandwichOpp
  rw [sandwich_eq_dcm, sandwich_eq_dcm, Matrix.mulVec_smul]

theorem opp_add (q : V4) (u v : V3) : sandwichOpp q (u + v) = sandwichOpp q u + sandwichOpp q v := by
  unfold sandwichOpp
  rw [sandwich_eq_dcm, sandwich_eq_dcm, sandwich_eq_dcm, Matrix.mulVec_add]

theorem opp_sub (q : V4) (u v : V3) : sandwichOpp q (u - v) = sandwichOpp q u - sandwichOpp q v := by
  unfold sandwichOpp
  rw [sandwich_eq_dcm, sandwich_eq_dcm, sandwich_eq_dcm, Matrix.mulVec_sub]

theorem opp_norm {q : V4} (hq : npNorm q = 1) (v : V3) : npNorm (sandwichOpp q v) = npNorm v := by
  have := (C06_sandwich_preserves q hq (sandwichOpp q v) v).2.1
  rw [(C07_sandwich_opp q hq v).2] at this
  exact this.symm

/-- The momenta wanted by the law for a symmetric body. -/
theorem roll_wanted {model : CtlModel} {h3 : model.sat.nMt = 3} {bb : Bool} {c : MagController}
    (hc : MagController.init model h3 bb = .ok c) {a b : ℝ} (hb : 0 < b)
    (hJ : model.sat.totalMoment = Matrix.diagonal ![a, a, b]) :
    c.hdBody = (b * 0.02932) • ![0, 0, 1] ∧ c.hdIntl = (b * 0.02932) • sandwichOpp ecl ![0, 0, 1] ∧
      npNorm (sandwichOpp ecl ![0, 0, 1]) = 1 ∧ npNorm c.hdBody = b * 0.02932 := by
  obtain ⟨g0, g1, g2⟩ := magInit_fields hc
  have e : model.sat.totalMoment *ᵥ bbq = (b * 0.02932) • ![0, 0, 1] := by
    rw [hJ, bbq_eq]; apply vec3_ext <;> simp [Matrix.mulVec_diagonal]
  have e2 : npNorm (model.sat.totalMoment *ᵥ bbq) = b * 0.02932 := by
    rw [e, npNorm_smul, npNorm_vec3 (by norm_num), mul_one, abs_of_nonneg (by positivity)]
  rw [e2] at g2
  refine ⟨g1.trans e, g2, ?_, by rw [g1, e2]⟩
  rw [opp_norm ecl_unit, npNorm_vec3 (by norm_num)]

/-- A motion along which the error stands still: the wanted spin, or rest upside down. -/
theorem rolling_const {model : CtlModel} {h3 : model.sat.nMt = 3} {bb : Bool} {c : MagController}
    (hc : MagController.init model h3 bb = .ok c) {a b : ℝ} (ha : 0 < a) (hb : 0 < b)
    (hJ : model.sat.totalMoment = Matrix.diagonal ![a, a, b]) {n : ℝ} (hn : 0 < n) {e₁ e₂ : V3}
    (he : Spec.Plane e₁ e₂) {β : ℝ → ℝ} (hβ : ∀ t, β t ≠ 0) {q : ℝ → V4} {w : ℝ → V3}
    (h : Spec.RollingIn c (fun t => β t • Spec.turning n e₁ e₂ t) q w)
    (h1 : c.hdIntl ⨯₃ (e₁ ⨯₃ e₂) ≠ 0) (h2 : c.hdIntl ⬝ᵥ (e₁ ⨯₃ e₂) ≠ 2 * a * n) {L : ℝ}
    (hL : ∀ t, 0 ≤ t → rollError c.sat.totalMoment c.hdBody c.hdIntl (q t) (w t) = L) {t : ℝ} (ht : 0 < t) :
    (c.sat.totalMoment *ᵥ w t = c.hdBody ∧ sandwich (q t) c.hdIntl = c.hdBody) ∨
      (c.sat.totalMoment *ᵥ w t = 0 ∧ sandwich (q t) c.hdIntl = -c.hdBody) := by
  obtain ⟨g0, -, -⟩ := magInit_fields hc
  obtain ⟨k1, k2, k3, -⟩ := roll_wanted hc hb hJ
  set d := b * 0.02932 with hd
  set p := sandwichOpp ecl ![0, 0, 1] with hp
  set J := c.sat.totalMoment with hJ'
  have hd0 : 0 < d := by positivity
  have hne' : ∀ u, 0 ≤ u → sandwich (q u) (β u • Spec.turning n e₁ e₂ u) ≠ 0 := by
    intro u hu h'
    have := (C06_sandwich_preserves (q u) (h u hu).1 (β u • Spec.turning n e₁ e₂ u) 0).2.1
    rw [h', npNorm_eq_zero.2 rfl] at this
    exact (smul_ne_zero (hβ u) (turning_ne he u)) (npNorm_eq_zero.1 this.symm)
  have zero : ∀ u, 0 < u → c.bbqTorque (q u) (w u) ⨯₃ sandwich (q u) (Spec.turning n e₁ e₂ u) = 0 ∧
      HasDerivAt q ((0.5 : ℝ) • product (q u) ![0, w u 0, w u 1, w u 2]) u ∧
      HasDerivAt (fun τ => J *ᵥ w τ) (-(w u ⨯₃ (J *ᵥ w u))) u := by
    intro u hu
    obtain ⟨hq, m, hm, hturn⟩ := h u hu.le
    obtain ⟨r, hr, -, hr0⟩ := C146_roll_partial model h3 bb c hc a b hJ _ m (hne' u hu.le) q w u hm hturn
    have hz : HasDerivAt (fun τ => rollError c.sat.totalMoment c.hdBody c.hdIntl (q τ) (w τ)) 0 u := by
      refine (hasDerivAt_const u L).congr_of_eventuallyEq ?_
      filter_upwards [lt_mem_nhds hu] with s hs
      exact hL s hs.le
    have hx := hr0.1 (hr.unique hz)
    have hsm : sandwich (q u) (β u • Spec.turning n e₁ e₂ u) = β u • sandwich (q u) (Spec.turning n e₁ e₂ u) := by
      rw [sandwich_eq_dcm, sandwich_eq_dcm, Matrix.mulVec_smul]
    have hx2 := hx
    rw [hsm, map_smul] at hx2
    refine ⟨(smul_eq_zero.1 hx2).resolve_left (hβ u), hturn.attitude, ?_⟩
    obtain ⟨m2, hm2, -, hmB⟩ := C65_moment _ (c.bbqTorque (q u) (w u)) (hne' u hu.le)
    have hmm : m2 = m := Except.ok.inj (hm2.symm.trans hm)
    subst hmm
    have hp := npDot_pos (hne' u hu.le)
    rw [npDot_eq_dotProduct] at hp
    have hm0 : m2 ⨯₃ sandwich (q u) (β u • Spec.turning n e₁ e₂ u) = 0 := by
      rw [hmB]
      generalize sandwich (q u) (β u • Spec.turning n e₁ e₂ u) = s at *
      generalize c.bbqTorque (q u) (w u) = T at *
      have e : s ⨯₃ (T ⨯₃ s) = (s ⬝ᵥ s) • T - (s ⬝ᵥ T) • s := by
        apply vec3_ext <;>
          simp only [cross_apply, Matrix.vec3_dotProduct, Matrix.cons_val_zero, Matrix.cons_val_one, cons3_2,
            Pi.smul_apply, Pi.sub_apply, smul_eq_mul] <;> ring
      rw [hx, map_zero] at e
      have e2 : T - ((s ⬝ᵥ T) / (s ⬝ᵥ s)) • s = (1 / (s ⬝ᵥ s)) • ((s ⬝ᵥ s) • T - (s ⬝ᵥ T) • s) := by
        rw [smul_sub, smul_smul, smul_smul, one_div_mul_cancel hp.ne', one_smul, one_div_mul_eq_div]
      rw [e2, ← e, smul_zero]
    have := hturn.momentum
    rw [hm0, zero_sub] at this
    exact this
  set Hi : ℝ → V3 := fun τ => sandwichOpp (q τ) (J *ᵥ w τ) with hHi
  have dHi : ∀ u, 0 < u → HasDerivAt Hi 0 u := by
    intro u hu
    obtain ⟨-, z1, z2⟩ := zero u hu
    refine (hasDerivAt_outside z1 z2).congr_deriv ?_
    rw [neg_add_cancel]
    unfold sandwichOpp
    rw [sandwich_eq_dcm, Matrix.mulVec_zero]
  have cHi : ∀ u, 0 < u → Hi u = Hi t := by
    intro u hu
    funext i
    have := const_Ioo (lo := 0) (hi := max u t + 1) (f := fun τ => Hi τ i)
      (fun s hs => (hasDerivAt_pi.1 (dHi s hs.1) i)) ⟨ht, by linarith [le_max_right u t]⟩
      ⟨hu, by linarith [le_max_left u t]⟩
    exact this.symm
  set Ω : V3 := (1 / a) • Hi t with hΩ
  have aΩ : a • Ω = Hi t := by rw [hΩ, smul_smul, mul_one_div_cancel ha.ne', one_smul]
  set Z : ℝ → V3 := fun τ => sandwichOpp (q τ) ![0, 0, 1] with hZ
  have dZ : ∀ u, 0 < u → HasDerivAt Z (Ω ⨯₃ Z u) u := by
    intro u hu
    obtain ⟨-, z1, -⟩ := zero u hu
    refine (hasDerivAt_outside z1 (hasDerivAt_const u ![0, 0, 1])).congr_deriv ?_
    have e : 0 + w u ⨯₃ ![0, 0, 1] = (1 / a) • ((J *ᵥ w u) ⨯₃ ![0, 0, 1]) := by
      rw [hJ', g0, hJ]
      apply vec3_ext <;>
        simp [cross_apply, Matrix.mulVec_diagonal, ha.ne']
    rw [e, opp_smul, opp_cross (h u hu.le).1, hΩ, ← cHi u hu, map_smul, LinearMap.smul_apply]
  have E0 : ∀ u, 0 < u → ((2 * a) • Ω - d • p - d • Z u) ⨯₃ Spec.turning n e₁ e₂ u = 0 := by
    intro u hu
    obtain ⟨z0, -, -⟩ := zero u hu
    have hq := (h u hu.le).1
    have e : (2 * a) • Ω - d • p - d • Z u = sandwichOpp (q u)
        (J *ᵥ w u - c.hdBody + (J *ᵥ w u - sandwich (q u) c.hdIntl)) := by
      rw [opp_add, opp_sub, opp_sub, (C07_sandwich_opp (q u) hq _).1, k1, opp_smul, k2, mul_smul, aΩ, ← cHi u hu, hHi, hZ]
      simp only
      module
    rw [e, ← (C07_sandwich_opp (q u) hq (Spec.turning n e₁ e₂ u)).1, ← opp_cross hq]
    rw [bbqTorque_eq, map_smul, LinearMap.smul_apply, smul_eq_zero, neg_eq_zero, or_iff_right kBbq_pos.ne'] at z0
    rw [z0]
    unfold sandwichOpp
    rw [sandwich_eq_dcm, Matrix.mulVec_zero]
  have hq := (h t ht.le).1
  have uZ : ∀ u, 0 < u → npNorm (Z u) = 1 := by
    intro u hu
    simp only [hZ]
    rw [opp_norm (h u hu.le).1, npNorm_vec3 (by norm_num)]
  have back : J *ᵥ w t = sandwich (q t) (a • Ω) := by
    rw [aΩ, hHi, (C07_sandwich_opp (q t) hq _).2]
  have backZ : sandwich (q t) (Z t) = ![0, 0, 1] := (C07_sandwich_opp (q t) hq _).2
  have sm : ∀ (k : ℝ) v, sandwich (q t) (k • v) = k • sandwich (q t) v := fun k v => by
    rw [sandwich_eq_dcm, sandwich_eq_dcm, Matrix.mulVec_smul]
  rcases no_hidden ha hn hd0 he k3 uZ dZ E0 (by
      intro h'
      apply h1
      rw [k2, map_smul, LinearMap.smul_apply, h', smul_zero]) (by
      rw [k2, smul_dotProduct, smul_eq_mul] at h2
      exact h2) t ht with ⟨z1, z2⟩ | ⟨z1, z2⟩
  · left
    have e : sandwich (q t) c.hdIntl = c.hdBody := by rw [k2, sm, ← z1, backZ, k1]
    refine ⟨?_, e⟩
    rw [back, z2, ← k2, e]
  · right
    have zp : p = (-1 : ℝ) • Z t := by rw [z1, neg_one_smul, neg_neg]
    refine ⟨by rw [back, z2, smul_zero, sandwich_eq_dcm, Matrix.mulVec_zero], ?_⟩
    rw [k2, sm, zp, sm, backZ, k1, neg_one_smul, smul_neg]

/-- What the motion tends to: some motion along which the error stands still, at its limit. -/
theorem rolling_limit {model : CtlModel} {h3 : model.sat.nMt = 3} {bb : Bool} {c : MagController}
    (hc : MagController.init model h3 bb = .ok c) {mass : ℝ} {dims : V3} {ab cd : ℝ} (hb : Built c.sat mass dims ab cd)
    {a b : ℝ} (hJ : model.sat.totalMoment = Matrix.diagonal ![a, a, b]) {n : ℝ} (hn : 0 < n) {e₁ e₂ : V3}
    (he : Spec.Plane e₁ e₂) {β : ℝ → ℝ} (hβ : ∀ t, β t ≠ 0) {q : ℝ → V4} {w : ℝ → V3}
    (h : Spec.RollingIn c (fun t => β t • Spec.turning n e₁ e₂ t) q w) :
    ∃ (L : ℝ) (q' : ℝ → V4) (w' : ℝ → V3),
      Tendsto (fun t => rollError c.sat.totalMoment c.hdBody c.hdIntl (q t) (w t)) atTop (𝓝 L) ∧
      Spec.RollingIn c (Spec.turning n e₁ e₂) q' w' ∧
      ∀ t, 0 ≤ t → rollError c.sat.totalMoment c.hdBody c.hdIntl (q' t) (w' t) = L := by
  set J := c.sat.totalMoment with hJ'
  set V : ℝ → ℝ := fun t => rollError J c.hdBody c.hdIntl (q t) (w t) with hV
  have hne : ∀ t, β t • Spec.turning n e₁ e₂ t ≠ 0 := fun t => smul_ne_zero (hβ t) (turning_ne he t)
  have anti : ∀ s t, 0 ≤ s → s ≤ t → V t ≤ V s := fun s t hs hst => rolling_antitone hc hJ hne h hs hst
  have V0 : ∀ t, 0 ≤ V t := fun t => by simp only [hV, rollError]; positivity
  -- the error has a limit
  obtain ⟨L, hL⟩ : ∃ L, Tendsto V atTop (𝓝 L) := by
    have hg : Antitone fun t => V (max t 0) := fun s t hst => anti _ _ (le_max_right _ _) (max_le_max_right 0 hst)
    refine ⟨_, (tendsto_atTop_ciInf hg ⟨0, ?_⟩).congr' ?_⟩
    · rintro _ ⟨t, rfl⟩
      exact V0 _
    · filter_upwards [eventually_ge_atTop 0] with t ht
      rw [max_eq_left ht]
  -- the times of equal phase
  set P := 2 * Real.pi / n with hP
  have hP0 : 0 < P := div_pos Real.two_pi_pos hn
  have per : ∀ (k : ℕ) s, Spec.turning n e₁ e₂ (k * P + s) = Spec.turning n e₁ e₂ s := by
    intro k s
    have e : n * (k * P + s) = n * s + k * (2 * Real.pi) := by rw [hP]; field_simp; ring
    unfold Spec.turning
    rw [e, Real.cos_add_nat_mul_two_pi, Real.sin_add_nat_mul_two_pi]
  set F := turnField c.sat.invTotMoment (rollPull c.hdBody c.hdIntl (Spec.turning n e₁ e₂)) with hF
  have hturn : ContDiff ℝ 1 (Spec.turning n e₁ e₂) := by
    unfold Spec.turning
    fun_prop
  have cF : ContDiff ℝ 1 F := contDiff_turnField _ (contDiff_rollPull _ _ hturn (turning_ne he))
  set y : ℕ → ℝ → Turn := fun k s => (s, q (k * P + s), J *ᵥ w (k * P + s)) with hy
  have dy : ∀ k s, 0 ≤ s → HasDerivAt (y k) (F (y k s)) s := by
    intro k s hs
    have ht : 0 ≤ k * P + s := by positivity
    have h0 := (rolling_flow hb hne h ht)
    have h1 := HasDerivAt.comp_const_add (k * P) s h0
    refine HasDerivAt.prodMk (hasDerivAt_id s) ?_
    refine (show HasDerivAt (fun s => (q (k * P + s), J *ᵥ w (k * P + s))) _ s from h1.snd).congr_deriv ?_
    have e : rollPull c.hdBody c.hdIntl (fun t => β t • Spec.turning n e₁ e₂ t)
        (k * P + s, q (k * P + s), J *ᵥ w (k * P + s)) =
        rollPull c.hdBody c.hdIntl (Spec.turning n e₁ e₂) (s, q (k * P + s), J *ᵥ w (k * P + s)) := by
      rw [rollPull_scale _ _ (hβ _)]
      simp only [rollPull, rollAsk, per]
    simp only [hy, turnField]
    rw [← hJ', e]
  have Vy : ∀ k s, rollV c.hdBody c.hdIntl (y k s) = V (k * P + s) := fun k s => rfl
  -- all of it in a ball
  set R := 1 + (npNorm c.hdBody + V 0 + 1) with hR
  have R1 : 1 ≤ R := by
    have := npNorm_nonneg c.hdBody
    have := V0 0
    linarith
  have inball : ∀ k s, 0 ≤ s → (y k s).2 ∈ Metric.closedBall (0 : V4 × V3) R := by
    intro k s hs
    have ht : 0 ≤ k * P + s := by positivity
    rw [mem_closedBall_zero_iff, Prod.norm_mk, max_le_iff]
    constructor
    · rw [pi_norm_le_iff_of_nonneg (by linarith)]
      exact fun i => (abs_le_npNorm _ i).trans ((h _ ht).1.le.trans R1)
    · rw [pi_norm_le_iff_of_nonneg (by linarith)]
      intro i
      refine (abs_le_npNorm _ i).trans ?_
      have hv := anti 0 _ le_rfl ht
      have hv2 : npNorm (J *ᵥ w (k * P + s) - c.hdBody) ^ 2 ≤ V (k * P + s) := by
        simp only [hV, rollError]
        have := sq_nonneg (npNorm (J *ᵥ w (k * P + s) - sandwich (q (k * P + s)) c.hdIntl))
        linarith
      have tri := npNorm_add3 (J *ᵥ w (k * P + s) - c.hdBody) c.hdBody
      rw [sub_add_cancel] at tri
      nlinarith [sq_nonneg (npNorm (J *ᵥ w (k * P + s) - c.hdBody) - 1)]
  obtain ⟨z0, -, φ, hφ, hlim⟩ := (isCompact_closedBall (0 : V4 × V3) R).tendsto_subseq (x := fun k : ℕ => (y k 0).2)
    (fun k => inball k 0 le_rfl)
  have hq0 : npNorm z0.1 = 1 := by
    have c1 : Continuous fun p : V4 × V3 => npNorm p.1 := by
      unfold npNorm
      fun_prop
    refine tendsto_nhds_unique ((c1.tendsto z0).comp hlim) ?_
    refine tendsto_const_nhds.congr fun k => ?_
    exact (h _ (by positivity)).1.symm
  obtain ⟨q', w', hq', hw', hroll, -⟩ := C200_exists hb hturn (turning_ne he) hq0 (c.sat.invTotMoment *ᵥ z0.2)
  have hJi : ∀ v, J *ᵥ (c.sat.invTotMoment *ᵥ v) = v := fun v => by
    rw [Matrix.mulVec_mulVec, hb.inverse, Matrix.one_mulVec]
  refine ⟨L, q', w', hL, hroll, fun s hs => ?_⟩
  have start : Tendsto (fun k => y (φ k) 0) atTop (𝓝 ((0 : ℝ), q' 0, J *ᵥ w' 0)) := by
    rw [hq', hw', hJi]
    exact (tendsto_const_nhds (x := (0 : ℝ))).prodMk_nhds hlim
  have := flow_continuous cF (y := fun k => y (φ k)) (z := fun t => (t, q' t, J *ᵥ w' t)) (S := s) (R := max s R)
    (fun k t ht => dy (φ k) t ht) (fun t ht => rolling_flow hb (turning_ne he) hroll ht) hs (fun k t ht => ?_) start
  · have l1 := ((continuous_rollV c.hdBody c.hdIntl).tendsto _).comp this
    have l2 : Tendsto (fun k => V (φ k * P + s)) atTop (𝓝 L) := by
      refine hL.comp ?_
      refine tendsto_atTop_add_const_right _ _ ?_
      exact (tendsto_natCast_atTop_atTop.comp hφ.tendsto_atTop).atTop_mul_const hP0
    exact tendsto_nhds_unique l1 l2
  · have := inball (φ k) t ht.1
    rw [mem_closedBall_zero_iff] at this
    rw [show y (φ k) t = (t, (y (φ k) t).2) from rfl, Prod.norm_mk, max_le_iff]
    refine ⟨le_max_of_le_left ?_, le_max_of_le_right this⟩
    rw [Real.norm_eq_abs, abs_of_nonneg ht.1]
    exact ht.2

/-- C200, the claim: on a body that is symmetric about its `z` axis, in a field that turns steadily in any plane with any
strength, the barbecue roll brings a satellite whose error is below that of rest to the wanted spin: the wanted rate
about the `z` axis, which points to the pole of the ecliptic. -/
def C200_claim : Prop :=
  ∀ (model : CtlModel) (h3 : model.sat.nMt = 3) (mass : ℝ) (dims : V3) (ab cd : ℝ),
    Built model.sat mass dims ab cd → model.sat.totalMoment.PosDef →
    ∀ c : MagController, MagController.init model h3 false = .ok c →
    ∀ a b : ℝ, model.sat.totalMoment = Matrix.diagonal ![a, a, b] →
    ∀ (n : ℝ) (e₁ e₂ : V3) (β : ℝ → ℝ), 0 < n → Spec.Plane e₁ e₂ → (∀ t, β t ≠ 0) →
    ∀ (q : ℝ → V4) (w : ℝ → V3), Spec.RollingIn c (fun t => β t • Spec.turning n e₁ e₂ t) q w →
      rollError c.sat.totalMoment c.hdBody c.hdIntl (q 0) (w 0) < 2 * npNorm c.hdBody ^ 2 →
      Tendsto w atTop (𝓝 ![0, 0, 0.02932]) ∧ Tendsto (fun t => sandwich (q t) c.hdIntl) atTop (𝓝 c.hdBody)

theorem diag_pos3 {J : M3} (hpd : J.PosDef) {a b : ℝ} (hJ : J = Matrix.diagonal ![a, a, b]) : 0 < a ∧ 0 < b := by
  subst hJ
  have := Matrix.posDef_diagonal_iff.1 hpd
  exact ⟨this 0, this 2⟩

/-- The error of the upside-down rest. -/
theorem rollError_rest {c : MagController} (hl : npNorm c.hdIntl = npNorm c.hdBody) {q : V4} (hq : npNorm q = 1) {w : V3}
    (hw : c.sat.totalMoment *ᵥ w = 0) :
    rollError c.sat.totalMoment c.hdBody c.hdIntl q w = 2 * npNorm c.hdBody ^ 2 := by
  have neg : ∀ v : V3, npNorm (0 - v) = npNorm v := by
    intro v
    rw [zero_sub, ← neg_one_smul ℝ v, npNorm_smul, abs_neg, abs_one, one_mul]
  unfold rollError
  rw [hw, neg, neg, (C06_sandwich_preserves q hq c.hdIntl 0).2.1, hl]
  ring

theorem rollError_done {J : M3} {body intl : V3} {q : V4} {w : V3} (h1 : J *ᵥ w = body) (h2 : sandwich q intl = body) :
    rollError J body intl q w = 0 := by
  unfold rollError
  rw [h1, h2, sub_self, npNorm_eq_zero.2 rfl]
  norm_num

/-- C200, what holds for every start: the error tends to zero or to that of the upside-down rest, unless the field turns
about the pole of the ecliptic or its rate is that of a resonance. -/
theorem C200_limit_partial {model : CtlModel} {h3 : model.sat.nMt = 3} {mass : ℝ} {dims : V3} {ab cd : ℝ}
    (hbuilt : Built model.sat mass dims ab cd) (hpd : model.sat.totalMoment.PosDef) {bb : Bool} {c : MagController}
    (hc : MagController.init model h3 bb = .ok c) {a b : ℝ}
    (hJ : model.sat.totalMoment = Matrix.diagonal ![a, a, b]) {n : ℝ} (hn : 0 < n) {e₁ e₂ : V3}
    (he : Spec.Plane e₁ e₂) {β : ℝ → ℝ} (hβ : ∀ t, β t ≠ 0) {q : ℝ → V4} {w : ℝ → V3}
    (h : Spec.RollingIn c (fun t => β t • Spec.turning n e₁ e₂ t) q w)
    (h1 : c.hdIntl ⨯₃ (e₁ ⨯₃ e₂) ≠ 0) (h2 : c.hdIntl ⬝ᵥ (e₁ ⨯₃ e₂) ≠ 2 * a * n) :
    Tendsto (fun t => rollError c.sat.totalMoment c.hdBody c.hdIntl (q t) (w t)) atTop (𝓝 0) ∨
      Tendsto (fun t => rollError c.sat.totalMoment c.hdBody c.hdIntl (q t) (w t)) atTop
        (𝓝 (2 * npNorm c.hdBody ^ 2)) := by
  obtain ⟨ha, hb⟩ := diag_pos3 hpd hJ
  obtain ⟨g0, -, -⟩ := magInit_fields hc
  have hbuilt' : Built c.sat mass dims ab cd := by rw [g0]; exact hbuilt
  obtain ⟨L, q', w', hL, hr, hconst⟩ := rolling_limit hc hbuilt' hJ hn he hβ h
  have hr' : Spec.RollingIn c (fun t => (fun _ : ℝ => (1 : ℝ)) t • Spec.turning n e₁ e₂ t) q' w' := by
    simpa only [one_smul] using hr
  rcases rolling_const hc ha hb hJ hn he (fun _ => one_ne_zero) hr' h1 h2 hconst one_pos with ⟨z1, z2⟩ | ⟨z1, z2⟩
  · left
    rw [← hconst 1 zero_le_one, rollError_done z1 z2] at hL
    exact hL
  · right
    rw [← hconst 1 zero_le_one, rollError_rest (C145_pole model h3 bb c hc).2.2 (hr 1 zero_le_one).1 z1] at hL
    exact hL

theorem tendsto_of_sq {f : ℝ → V3} {V : ℝ → ℝ} (h : ∀ t, npNorm (f t) ^ 2 ≤ V t) (hV : Tendsto V atTop (𝓝 0)) :
    Tendsto f atTop (𝓝 0) := by
  rw [tendsto_pi_nhds]
  intro i
  have h1 : Tendsto (fun t => Real.sqrt (V t)) atTop (𝓝 0) := by
    have := (Real.continuous_sqrt.tendsto 0).comp hV
    rwa [Real.sqrt_zero] at this
  refine squeeze_zero_norm (fun t => ?_) h1
  exact (abs_le_npNorm (f t) i).trans (Real.le_sqrt_of_sq_le (h t))

/-- C200, what holds: outside of the two resonances, from every start whose error is at most that of rest, other than
upside down at rest itself, the satellite comes into the wanted spin. Missing: fields that turn about the pole of the
ecliptic, the rate of the second resonance, and bodies that are not symmetric. -/
theorem C200_converges_partial {model : CtlModel} {h3 : model.sat.nMt = 3} {mass : ℝ} {dims : V3} {ab cd : ℝ}
    (hbuilt : Built model.sat mass dims ab cd) (hpd : model.sat.totalMoment.PosDef) {bb : Bool} {c : MagController}
    (hc : MagController.init model h3 bb = .ok c) {a b : ℝ}
    (hJ : model.sat.totalMoment = Matrix.diagonal ![a, a, b]) {n : ℝ} (hn : 0 < n) {e₁ e₂ : V3}
    (he : Spec.Plane e₁ e₂) {β : ℝ → ℝ} (hβ : ∀ t, β t ≠ 0) {q : ℝ → V4} {w : ℝ → V3}
    (h : Spec.RollingIn c (fun t => β t • Spec.turning n e₁ e₂ t) q w)
    (h1 : c.hdIntl ⨯₃ (e₁ ⨯₃ e₂) ≠ 0) (h2 : c.hdIntl ⬝ᵥ (e₁ ⨯₃ e₂) ≠ 2 * a * n)
    (h0 : rollError c.sat.totalMoment c.hdBody c.hdIntl (q 0) (w 0) ≤ 2 * npNorm c.hdBody ^ 2)
    (hup : ¬ (w 0 = 0 ∧ sandwich (q 0) c.hdIntl = -c.hdBody)) :
    Tendsto w atTop (𝓝 ![0, 0, 0.02932]) ∧ Tendsto (fun t => sandwich (q t) c.hdIntl) atTop (𝓝 c.hdBody) := by
  obtain ⟨ha, hb⟩ := diag_pos3 hpd hJ
  obtain ⟨g0, g1, -⟩ := magInit_fields hc
  obtain ⟨-, -, -, k4⟩ := roll_wanted hc hb hJ
  have hbuilt' : Built c.sat mass dims ab cd := by rw [g0]; exact hbuilt
  have hne : ∀ t, β t • Spec.turning n e₁ e₂ t ≠ 0 := fun t => smul_ne_zero (hβ t) (turning_ne he t)
  set V : ℝ → ℝ := fun t => rollError c.sat.totalMoment c.hdBody c.hdIntl (q t) (w t) with hV
  have lim : Tendsto V atTop (𝓝 0) := by
    rcases C200_limit_partial hbuilt hpd hc hJ hn he hβ h h1 h2 with h' | h'
    · exact h'
    exfalso
    have below : ∀ t, 0 ≤ t → 2 * npNorm c.hdBody ^ 2 ≤ V t := by
      intro t ht
      refine le_of_tendsto h' ?_
      filter_upwards [eventually_ge_atTop t] with s hs
      exact rolling_antitone hc hJ hne h ht hs
    have const : ∀ t, 0 ≤ t → V t = 2 * npNorm c.hdBody ^ 2 := fun t ht =>
      le_antisymm ((rolling_antitone hc hJ hne h le_rfl ht).trans h0) (below t ht)
    have all : ∀ t, 0 < t → c.sat.totalMoment *ᵥ w t = 0 ∧ sandwich (q t) c.hdIntl = -c.hdBody := by
      intro t ht
      rcases rolling_const hc ha hb hJ hn he hβ h h1 h2 const ht with ⟨z1, z2⟩ | z
      · have := const t ht.le
        simp only [hV] at this
        rw [rollError_done z1 z2, k4] at this
        have : 0 < b * 0.02932 := by positivity
        nlinarith
      · exact z
    apply hup
    obtain ⟨hu, m, hm, hturn⟩ := h 0 le_rfl
    have c1 := hturn.momentum.continuousAt
    have c2 := (hasDerivAt_fixed c.hdIntl hturn.attitude).continuousAt
    have r : ∀ {f : ℝ → V3} {v : V3}, ContinuousAt f 0 → (∀ t, 0 < t → f t = v) → f 0 = v := by
      intro f v hf hv
      have h1 : Tendsto f (𝓝[>] 0) (𝓝 (f 0)) := hf.tendsto.mono_left nhdsWithin_le_nhds
      refine tendsto_nhds_unique h1 (tendsto_const_nhds.congr' ?_)
      filter_upwards [self_mem_nhdsWithin] with t ht
      exact (hv t ht).symm
    have z1 := r c1 fun t ht => (all t ht).1
    have z2 := r c2 fun t ht => (all t ht).2
    refine ⟨?_, z2⟩
    have := hbuilt'.cancel (w 0)
    rw [z1, Matrix.mulVec_zero] at this
    exact this.symm
  have t1 : Tendsto (fun t => c.sat.totalMoment *ᵥ w t - c.hdBody) atTop (𝓝 0) := by
    refine tendsto_of_sq (fun t => ?_) lim
    simp only [hV, rollError]
    exact le_add_of_nonneg_right (sq_nonneg _)
  have t2 : Tendsto (fun t => c.sat.totalMoment *ᵥ w t - sandwich (q t) c.hdIntl) atTop (𝓝 0) := by
    refine tendsto_of_sq (fun t => ?_) lim
    simp only [hV, rollError]
    exact le_add_of_nonneg_left (sq_nonneg _)
  have hH : Tendsto (fun t => c.sat.totalMoment *ᵥ w t) atTop (𝓝 c.hdBody) := by
    have := t1.add_const c.hdBody
    simpa using this
  constructor
  · have cont : Continuous fun v : V3 => c.sat.invTotMoment *ᵥ v := by fun_prop
    have := (cont.tendsto c.hdBody).comp hH
    have e : c.sat.invTotMoment *ᵥ c.hdBody = ![0, 0, 0.02932] := by
      rw [g1, ← g0, hbuilt'.cancel, bbq_eq]
    rw [e] at this
    refine this.congr fun t => ?_
    exact hbuilt'.cancel (w t)
  · have := hH.sub t2
    simpa using this

/-- C200: so from rest, as `detumble` leaves the satellite, in every attitude other than upside down. -/
theorem C200_from_rest_partial {model : CtlModel} {h3 : model.sat.nMt = 3} {mass : ℝ} {dims : V3} {ab cd : ℝ}
    (hbuilt : Built model.sat mass dims ab cd) (hpd : model.sat.totalMoment.PosDef) {bb : Bool} {c : MagController}
    (hc : MagController.init model h3 bb = .ok c) {a b : ℝ}
    (hJ : model.sat.totalMoment = Matrix.diagonal ![a, a, b]) {n : ℝ} (hn : 0 < n) {e₁ e₂ : V3}
    (he : Spec.Plane e₁ e₂) {β : ℝ → ℝ} (hβ : ∀ t, β t ≠ 0) {q : ℝ → V4} {w : ℝ → V3}
    (h : Spec.RollingIn c (fun t => β t • Spec.turning n e₁ e₂ t) q w)
    (h1 : c.hdIntl ⨯₃ (e₁ ⨯₃ e₂) ≠ 0) (h2 : c.hdIntl ⬝ᵥ (e₁ ⨯₃ e₂) ≠ 2 * a * n)
    (hw : w 0 = 0) (hup : sandwich (q 0) c.hdIntl ≠ -c.hdBody) :
    Tendsto w atTop (𝓝 ![0, 0, 0.02932]) ∧ Tendsto (fun t => sandwich (q t) c.hdIntl) atTop (𝓝 c.hdBody) := by
  refine C200_converges_partial hbuilt hpd hc hJ hn he hβ h h1 h2 ?_ (fun hh => hup hh.2)
  exact (rollError_rest (C145_pole model h3 bb c hc).2.2 (h 0 le_rfl).1 (by rw [hw, Matrix.mulVec_zero])).le

/-! ## The resonances -/

/-- Turning about the second axis. -/
noncomputable def yTurn (θ : ℝ) : V4 := ![Real.cos (θ / 2), 0, Real.sin (θ / 2), 0]

theorem yTurn_unit (θ : ℝ) : npNorm (yTurn θ) = 1 := by
  rw [← isUnit4_iff]
  have := Real.sin_sq_add_cos_sq (θ / 2)
  simp only [IsUnit4, yTurn, Matrix.cons_val_zero, Matrix.cons_val_one, cons4_2, cons4_3]
  linarith

theorem half_angle (θ : ℝ) : Real.cos θ = Real.cos (θ / 2) ^ 2 - Real.sin (θ / 2) ^ 2 ∧
    Real.sin θ = 2 * Real.sin (θ / 2) * Real.cos (θ / 2) := by
  constructor
  · rw [← Real.cos_two_mul']; congr 1; ring
  · rw [← Real.sin_two_mul]; congr 1; ring

theorem yTurn_coords (θ x y z : ℝ) : sandwich (yTurn θ) ![x, y, z] =
    ![x * Real.cos θ - z * Real.sin θ, y, x * Real.sin θ + z * Real.cos θ] := by
  have h := Real.sin_sq_add_cos_sq (θ / 2)
  rw [(half_angle θ).1, (half_angle θ).2]
  unfold yTurn
  apply vec3_ext <;>
    simp only [sandwich_0, sandwich_1, sandwich_2, Matrix.cons_val_zero, Matrix.cons_val_one, cons3_2, cons4_2,
      cons4_3]
  · ring
  · linear_combination y * h
  · ring

theorem zTurn_coords (θ x y z : ℝ) : sandwich (zTurn θ) ![x, y, z] =
    ![x * Real.cos θ + y * Real.sin θ, y * Real.cos θ - x * Real.sin θ, z] := by
  have h := Real.sin_sq_add_cos_sq (θ / 2)
  rw [(half_angle θ).1, (half_angle θ).2]
  unfold zTurn
  apply vec3_ext <;>
    simp only [sandwich_0, sandwich_1, sandwich_2, Matrix.cons_val_zero, Matrix.cons_val_one, cons3_2, cons4_2,
      cons4_3]
  · ring
  · ring
  · linear_combination z * h

/-- A rotation after another one that turns too. -/
theorem compose_kinematics {A S : ℝ → V4} {u v : V3} {t : ℝ} (hS : npNorm (S t) = 1)
    (hA' : HasDerivAt A ((0.5 : ℝ) • product (A t) ![0, u 0, u 1, u 2]) t)
    (hS' : HasDerivAt S ((0.5 : ℝ) • product (S t) ![0, v 0, v 1, v 2]) t) :
    HasDerivAt (fun τ => product (A τ) (S τ)) ((0.5 : ℝ) • product (product (A t) (S t))
      ![0, (sandwich (S t) u + v) 0, (sandwich (S t) u + v) 1, (sandwich (S t) u + v) 2]) t := by
  refine (hasDerivAt_product hA' hS').congr_deriv ?_
  have hu := (isUnit4_iff _).2 hS
  generalize S t = S at *
  generalize A t = A at *
  have pure : product S ![0, sandwich S u 0, sandwich S u 1, sandwich S u 2] = product ![0, u 0, u 1, u 2] S := by
    have e : ![0, sandwich S u 0, sandwich S u 1, sandwich S u 2] =
        product (conjugate S) (product ![0, u 0, u 1, u 2] S) := by
      apply vec4_ext
      · simp only [product_0, product_1, product_2, product_3, conjugate_0, conjugate_1, conjugate_2, conjugate_3,
          Matrix.cons_val_zero, Matrix.cons_val_one, cons4_2, cons4_3]
        ring
      · rfl
      · rfl
      · rfl
    rw [e, ← product_assoc, product_conj_self hu, one_product]
  have bil : ∀ x y : V4, product (product A S) (x + y) = product A (product S x) + product (product A S) y := by
    intro x y
    rw [← product_assoc]
    apply vec4_ext <;> simp only [product_0, product_1, product_2, product_3, Pi.add_apply] <;> ring
  have split : ![0, (sandwich S u + v) 0, (sandwich S u + v) 1, (sandwich S u + v) 2] =
      ![0, sandwich S u 0, sandwich S u 1, sandwich S u 2] + ![0, v 0, v 1, v 2] := by
    apply vec4_ext <;> simp
  rw [split, bil, pure]
  apply vec4_ext <;>
    simp only [product_0, product_1, product_2, product_3, Pi.add_apply, Pi.smul_apply, smul_eq_mul] <;> ring

/-- A symmetric body left alone: its axis cones about a fixed direction, and it spins about its axis. -/
noncomputable def coneAtt (G : V4) (l θ σ t : ℝ) : V4 :=
  product (product G (zTurn (l * t))) (product (yTurn θ) (zTurn (σ * t)))

noncomputable def coneRate (l θ σ t : ℝ) : V3 :=
  sandwich (product (yTurn θ) (zTurn (σ * t))) ![0, 0, l] + ![0, 0, σ]

theorem tilt_unit (θ ψ : ℝ) : npNorm (product (yTurn θ) (zTurn ψ)) = 1 :=
  (isUnit4_iff _).1 (isUnit4_product ((isUnit4_iff _).2 (yTurn_unit _)) ((isUnit4_iff _).2 (zTurn_unit _)))

theorem const_product {S : ℝ → V4} {u : V3} {t : ℝ} (G : V4)
    (h : HasDerivAt S ((0.5 : ℝ) • product (S t) ![0, u 0, u 1, u 2]) t) :
    HasDerivAt (fun τ => product G (S τ)) ((0.5 : ℝ) • product (product G (S t)) ![0, u 0, u 1, u 2]) t := by
  refine (hasDerivAt_product (hasDerivAt_const t G) h).congr_deriv ?_
  rw [product_assoc]
  apply vec4_ext <;>
    simp only [product_0, product_1, product_2, product_3, Pi.add_apply, Pi.smul_apply, smul_eq_mul, Pi.zero_apply] <;>
    ring

theorem zTurn_steady (l t : ℝ) : HasDerivAt (fun τ => zTurn (l * τ))
    ((0.5 : ℝ) • product (zTurn (l * t)) ![0, (![0, 0, l] : V3) 0, (![0, 0, l] : V3) 1, (![0, 0, l] : V3) 2]) t := by
  have h := zTurn_deriv (θ := fun τ => l * τ) (Ω := l) (t := t) (by simpa using (hasDerivAt_id t).const_mul l)
  simpa using h

theorem cone_attitude (G : V4) (l θ σ t : ℝ) :
    HasDerivAt (coneAtt G l θ σ) ((0.5 : ℝ) • product (coneAtt G l θ σ t)
      ![0, coneRate l θ σ t 0, coneRate l θ σ t 1, coneRate l θ σ t 2]) t :=
  compose_kinematics (tilt_unit θ _) (const_product G (zTurn_steady l t)) (const_product (yTurn θ) (zTurn_steady σ t))

theorem tilt_sandwich (θ ψ : ℝ) (v : V3) :
    sandwich (product (yTurn θ) (zTurn ψ)) v = sandwich (zTurn ψ) (sandwich (yTurn θ) v) :=
  (C08_sandwich_product _ _ _).1

theorem cone_sandwich (G : V4) (l θ σ t : ℝ) (v : V3) : sandwich (coneAtt G l θ σ t) v =
    sandwich (product (yTurn θ) (zTurn (σ * t))) (sandwich (zTurn (l * t)) (sandwich G v)) := by
  unfold coneAtt
  rw [(C08_sandwich_product (product G _) _ _).1, (C08_sandwich_product G _ _).1]

theorem cone_axis (θ ψ : ℝ) :
    sandwich (product (yTurn θ) (zTurn ψ)) ![Real.sin θ, 0, Real.cos θ] = ![0, 0, 1] := by
  have h := Real.sin_sq_add_cos_sq θ
  rw [tilt_sandwich, yTurn_coords, ← zTurn_axis ψ]
  congr 1
  apply vec3_ext <;> simp only [Matrix.cons_val_zero, Matrix.cons_val_one, cons3_2]
  · ring
  · linear_combination h

theorem cone_momentum {a b l θ σ : ℝ} (hσ : b * (σ + l * Real.cos θ) = a * l * Real.cos θ) {G : V4}
    (hG : npNorm G = 1) (t : ℝ) :
    Matrix.diagonal ![a, a, b] *ᵥ coneRate l θ σ t =
      sandwich (product (yTurn θ) (zTurn (σ * t))) ![0, 0, a * l] ∧
    sandwich (product (yTurn θ) (zTurn (σ * t))) ![0, 0, a * l] =
      sandwich (coneAtt G l θ σ t) (sandwichOpp G ![0, 0, a * l]) := by
  constructor
  · unfold coneRate
    rw [tilt_sandwich, tilt_sandwich, yTurn_coords, yTurn_coords, zTurn_coords, zTurn_coords]
    apply vec3_ext <;>
      simp only [Matrix.mulVec_diagonal, Pi.add_apply, Matrix.cons_val_zero, Matrix.cons_val_one, cons3_2]
    · ring
    · ring
    · linear_combination hσ
  · rw [cone_sandwich, (C07_sandwich_opp G hG _).2, zTurn_coords]
    congr 1
    apply vec3_ext <;> simp

/-- No moment is asked for along the field. -/
theorem idle_moment {s T : V3} (hs : s ≠ 0) (h : T ⨯₃ s = 0) : ∃ m, magMoment s T = .ok m ∧ m ⨯₃ s = 0 := by
  obtain ⟨m, hm, -, hmB⟩ := C65_moment s T hs
  refine ⟨m, hm, hmB.trans ?_⟩
  have hp := npDot_pos hs
  rw [npDot_eq_dotProduct] at hp
  have e : s ⨯₃ (T ⨯₃ s) = (s ⬝ᵥ s) • T - (s ⬝ᵥ T) • s := by
    apply vec3_ext <;>
      simp only [cross_apply, Matrix.vec3_dotProduct, Matrix.cons_val_zero, Matrix.cons_val_one, cons3_2,
        Pi.smul_apply, Pi.sub_apply, smul_eq_mul] <;> ring
  rw [h, map_zero] at e
  have e2 : T - ((s ⬝ᵥ T) / (s ⬝ᵥ s)) • s = (1 / (s ⬝ᵥ s)) • ((s ⬝ᵥ s) • T - (s ⬝ᵥ T) • s) := by
    rw [smul_sub, smul_smul, smul_smul, one_div_mul_cancel hp.ne', one_smul, one_div_mul_eq_div]
  rw [e2, ← e, smul_zero]

/-- A coning motion whose error stays along the field is a motion under the law. -/
theorem cone_rolls {model : CtlModel} {h3 : model.sat.nMt = 3} {bb : Bool} {c : MagController}
    (hc : MagController.init model h3 bb = .ok c) {a b : ℝ}
    (hJ : model.sat.totalMoment = Matrix.diagonal ![a, a, b]) {l θ σ : ℝ}
    (hσ : b * (σ + l * Real.cos θ) = a * l * Real.cos θ) {G : V4} (hG : npNorm G = 1) {B : ℝ → V3}
    (hne : ∀ t, B t ≠ 0)
    (hpar : ∀ t, ∃ k : ℝ, ∃ x : V3, (c.sat.totalMoment *ᵥ coneRate l θ σ t - c.hdBody +
      (c.sat.totalMoment *ᵥ coneRate l θ σ t - sandwich (coneAtt G l θ σ t) c.hdIntl)) = k • x ∧
      ∃ k' : ℝ, sandwich (coneAtt G l θ σ t) (B t) = k' • x) :
    Spec.RollingIn c B (coneAtt G l θ σ) (coneRate l θ σ) := by
  obtain ⟨g0, -, -⟩ := magInit_fields hc
  have hJ' : c.sat.totalMoment = Matrix.diagonal ![a, a, b] := by rw [g0, hJ]
  intro t _
  have hu : npNorm (coneAtt G l θ σ t) = 1 := by
    refine (isUnit4_iff _).1 (isUnit4_product (isUnit4_product ((isUnit4_iff _).2 hG) ((isUnit4_iff _).2 (zTurn_unit _)))
      ((isUnit4_iff _).2 (tilt_unit _ _)))
  have hs : sandwich (coneAtt G l θ σ t) (B t) ≠ 0 := by
    intro h
    have := (C06_sandwich_preserves _ hu (B t) (B t)).2.1
    rw [h, npNorm_eq_zero.2 rfl] at this
    exact hne t (npNorm_eq_zero.1 this.symm)
  obtain ⟨k, x, hk, k', hk'⟩ := hpar t
  obtain ⟨m, hm, hm0⟩ := idle_moment (T := c.bbqTorque (coneAtt G l θ σ t) (coneRate l θ σ t)) hs (by
    rw [bbqTorque_eq, hk, hk']
    simp only [map_smul, LinearMap.smul_apply, cross_self, smul_zero])
  refine ⟨hu, m, hm, cone_attitude G l θ σ t, ?_⟩
  rw [hm0, zero_sub, hJ']
  have e : (fun τ => Matrix.diagonal ![a, a, b] *ᵥ coneRate l θ σ τ) =
      fun τ => sandwich (coneAtt G l θ σ τ) (sandwichOpp G ![0, 0, a * l]) := by
    funext τ
    rw [(cone_momentum hσ hG τ).1, (cone_momentum hσ hG τ).2]
  have e2 := congrFun e t
  rw [e, e2]
  exact hasDerivAt_fixed _ (cone_attitude G l θ σ t)

/-- The directions across the one that a motion cones about. -/
theorem cone_plane {G : V4} (hG : npNorm G = 1) :
    Spec.Plane (sandwichOpp G ![1, 0, 0]) (sandwichOpp G ![0, 1, 0]) ∧
      sandwichOpp G ![1, 0, 0] ⨯₃ sandwichOpp G ![0, 1, 0] = sandwichOpp G ![0, 0, 1] := by
  refine ⟨⟨?_, ?_, ?_⟩, ?_⟩
  · rw [opp_norm hG, npNorm_vec3 (by norm_num)]
  · rw [opp_norm hG, npNorm_vec3 (by norm_num)]
  · rw [← (C06_sandwich_preserves G hG _ _).1, (C07_sandwich_opp G hG _).2, (C07_sandwich_opp G hG _).2]
    simp
  · rw [← opp_cross hG]
    congr 1
    apply vec3_ext <;> simp [cross_apply]

theorem cone_field {G : V4} (hG : npNorm G = 1) (l θ σ n k t : ℝ) :
    sandwich (coneAtt G l θ σ t) (k • Spec.turning n (sandwichOpp G ![1, 0, 0]) (sandwichOpp G ![0, 1, 0]) t) =
      k • sandwich (product (yTurn θ) (zTurn (σ * t))) ![Real.cos (n * t - l * t), Real.sin (n * t - l * t), 0] := by
  have e : sandwich G (Spec.turning n (sandwichOpp G ![1, 0, 0]) (sandwichOpp G ![0, 1, 0]) t) =
      ![Real.cos (n * t), Real.sin (n * t), 0] := by
    unfold Spec.turning
    rw [sandwich_add, sandwich_smul, sandwich_smul, (C07_sandwich_opp G hG _).2, (C07_sandwich_opp G hG _).2]
    apply vec3_ext <;> simp
  rw [sandwich_smul, cone_sandwich, e, zTurn_coords, Real.cos_sub, Real.sin_sub]

theorem sandwich_sub3 (q : V4) (u v : V3) : sandwich q (u - v) = sandwich q u - sandwich q v := by
  rw [sandwich_eq_dcm, sandwich_eq_dcm, sandwich_eq_dcm, Matrix.mulVec_sub]

/-- C200, the first resonance: in every field that turns about the pole of the ecliptic, slower than `0.02932 b / a`,
every symmetric satellite has a motion under the law that cones for ever with the field and never comes closer to the
wanted spin. -/
theorem C200_cone {model : CtlModel} {h3 : model.sat.nMt = 3} {bb : Bool} {c : MagController}
    (hc : MagController.init model h3 bb = .ok c) {a b : ℝ} (ha : 0 < a) (hb : 0 < b)
    (hJ : model.sat.totalMoment = Matrix.diagonal ![a, a, b]) {n : ℝ} (hn : 0 < n) (hlt : a * n < b * 0.02932)
    {β : ℝ → ℝ} (hβ : ∀ t, β t ≠ 0) :
    ∃ (e₁ e₂ : V3) (q : ℝ → V4) (w : ℝ → V3), Spec.Plane e₁ e₂ ∧
      c.hdIntl ⨯₃ (e₁ ⨯₃ e₂) = 0 ∧ Spec.RollingIn c (fun t => β t • Spec.turning n e₁ e₂ t) q w ∧
      ∀ t, rollError c.sat.totalMoment c.hdBody c.hdIntl (q t) (w t) =
        2 * (npNorm c.hdBody ^ 2 - (a * n) ^ 2) := by
  obtain ⟨k1, k2, k3, k4⟩ := roll_wanted hc hb hJ
  obtain ⟨g0, -, -⟩ := magInit_fields hc
  have hJ' : c.sat.totalMoment = Matrix.diagonal ![a, a, b] := by rw [g0, hJ]
  set d := b * 0.02932 with hd
  have hd0 : 0 < d := by positivity
  have han : 0 < a * n := mul_pos ha hn
  set θ := Real.arccos (2 * (a * n) / d - 1) with hθ
  have hcos : d * Real.cos θ = 2 * (a * n) - d := by
    have h0 : 0 ≤ 2 * (a * n) / d := by positivity
    have h1 : 2 * (a * n) / d ≤ 2 := by
      rw [div_le_iff₀ hd0]
      linarith
    rw [hθ, Real.cos_arccos (by linarith) (by linarith)]
    field_simp
  have hsc := Real.sin_sq_add_cos_sq θ
  set σ := a * n * Real.cos θ / b - n * Real.cos θ with hσdef
  have hσ : b * (σ + n * Real.cos θ) = a * n * Real.cos θ := by
    rw [hσdef]
    field_simp
    ring
  obtain ⟨pl, nor⟩ := cone_plane ecl_unit
  have hne : ∀ t, β t • Spec.turning n (sandwichOpp ecl ![1, 0, 0]) (sandwichOpp ecl ![0, 1, 0]) t ≠ 0 :=
    fun t => smul_ne_zero (hβ t) (turning_ne pl t)
  have hI : ∀ t, sandwich (coneAtt ecl n θ σ t) c.hdIntl =
      sandwich (product (yTurn θ) (zTurn (σ * t))) ![0, 0, d] := by
    intro t
    rw [k2, cone_sandwich, sandwich_smul, (C07_sandwich_opp ecl ecl_unit _).2]
    congr 1
    rw [sandwich_smul, zTurn_axis]
    apply vec3_ext <;> simp
  have hB : ∀ t, c.hdBody = sandwich (product (yTurn θ) (zTurn (σ * t))) ![d * Real.sin θ, 0, d * Real.cos θ] := by
    intro t
    rw [k1, ← cone_axis θ (σ * t), ← sandwich_smul]
    congr 1
    apply vec3_ext <;> simp
  have hM : ∀ t, c.sat.totalMoment *ᵥ coneRate n θ σ t =
      sandwich (product (yTurn θ) (zTurn (σ * t))) ![0, 0, a * n] := by
    intro t
    rw [hJ']
    exact (cone_momentum hσ ecl_unit t).1
  refine ⟨_, _, coneAtt ecl n θ σ, coneRate n θ σ, pl, ?_, ?_, ?_⟩
  · rw [nor, k2, map_smul, LinearMap.smul_apply, cross_self, smul_zero]
  · refine cone_rolls hc hJ hσ ecl_unit hne fun t => ?_
    refine ⟨-(d * Real.sin θ), sandwich (product (yTurn θ) (zTurn (σ * t))) ![1, 0, 0], ?_, β t, ?_⟩
    · rw [hI, hM, hB t, ← sandwich_sub3, ← sandwich_sub3, ← sandwich_add, ← sandwich_smul]
      congr 1
      apply vec3_ext <;>
        simp only [Pi.add_apply, Pi.sub_apply, Pi.smul_apply, smul_eq_mul, Matrix.cons_val_zero, Matrix.cons_val_one,
          cons3_2]
      · ring
      · ring
      · linear_combination -hcos
    · rw [cone_field ecl_unit, sub_self, Real.cos_zero, Real.sin_zero]
  · intro t
    unfold rollError
    rw [hI, hM, hB t, ← sandwich_sub3, ← sandwich_sub3, (C06_sandwich_preserves _ (tilt_unit _ _) _ 0).2.1,
      (C06_sandwich_preserves _ (tilt_unit _ _) _ 0).2.1, (C06_sandwich_preserves _ (tilt_unit _ _) _ 0).2.1]
    simp only [npNorm3_sq, Pi.sub_apply, Matrix.cons_val_zero, Matrix.cons_val_one, cons3_2]
    linear_combination (-(2 * (a * n))) * hcos - d ^ 2 * hsc

/-- C200, the second resonance: in a field that turns about a direction across which the wanted momentum is `2 a n`, every
symmetric satellite has a motion under the law that starts with its axis to the pole and cones away from it, about the
normal of the plane of the field and twice as fast as the field, for ever. -/
theorem C200_double {model : CtlModel} {h3 : model.sat.nMt = 3} {bb : Bool} {c : MagController}
    (hc : MagController.init model h3 bb = .ok c) {a b : ℝ} (ha : 0 < a) (hb : 0 < b)
    (hJ : model.sat.totalMoment = Matrix.diagonal ![a, a, b]) {n : ℝ} (hn : 0 < n) (hlt : 2 * a * n < b * 0.02932)
    {β : ℝ → ℝ} (hβ : ∀ t, β t ≠ 0) :
    ∃ (e₁ e₂ : V3) (q : ℝ → V4) (w : ℝ → V3), Spec.Plane e₁ e₂ ∧ c.hdIntl ⨯₃ (e₁ ⨯₃ e₂) ≠ 0 ∧
      c.hdIntl ⬝ᵥ (e₁ ⨯₃ e₂) = 2 * a * n ∧ Spec.RollingIn c (fun t => β t • Spec.turning n e₁ e₂ t) q w ∧
      sandwich (q 0) c.hdIntl = c.hdBody ∧
      ∀ t, rollError c.sat.totalMoment c.hdBody c.hdIntl (q t) (w t) =
        2 * (npNorm c.hdBody ^ 2 - (2 * a * n) ^ 2) := by
  obtain ⟨k1, k2, k3, k4⟩ := roll_wanted hc hb hJ
  obtain ⟨g0, -, -⟩ := magInit_fields hc
  have hJ' : c.sat.totalMoment = Matrix.diagonal ![a, a, b] := by rw [g0, hJ]
  set d := b * 0.02932 with hd
  have hd0 : 0 < d := by positivity
  have han : 0 < a * n := mul_pos ha hn
  set α := Real.arccos (2 * (a * n) / d) with hα
  have hcos : d * Real.cos α = 2 * (a * n) := by
    have h0 : 0 ≤ 2 * (a * n) / d := by positivity
    have h1 : 2 * (a * n) / d ≤ 1 := by
      rw [div_le_iff₀ hd0]
      linarith
    rw [hα, Real.cos_arccos (by linarith) h1]
    field_simp
  have hsc := Real.sin_sq_add_cos_sq α
  have hsin : d ^ 2 * Real.sin α ^ 2 = d ^ 2 - (2 * a * n) ^ 2 := by
    linear_combination d ^ 2 * hsc - (d * Real.cos α + 2 * (a * n)) * hcos
  set l := 2 * n with hl
  set σ := a * l * Real.cos (-α) / b - l * Real.cos (-α) with hσdef
  have hσ : b * (σ + l * Real.cos (-α)) = a * l * Real.cos (-α) := by
    rw [hσdef]
    field_simp
    ring
  set G := product ecl (yTurn α) with hGdef
  have hG : npNorm G = 1 :=
    (isUnit4_iff _).1 (isUnit4_product ((isUnit4_iff _).2 ecl_unit) ((isUnit4_iff _).2 (yTurn_unit _)))
  obtain ⟨pl, nor⟩ := cone_plane hG
  have hne : ∀ t, β t • Spec.turning n (sandwichOpp G ![1, 0, 0]) (sandwichOpp G ![0, 1, 0]) t ≠ 0 :=
    fun t => smul_ne_zero (hβ t) (turning_ne pl t)
  have hGI : sandwich G c.hdIntl = ![-(d * Real.sin α), 0, d * Real.cos α] := by
    rw [hGdef, k2, (C08_sandwich_product _ _ _).1, sandwich_smul, (C07_sandwich_opp ecl ecl_unit _).2, sandwich_smul,
      yTurn_coords]
    apply vec3_ext <;> simp
  have hI : ∀ t, sandwich (coneAtt G l (-α) σ t) c.hdIntl = sandwich (product (yTurn (-α)) (zTurn (σ * t)))
      ![-(d * Real.sin α) * Real.cos (l * t), d * Real.sin α * Real.sin (l * t), d * Real.cos α] := by
    intro t
    rw [cone_sandwich, hGI, zTurn_coords]
    congr 1
    apply vec3_ext <;> simp
  have hB : ∀ t, c.hdBody = sandwich (product (yTurn (-α)) (zTurn (σ * t))) ![-(d * Real.sin α), 0, d * Real.cos α] := by
    intro t
    rw [k1, ← cone_axis (-α) (σ * t), ← sandwich_smul]
    congr 1
    apply vec3_ext <;> simp
  have hM : ∀ t, c.sat.totalMoment *ᵥ coneRate l (-α) σ t =
      sandwich (product (yTurn (-α)) (zTurn (σ * t))) ![0, 0, a * l] := by
    intro t
    rw [hJ']
    exact (cone_momentum hσ hG t).1
  have hdot : c.hdIntl ⬝ᵥ sandwichOpp G ![0, 0, 1] = 2 * a * n := by
    rw [← (C06_sandwich_preserves G hG _ _).1, hGI, (C07_sandwich_opp G hG _).2]
    simp only [Matrix.vec3_dotProduct, Matrix.cons_val_zero, Matrix.cons_val_one, cons3_2]
    linear_combination hcos
  refine ⟨_, _, coneAtt G l (-α) σ, coneRate l (-α) σ, pl, ?_, ?_, ?_, ?_, ?_⟩
  · rw [nor]
    intro h0
    have e : (c.hdIntl ⨯₃ sandwichOpp G ![0, 0, 1]) ⬝ᵥ (c.hdIntl ⨯₃ sandwichOpp G ![0, 0, 1]) =
        (c.hdIntl ⬝ᵥ c.hdIntl) * (sandwichOpp G ![0, 0, 1] ⬝ᵥ sandwichOpp G ![0, 0, 1]) -
          (c.hdIntl ⬝ᵥ sandwichOpp G ![0, 0, 1]) ^ 2 := by
      simp only [cross_apply, Matrix.vec3_dotProduct, Matrix.cons_val_zero, Matrix.cons_val_one, cons3_2]
      ring
    have u := unit3_dot (v := sandwichOpp G ![0, 0, 1]) (by rw [opp_norm hG, npNorm_vec3 (by norm_num)])
    rw [h0, zero_dotProduct, hdot, u, k2, smul_dotProduct, dotProduct_smul, unit3_dot k3] at e
    simp only [smul_eq_mul, mul_one] at e
    nlinarith
  · rw [nor, hdot]
  · refine cone_rolls hc hJ hσ hG hne fun t => ?_
    have hlt' : l * t = 2 * (n * t) := by rw [hl]; ring
    have hcs := Real.sin_sq_add_cos_sq (n * t)
    refine ⟨2 * (d * Real.sin α) * Real.cos (n * t), sandwich (product (yTurn (-α)) (zTurn (σ * t)))
      ![Real.cos (n * t), -Real.sin (n * t), 0], ?_, β t, ?_⟩
    · rw [hI, hM, hB t, ← sandwich_sub3, ← sandwich_sub3, ← sandwich_add, ← sandwich_smul, hlt', Real.cos_two_mul,
        Real.sin_two_mul]
      congr 1
      apply vec3_ext <;>
        simp only [Pi.add_apply, Pi.sub_apply, Pi.smul_apply, smul_eq_mul, Matrix.cons_val_zero, Matrix.cons_val_one,
          cons3_2]
      · ring
      · ring
      · rw [hl]
        linear_combination -2 * hcos
    · rw [cone_field hG, hlt', show n * t - 2 * (n * t) = -(n * t) by ring, Real.cos_neg, Real.sin_neg]
  · rw [hI, hB 0]
    congr 1
    apply vec3_ext <;> simp
  · intro t
    have hcs := Real.sin_sq_add_cos_sq (l * t)
    unfold rollError
    rw [hI, hM, hB t, ← sandwich_sub3, ← sandwich_sub3, (C06_sandwich_preserves _ (tilt_unit _ _) _ 0).2.1,
      (C06_sandwich_preserves _ (tilt_unit _ _) _ 0).2.1, (C06_sandwich_preserves _ (tilt_unit _ _) _ 0).2.1]
    simp only [npNorm3_sq, Pi.sub_apply, Matrix.cons_val_zero, Matrix.cons_val_one, cons3_2]
    rw [hl] at hcs ⊢
    linear_combination (d * Real.sin α) ^ 2 * hcs - 4 * (2 * a * n) * hcos

/-- The satellite of the examples below: symmetric about its `z` axis. -/
theorem exSatSym : ∃ (model : CtlModel) (h3 : model.sat.nMt = 3) (c : MagController),
    Built model.sat 2 ![0.1, 0.1, 0.2] 0.8 2.2 ∧ model.sat.totalMoment.PosDef ∧
    MagController.init model h3 false = .ok c ∧
    model.sat.totalMoment = Matrix.diagonal ![0.012514, 0.012514, 0.006214] := by
  obtain ⟨sat, hb, hpd, ⟨h3, -⟩, hI, -, -⟩ := exSatP ![0.0125, 0.0125, 0.0062]
    (by intro i; fin_cases i <;> norm_num) true []
  refine ⟨⟨sat, some ⟨0, 0⟩, none⟩, h3, _, hb, hpd, rfl, ?_⟩
  rw [hI]; congr 1; apply vec3_ext <;> norm_num

/-- The claim is false: a field that turns about the pole of the ecliptic, twice in an orbit of 95 minutes. -/
theorem C200_fails : ¬ C200_claim := by
  intro H
  obtain ⟨model, h3, c, hb, hpd, hc, hJ⟩ := exSatSym
  obtain ⟨k1, k2, -, k4⟩ := roll_wanted hc (by norm_num : (0 : ℝ) < 0.006214) hJ
  obtain ⟨e₁, e₂, q, w, he, -, hr, hV⟩ := C200_cone hc (by norm_num) (by norm_num) hJ (n := 0.0022) (by norm_num)
    (by norm_num) (β := fun _ => 3e-5) (fun _ => by norm_num)
  obtain ⟨h1, h2⟩ := H model h3 _ _ _ _ hb hpd c hc _ _ hJ 0.0022 e₁ e₂ _ (by norm_num) he (fun _ => by norm_num) q w hr
    (by rw [hV, k4]; norm_num)
  have hM : Tendsto (fun t => c.sat.totalMoment *ᵥ w t) atTop (𝓝 c.hdBody) := by
    have cont : Continuous fun v : V3 => c.sat.totalMoment *ᵥ v := by fun_prop
    have := (cont.tendsto _).comp h1
    obtain ⟨g0, g1, -⟩ := magInit_fields hc
    have e : c.sat.totalMoment *ᵥ ![0, 0, 0.02932] = c.hdBody := by rw [g1, g0, bbq_eq]
    rw [e] at this
    exact this
  have n0 : ∀ {f : ℝ → V3}, Tendsto f atTop (𝓝 0) → Tendsto (fun t => npNorm (f t) ^ 2) atTop (𝓝 0) := by
    intro f hf
    have cont : Continuous fun v : V3 => npNorm v ^ 2 := by
      unfold npNorm
      fun_prop
    have := (cont.tendsto 0).comp hf
    rw [npNorm_eq_zero.2 rfl, zero_pow two_ne_zero] at this
    exact this
  have t1 := n0 (by simpa using hM.sub_const c.hdBody)
  have t2 := n0 (by simpa using hM.sub h2)
  have := t1.add t2
  rw [add_zero] at this
  have e := tendsto_nhds_unique (this.congr fun t => hV t) tendsto_const_nhds
  rw [k4] at e
  norm_num at e

/-- The hypotheses of `C200_from_rest_partial` are met: in a field that turns in the plane of the equator, by a satellite
at rest whose axis is 106 degrees from the pole of the ecliptic. -/
example : ∃ (model : CtlModel) (h3 : model.sat.nMt = 3) (c : MagController) (q : ℝ → V4) (w : ℝ → V3),
    Built model.sat 2 ![0.1, 0.1, 0.2] 0.8 2.2 ∧ model.sat.totalMoment.PosDef ∧
    MagController.init model h3 false = .ok c ∧
    model.sat.totalMoment = Matrix.diagonal ![0.012514, 0.012514, 0.006214] ∧
    Spec.Plane ![1, 0, 0] ![0, 1, 0] ∧
    Spec.RollingIn c (fun t => (fun _ : ℝ => (3e-5 : ℝ)) t • Spec.turning 0.0022 ![1, 0, 0] ![0, 1, 0] t) q w ∧
    c.hdIntl ⨯₃ (![1, 0, 0] ⨯₃ ![0, 1, 0]) ≠ 0 ∧ c.hdIntl ⬝ᵥ (![1, 0, 0] ⨯₃ ![0, 1, 0]) ≠ 2 * 0.012514 * 0.0022 ∧
    w 0 = 0 ∧ sandwich (q 0) c.hdIntl ≠ -c.hdBody := by
  obtain ⟨model, h3, c, hb, hpd, hc, hJ⟩ := exSatSym
  obtain ⟨k1, k2, -, k4⟩ := roll_wanted hc (by norm_num : (0 : ℝ) < 0.006214) hJ
  obtain ⟨g0, -, -⟩ := magInit_fields hc
  have pl : Spec.Plane ![1, 0, 0] ![0, 1, 0] := ⟨npNorm_vec3 (by norm_num), npNorm_vec3 (by norm_num), by simp⟩
  have hu : npNorm (product ecl ![0.6, 0.8, 0, 0]) = 1 :=
    (isUnit4_iff _).1 (isUnit4_product ((isUnit4_iff _).2 ecl_unit) ((isUnit4_iff _).2 (npNorm_vec4 (by norm_num))))
  have hturn : ContDiff ℝ 1 fun t : ℝ => (3e-5 : ℝ) • Spec.turning 0.0022 ![1, 0, 0] ![0, 1, 0] t := by
    unfold Spec.turning
    fun_prop
  obtain ⟨q, w, hq, hw, hr, -⟩ := C200_exists (c := c) (by rw [g0]; exact hb) hturn
    (fun t => smul_ne_zero (by norm_num) (turning_ne pl t)) hu 0
  have nz : (![1, 0, 0] : V3) ⨯₃ ![0, 1, 0] = ![0, 0, 1] := by apply vec3_ext <;> simp [cross_apply]
  set e := 23.439291 * Real.pi / 180 with he
  have hI : c.hdIntl = (0.006214 * 0.02932 : ℝ) • ![0, -Real.sin e, Real.cos e] := by
    rw [(C145_pole model h3 false c hc).2.1, k4]
  have e0 : 0 < e := by positivity
  have e1 : e < 0.42 := by rw [he]; linarith [Real.pi_lt_d2]
  refine ⟨model, h3, c, q, w, hb, hpd, hc, hJ, pl, hr, ?_, ?_, hw, ?_⟩
  · rw [nz, hI]
    intro h
    have := congrFun h 0
    simp only [cross_apply, Pi.smul_apply, smul_eq_mul, Matrix.cons_val_zero, Matrix.cons_val_one, cons3_2,
      Pi.zero_apply] at this
    have hs := Real.sin_pos_of_pos_of_lt_pi e0 (by linarith [Real.pi_gt_three])
    norm_num at this
    exact hs.ne' this
  · rw [nz, hI]
    simp only [smul_dotProduct, smul_eq_mul, Matrix.vec3_dotProduct, Matrix.cons_val_zero, Matrix.cons_val_one, cons3_2]
    have hcos := Real.one_sub_sq_div_two_le_cos (x := e)
    have : e ^ 2 < 0.42 ^ 2 := by gcongr
    intro h
    norm_num at h this
    linarith
  · rw [hq, k2, sandwich_after_ecl, k1]
    intro h
    have := congrFun h 2
    simp only [Pi.smul_apply, Pi.neg_apply, smul_eq_mul, sandwich_2, Matrix.cons_val_zero, Matrix.cons_val_one, cons3_2,
      cons4_2, cons4_3] at this
    norm_num at this

end Adcs
