import Verif.Proofs.MismatchLocal

set_option autoImplicit false

/-! # C214: near the command, the tracking law works whatever the inertia -/

namespace Adcs

open Str Ctl Sens JDay Quat Vec Dyn
open scoped Matrix

theorem ml_sq {X h : ℝ} (h1 : -h ≤ X) (h2 : X ≤ 0) : X ^ 2 ≤ h ^ 2 := by nlinarith

theorem ml_sub {X : ℝ} : 1 - X ^ 2 ≤ 2 * (1 - X) := by nlinarith [sq_nonneg (1 - X)]

theorem ml_root {X Q : ℝ} (h0 : 0 < X) (h1 : X ≤ 1) (hQ : 0 ≤ Q) (h : Q ^ 2 = 1 - X ^ 2) : 1 - X ≤ Q := by
  have : Q ≤ 1 := by nlinarith
  nlinarith

theorem ml_sq' {X : ℝ} (h0 : 0 < X) (h1 : X ≤ 1) : 1 - X ≤ 1 - X ^ 2 := by nlinarith

theorem ml_delta {δ R : ℝ} (h0 : 0 ≤ δ) (h1 : δ ≤ R) (h2 : R ≤ 1) : δ ^ 2 ≤ R := by nlinarith

set_option maxHeartbeats 1000000 in
/-- For every controller and every satellite, whatever its inertia, there is a neighbourhood of the command in which the
tracking law brings the satellite to the command exponentially, down to a floor that is proportional to the disturbances,
and never switches the sign. The neighbourhood does not depend on the command, nor on the momentum of the wheels. -/
theorem C214_converges (c : RwController) (ha : 0 < c.alpha) (hg : 0 < c.gamma) {mass : ℝ} {dims : V3} {ab cd : ℝ}
    (hb : Built c.sat mass dims ab cd) (hm : mass ≠ 0) (hw : UnlimitedWheels c.sat) (hI : c.sat.totalMoment.PosDef)
    {J : M3} (hJ : J.PosDef) {h : ℝ} (h0 : 0 < h) (h1 : h < 1) : ∃ R K κ C : ℝ, 0 < R ∧ 0 < K ∧ 0 < κ ∧ 0 ≤ C ∧
      ∀ (qc : V4), npNorm qc = 1 → ∀ (δ : ℝ), 0 ≤ δ → δ ≤ R →
      ∀ (tr0 tr : Trigger) (st0 st : SatState c.sat.rw.n) (t : ℝ) (n : ℕ),
      tr0.halfWidth = h → (tr0.memory = 1 ∨ tr0.memory = -1) → npNorm st0.attrs.attitude = 1 →
      st0.attrs.bodyAngVel ⬝ᵥ st0.attrs.bodyAngVel / 2
        + c.alpha * npNorm (st0.attrs.attitude - tr0.memory • qc) ^ 2 ≤ R →
      Spec.FlownRun c J qc δ tr0 st0 t tr st n →
      0 ≤ t ∧ n = 0 ∧ tr = tr0 ∧ npNorm st.attrs.attitude = 1 ∧
      st.attrs.bodyAngVel ⬝ᵥ st.attrs.bodyAngVel / 2
          + c.alpha * npNorm (st.attrs.attitude - tr0.memory • qc) ^ 2 ≤
        K * Real.exp (-κ * t) * (st0.attrs.bodyAngVel ⬝ᵥ st0.attrs.bodyAngVel / 2
          + c.alpha * npNorm (st0.attrs.attitude - tr0.memory • qc) ^ 2) + C * δ ^ 2 := by
  obtain ⟨l, L, hl, hlL, hJl, hAl, hJL, hAL, hyL⟩ := ml_matrices hI hJ
  have hL : 0 < L := hl.trans_le hlL
  obtain ⟨eta, ρ, κ, m, he, hρ, hκ, hm0, e1, e2, -, e3, k1, k2, m1, m2, m3⟩ := ml_consts ha hg hl hL h0 h1
  obtain ⟨A, hA⟩ : ∃ A, A = J * c.sat.totalMoment⁻¹ * J := ⟨_, rfl⟩
  rw [← hA] at hAl hAL
  have hJs := psd_symm hJ.posSemidef
  have hAs : Aᵀ = A := by
    rw [hA, Matrix.transpose_mul, Matrix.transpose_mul, hJs, psd_symm hI.inv.posSemidef, Matrix.mul_assoc]
  have hJu := (Matrix.isUnit_iff_isUnit_det J).1 hJ.isUnit
  have hIu := (Matrix.isUnit_iff_isUnit_det c.sat.totalMoment).1 hI.isUnit
  obtain ⟨D, hD⟩ : ∃ D, D = L ^ 2 / (c.gamma * l) + eta * L ^ 2 / (c.alpha * l) := ⟨_, rfl⟩
  have hD0 : 0 < D := by rw [hD]; positivity
  obtain ⟨R, hR0, R1, R2, R3, R4⟩ : ∃ R > 0, R ≤ 1 ∧ 2 * L * R ≤ m / 4 ∧ D * R / κ ≤ m / 4 ∧ R ≤ c.alpha := by
    refine ⟨min (min 1 c.alpha) (min (m / (8 * L)) (m * κ / (4 * D))), by positivity,
      (min_le_left _ _).trans (min_le_left _ _), ?_, ?_, (min_le_left _ _).trans (min_le_right _ _)⟩
    · have := (min_le_right (min 1 c.alpha) (min (m / (8 * L)) (m * κ / (4 * D)))).trans (min_le_left _ _)
      rw [le_div_iff₀ (by positivity)] at this
      linarith
    · have := (min_le_right (min 1 c.alpha) (min (m / (8 * L)) (m * κ / (4 * D)))).trans (min_le_right _ _)
      rw [le_div_iff₀ (by positivity)] at this
      rw [div_le_iff₀ hκ]
      linarith
  refine ⟨R, 12 * L / l, κ, 6 * D / (l * κ), hR0, by positivity, hκ, by positivity, ?_⟩
  intro qc hqc δ hδ hδR tr0 tr st0 st t n hh hmem hu hE0 hrun
  have hs2 : tr0.memory ^ 2 = 1 := by rcases hmem with h | h <;> rw [h] <;> norm_num
  obtain ⟨G, hG⟩ : ∃ G, G = D * δ ^ 2 / κ := ⟨_, rfl⟩
  have hG0 : 0 ≤ G := by rw [hG]; positivity
  have hGm : G ≤ m / 4 := by
    rw [hG]
    refine le_trans ?_ R3
    gcongr
    exact ml_delta hδ hδR R1
  have hκG : κ * G = D * δ ^ 2 := by rw [hG]; field_simp
  obtain ⟨V, hV⟩ : ∃ V : SatState c.sat.rw.n → ℝ, V = fun s => mlV J A c.alpha eta
    (tr0.memory • vecPart (errorQuat s.attrs.attitude qc)) s.attrs.bodyAngVel := ⟨_, rfl⟩
  -- the length of the vector part
  have hq2 : ∀ s : SatState c.sat.rw.n, npNorm s.attrs.attitude = 1 →
      npNorm (tr0.memory • vecPart (errorQuat s.attrs.attitude qc)) ^ 2 =
        1 - (tr0.memory * errorQuat s.attrs.attitude qc 0) ^ 2 := by
    intro s hs
    rw [npNorm_smul, mul_pow, sq_abs, hs2, one_mul, ← dot_self3,
      vecPart_unit (errorQuat_unit ((isUnit4_iff _).2 hs) ((isUnit4_iff _).2 hqc)), mul_pow, hs2, one_mul]
  have hbet : ∀ s : SatState c.sat.rw.n, _ := fun s => mlV_between ha hl hlL he e1 hJl hAl hJL hAL
    (tr0.memory • vecPart (errorQuat s.attrs.attitude qc)) s.attrs.bodyAngVel
  -- where the function is small and the sign is not to be switched, the error is small
  have hsmall : ∀ s : SatState c.sat.rw.n, npNorm s.attrs.attitude = 1 → V s ≤ m →
      -h ≤ tr0.memory * errorQuat s.attrs.attitude qc 0 → npNorm s.attrs.bodyAngVel ≤ ρ ∧
      npNorm (tr0.memory • vecPart (errorQuat s.attrs.attitude qc)) ≤ ρ ∧
      0 < tr0.memory * errorQuat s.attrs.attitude qc 0 := by
    intro s hs hVm hx
    have hb := (hbet s).1
    rw [hV] at hVm
    simp only at hVm
    have hp := sq_nonneg (npNorm s.attrs.bodyAngVel)
    have hq := sq_nonneg (npNorm (tr0.memory • vecPart (errorQuat s.attrs.attitude qc)))
    have hp' : 0 ≤ l / 4 * npNorm s.attrs.bodyAngVel ^ 2 := by positivity
    have hq' : 0 ≤ c.alpha * l / 2 * npNorm (tr0.memory • vecPart (errorQuat s.attrs.attitude qc)) ^ 2 := by positivity
    refine ⟨le_of_sq_le_sq ?_ hρ.le, le_of_sq_le_sq ?_ hρ.le, ?_⟩
    · refine le_of_mul_le_mul_left ?_ hl
      linarith
    · refine le_of_mul_le_mul_left ?_ (mul_pos ha hl)
      linarith
    · by_contra hneg
      rw [not_lt] at hneg
      have hsq : (tr0.memory * errorQuat s.attrs.attitude qc 0) ^ 2 ≤ h ^ 2 := ml_sq hx hneg
      have h3 : c.alpha * l * (1 - h ^ 2) ≤
          c.alpha * l * npNorm (tr0.memory • vecPart (errorQuat s.attrs.attitude qc)) ^ 2 := by
        rw [hq2 s hs]
        exact mul_le_mul_of_nonneg_left (by linarith) (mul_pos ha hl).le
      linarith
  have hen : ∀ s : SatState c.sat.rw.n, npNorm s.attrs.attitude = 1 →
      s.attrs.bodyAngVel ⬝ᵥ s.attrs.bodyAngVel / 2 + c.alpha * npNorm (s.attrs.attitude - tr0.memory • qc) ^ 2 =
        npNorm s.attrs.bodyAngVel ^ 2 / 2 + 2 * c.alpha * (1 - tr0.memory * errorQuat s.attrs.attitude qc 0) := by
    intro s hs
    rw [energy_lyap hmem hs hqc, lyap, dot_self3]
  have hle1 : ∀ s : SatState c.sat.rw.n, npNorm s.attrs.attitude = 1 →
      tr0.memory * errorQuat s.attrs.attitude qc 0 ≤ 1 := by
    intro s hs
    have h4 := sq_nonneg (npNorm (tr0.memory • vecPart (errorQuat s.attrs.attitude qc)))
    rw [hq2 s hs] at h4
    exact (abs_le.1 ((sq_le_one_iff_abs_le_one _).1 (by linarith))).2
  -- the beginning
  obtain ⟨E0, hE0d⟩ : ∃ E0, E0 = st0.attrs.bodyAngVel ⬝ᵥ st0.attrs.bodyAngVel / 2
    + c.alpha * npNorm (st0.attrs.attitude - tr0.memory • qc) ^ 2 := ⟨_, rfl⟩
  rw [← hE0d] at hE0 ⊢
  have hE0e := hE0d.trans (hen st0 hu)
  have hV0 : V st0 ≤ 2 * L * E0 := by
    rw [hV]
    refine (hbet st0).2.trans ?_
    rw [hq2 st0 hu, hE0e]
    have : 1 - (tr0.memory * errorQuat st0.attrs.attitude qc 0) ^ 2 ≤
        2 * (1 - tr0.memory * errorQuat st0.attrs.attitude qc 0) := ml_sub
    have := mul_le_mul_of_nonneg_left this (by positivity : 0 ≤ 2 * c.alpha * L)
    linarith
  have hV0p : 0 ≤ V st0 := by
    rw [hV]
    exact le_trans (by positivity) (hbet st0).1
  have hV0m : V st0 ≤ m / 4 := hV0.trans ((mul_le_mul_of_nonneg_left hE0 (by positivity)).trans R2)
  have hx0 : 0 < tr0.memory * errorQuat st0.attrs.attitude qc 0 := by
    have h2 : 2 * c.alpha * (1 - tr0.memory * errorQuat st0.attrs.attitude qc 0) ≤ c.alpha := by
      have := sq_nonneg (npNorm st0.attrs.bodyAngVel)
      linarith
    by_contra hneg
    rw [not_lt] at hneg
    have := mul_le_mul_of_nonneg_left hneg ha.le
    linarith
  have key : 0 ≤ t ∧ n = 0 ∧ tr = tr0 ∧ npNorm st.attrs.attitude = 1 ∧
      0 < tr0.memory * errorQuat st.attrs.attitude qc 0 ∧ V st ≤ V st0 * Real.exp (-κ * t) + G := by
    induction hrun with
    | start => exact ⟨le_rfl, rfl, rfl, hu, hx0, by simp [hG0]⟩
    | @flow t tr n st T hT _ hcq hcw hstep ih =>
      obtain ⟨i0, i1, i2, i3, i4, i5⟩ := ih
      subst i2
      have hq : ∀ τ ∈ Set.Ico 0 T, HasDerivAt (fun τ => (st τ).attrs.attitude)
          ((0.5 : ℝ) • product (st τ).attrs.attitude (pureQ (st τ).attrs.bodyAngVel)) τ := by
        intro τ hτ
        obtain ⟨d, hi, hdq, -⟩ := hstep τ hτ
        rw [← (flown_instant hb hm hw hi).2.1]
        exact hdq
      have hunit : ∀ τ ∈ Set.Icc 0 T, npNorm (st τ).attrs.attitude = 1 := fun τ hτ =>
        (norm_flow hτ.1 (hcq.mono (Set.Icc_subset_Icc_right hτ.2)) fun σ hσ => hq σ ⟨hσ.1, hσ.2.trans_le hτ.2⟩).trans i3
      have hxs : ∀ τ ∈ Set.Ico 0 T, -h ≤ tr.memory * errorQuat (st τ).attrs.attitude qc 0 := by
        intro τ hτ
        obtain ⟨d, hi, -, -⟩ := hstep τ hτ
        have hst := (flown_instant hb hm hw hi).1
        by_contra hlt
        rw [not_le] at hlt
        have hc : errorQuat (st τ).attrs.attitude qc 0 * tr.memory ≤ -tr.halfWidth := by rw [hh, mul_comm]; exact hlt.le
        exact trigger_switches hmem (hh ▸ h0) hc hst.symm
      have hce : ContinuousOn (fun τ => errorQuat (st τ).attrs.attitude qc) (Set.Icc 0 T) :=
        (errorQuat_continuous qc).comp_continuousOn hcq
      have hxT : -h ≤ tr.memory * errorQuat (st T).attrs.attitude qc 0 := by
        rcases hT.eq_or_lt with hz | hz
        · rw [← hz]; linarith
        · have hcl : T ∈ closure (Set.Ico 0 T) := by rw [closure_Ico hz.ne]; exact ⟨hT, le_rfl⟩
          have hcT : ContinuousWithinAt (fun τ => tr.memory * errorQuat (st τ).attrs.attitude qc 0) (Set.Ico 0 T) T :=
            (((continuousOn_pi.1 hce 0).const_smul tr.memory) T ⟨hT, le_rfl⟩).mono Set.Ico_subset_Icc_self
          exact ContinuousWithinAt.closure_le hcl continuousWithinAt_const hcT hxs
      have hcV : ContinuousOn (fun τ => V (st τ)) (Set.Icc 0 T) := by
        have k := continuousOn_pi.1 hcw
        have k0 := k 0; have k1 := k 1; have k2 := k 2
        have e := continuousOn_pi.1 hce
        have e1 := e 1; have e2 := e 2; have e3 := e 3
        rw [hV]
        simp only [mlV, dotProduct, Matrix.mulVec, Fin.sum_univ_three, Pi.smul_apply, smul_eq_mul, vecPart_0, vecPart_1,
          vecPart_2]
        fun_prop
      have hexp := exp_le_one_of hκ i0
      have hμ : V st0 * Real.exp (-κ * t) ≤ V st0 := mul_le_of_le_one_right hV0p hexp
      have hdec := local_barrier (f := fun τ => V (st τ) - G) (κ := κ) (m := m - G) (μ := V st0 * Real.exp (-κ * t)) hT
        hκ.le (hcV.sub continuousOn_const) (fun τ hτ => by
          obtain ⟨d, hi, -, hdw⟩ := hstep τ hτ
          obtain ⟨-, -, x, hx, hr⟩ := flown_instant hb hm hw hi
          have hdu := hasDerivAt_errorVec (w := (st τ).attrs.bodyAngVel) qc tr.memory (hq τ hτ)
          have hder := mlV_deriv (alpha := c.alpha) (eta := eta) hJs hAs hdu hdw
          rw [hV]
          refine ⟨_, hder.sub_const G, fun hle => ?_⟩
          have hus := hunit τ ⟨hτ.1, hτ.2.le⟩
          obtain ⟨s1, s2, s3⟩ := hsmall (st τ) hus (by rw [hV]; simp only; linarith) (hxs τ hτ)
          have hrb : npNorm ((1 / 2 : ℝ) • ((tr.memory * errorQuat (st τ).attrs.attitude qc 0 - 1) •
              (st τ).attrs.bodyAngVel + npCross (tr.memory • vecPart (errorQuat (st τ).attrs.attitude qc))
                (st τ).attrs.bodyAngVel)) ≤
              npNorm (tr.memory • vecPart (errorQuat (st τ).attrs.attitude qc)) * npNorm (st τ).attrs.bodyAngVel := by
            have g1 := npNorm_add3 ((tr.memory * errorQuat (st τ).attrs.attitude qc 0 - 1) •
              (st τ).attrs.bodyAngVel) (npCross (tr.memory • vecPart (errorQuat (st τ).attrs.attitude qc))
                (st τ).attrs.bodyAngVel)
            have g2 := cross_norm_le (tr.memory • vecPart (errorQuat (st τ).attrs.attitude qc)) (st τ).attrs.bodyAngVel
            have g3 := hle1 (st τ) hus
            have g4 := hq2 (st τ) hus
            have g0 := npNorm_nonneg (tr.memory • vecPart (errorQuat (st τ).attrs.attitude qc))
            rw [npNorm_smul, abs_of_nonpos (by linarith : tr.memory * errorQuat (st τ).attrs.attitude qc 0 - 1 ≤ 0)] at g1
            obtain ⟨X, hX⟩ : ∃ X, X = tr.memory * errorQuat (st τ).attrs.attitude qc 0 := ⟨_, rfl⟩
            rw [← hX] at s3 g1 g3 g4 ⊢
            obtain ⟨Q, hQ⟩ : ∃ Q, Q = npNorm (tr.memory • vecPart (errorQuat (st τ).attrs.attitude qc)) := ⟨_, rfl⟩
            rw [← hQ] at g0 g4 g2 ⊢
            have g5 : 1 - X ≤ Q := ml_root s3 g3 g0 g4
            have g6 := mul_le_mul_of_nonneg_right g5 (npNorm_nonneg (st τ).attrs.bodyAngVel)
            rw [npNorm_smul, abs_of_pos (by norm_num : (0 : ℝ) < 1 / 2)]
            linarith
          have hAw : A *ᵥ d.rate = (J * c.sat.totalMoment⁻¹) *ᵥ npCross (st τ).attrs.bodyAngVel
              ((c.sat.totalMoment - J) *ᵥ (st τ).attrs.bodyAngVel)
              - c.alpha • J *ᵥ (tr.memory • vecPart (errorQuat (st τ).attrs.attitude qc))
              - c.gamma • J *ᵥ (st τ).attrs.bodyAngVel + A *ᵥ x := by
            rw [hr, Matrix.mulVec_add, Matrix.mulVec_mulVec, hA, Matrix.mul_assoc (J * c.sat.totalMoment⁻¹) J J⁻¹,
              Matrix.mul_nonsing_inv J hJu, Matrix.mul_one, Matrix.mulVec_add, Matrix.mulVec_mulVec _ _ c.sat.totalMoment,
              Matrix.mul_assoc J, Matrix.nonsing_inv_mul _ hIu, Matrix.mul_one, Matrix.mulVec_sub, neg_mul_eq_neg_mul,
              Matrix.mulVec_smul, Matrix.mulVec_smul, Matrix.mulVec_smul, smul_smul, neg_mul, neg_smul, mul_comm c.alpha]
            abel
          have hpt := ml_point (δ := δ) ha hg hl hL hlL he hκ e1 e2 e3 k1 k2 hJl hAl hJL hAL hrb
            (hyL (st τ).attrs.bodyAngVel) hx hAw s1 s2
          rw [← hD] at hpt
          simp only at hpt ⊢
          linarith) (mul_nonneg hV0p (Real.exp_pos _).le) (by linarith) (by linarith)
      have hfin : V (st T) ≤ V st0 * Real.exp (-κ * (t + T)) + G := by
        rw [mul_add, Real.exp_add]
        linarith
      have hVm : V (st T) ≤ m := by
        have := mul_le_of_le_one_right hV0p (exp_le_one_of hκ (by linarith : 0 ≤ t + T))
        linarith
      exact ⟨by linarith, i1, rfl, hunit T ⟨hT, le_rfl⟩, (hsmall _ (hunit T ⟨hT, le_rfl⟩) hVm hxT).2.2, hfin⟩
    | @switch t tr tr' n st d _ hi hne ih =>
      obtain ⟨i0, i1, i2, i3, i4, i5⟩ := ih
      subst i2
      exfalso
      have hst := (flown_instant hb hm hw hi).1
      obtain ⟨-, -, j3⟩ := trigger_switch hmem (hh ▸ h0) (x := errorQuat st.attrs.attitude qc 0) (hst ▸ hne)
      rw [hh, mul_comm] at j3
      linarith
  obtain ⟨j0, j1, j2, j3, j4, j5⟩ := key
  refine ⟨j0, j1, j2, j3, ?_⟩
  rw [hen st j3]
  have hb1 := (hbet st).1
  rw [hq2 st j3] at hb1
  rw [hV] at j5 hV0
  simp only at j5 hV0
  obtain ⟨X, hX⟩ : ∃ X, X = tr0.memory * errorQuat st.attrs.attitude qc 0 := ⟨_, rfl⟩
  have hX1 := hle1 st j3
  rw [← hX] at hb1 j4 hX1 ⊢
  have hXs : 1 - X ≤ 1 - X ^ 2 := ml_sq' j4 hX1
  have f1 := mul_le_mul_of_nonneg_left hXs (by positivity : 0 ≤ c.alpha * l / 2)
  have f2 := mul_le_mul_of_nonneg_right hV0 (Real.exp_pos (-κ * t)).le
  have hp := mul_nonneg (mul_pos ha hl).le (by linarith : 0 ≤ 1 - X)
  have hp2 : 0 ≤ l * npNorm st.attrs.bodyAngVel ^ 2 := by positivity
  have f3 : l * (npNorm st.attrs.bodyAngVel ^ 2 / 2 + 2 * c.alpha * (1 - X)) ≤
      6 * (2 * L * E0 * Real.exp (-κ * t) + G) := by linarith
  refine le_of_mul_le_mul_left (f3.trans (le_of_eq ?_)) hl
  rw [hG]
  field_simp
  ring

/-- In this neighbourhood the runs do not die out: from every state, for every duration, there is one. -/
theorem C214_exists (c : RwController) (ha : 0 < c.alpha) (hg : 0 < c.gamma) {mass : ℝ} {dims : V3} {ab cd : ℝ}
    (hb : Built c.sat mass dims ab cd) (hm : mass ≠ 0) (hw : UnlimitedWheels c.sat) (hI : c.sat.totalMoment.PosDef)
    (hav : c.objAvoidance = false) (s0 : Measurements c.sat.rw.n) (objs0 : List V3) (hobj : c.objects s0 = .ok objs0)
    {J : M3} (hJ : J.PosDef) {h : ℝ} (h0 : 0 < h) (h1 : h < 1) : ∃ R > 0,
      ∀ (qc : V4), npNorm qc = 1 → ∀ (tr0 : Trigger) (st0 : SatState c.sat.rw.n), tr0.halfWidth = h →
      (tr0.memory = 1 ∨ tr0.memory = -1) → npNorm st0.attrs.attitude = 1 →
      st0.attrs.bodyAngVel ⬝ᵥ st0.attrs.bodyAngVel / 2
        + c.alpha * npNorm (st0.attrs.attitude - tr0.memory • qc) ^ 2 ≤ R →
      ∀ T, 0 ≤ T → ∃ st, Spec.FlownRun c J qc 0 tr0 st0 T tr0 st 0 := by
  obtain ⟨R, K, κ, C, hR, hK, hκ, -, hall⟩ := C214_converges c ha hg hb hm hw hI hJ h0 h1
  refine ⟨R, hR, fun qc hqc tr0 st0 hh hm0 hu hER T hT => ?_⟩
  obtain ⟨E, hE⟩ : ∃ E, E = st0.attrs.bodyAngVel ⬝ᵥ st0.attrs.bodyAngVel / 2
    + c.alpha * npNorm (st0.attrs.attitude - tr0.memory • qc) ^ 2 := ⟨_, rfl⟩
  have hE0 : 0 ≤ E := by
    rw [hE]
    have := dot_self_nonneg3 st0.attrs.bodyAngVel
    positivity
  suffices hex : ∃ tr st n, Spec.FlownRun c J qc 0 tr0 st0 T tr st n by
    obtain ⟨tr, st, n, hr⟩ := hex
    obtain ⟨-, rfl, rfl, -⟩ := hall qc hqc 0 le_rfl hR.le tr0 tr st0 st T n hh hm0 hu hER hr
    exact ⟨st, hr⟩
  obtain ⟨B, hB⟩ : ∃ B, B = Real.sqrt (2 * (K * E)) := ⟨_, rfl⟩
  refine switched_exists (Run := Spec.FlownRun c J qc 0 tr0 st0) (qc := qc) (N := 0)
    (K := Metric.closedBall 0 1 ×ˢ Metric.closedBall 0 B)
    (fun sgn => flownField_contDiff c.sat.totalMoment J c.alpha c.gamma qc sgn) ?_ ?_
    ((isCompact_closedBall _ _).prod (isCompact_closedBall _ _)) ?_ .start hT
  · intro t tr st n y T hrun h0 hT hy hh
    have e0 : withMotion st (y 0) = st := by rw [h0]; rfl
    refine .flow (fun τ => withMotion st (y τ)) T hT (e0.symm ▸ hrun)
      (fun τ hτ => (hy τ hτ).continuousAt.fst.continuousWithinAt)
      (fun τ hτ => (hy τ hτ).continuousAt.snd.continuousWithinAt) fun τ hτ => ?_
    obtain ⟨d, hi, hd⟩ := flown_instant_exists c hb hm hw hav J s0 objs0 hobj qc tr (withMotion st (y τ))
    have hst : tr.step (errorQuat (withMotion st (y τ)).attrs.attitude qc 0) = tr := step_hold (hh τ hτ)
    rw [hst] at hi hd
    have hd' := hy τ ⟨hτ.1, hτ.2.le⟩
    have e : flownField c.sat.totalMoment J c.alpha c.gamma qc tr.memory (y τ) = (d.att, d.rate) := hd.symm
    rw [e] at hd'
    exact ⟨d, hi, hd'.fst, hd'.snd⟩
  · intro t tr st n hrun hne
    obtain ⟨d, hi, -⟩ := flown_instant_exists c hb hm hw hav J s0 objs0 hobj qc tr st
    exact .switch hrun hi hne
  · intro t tr st n hrun
    obtain ⟨j0, j1, j2, j3, j4⟩ := hall qc hqc 0 le_rfl hR.le tr0 tr st0 st t n hh hm0 hu hER hrun
    rw [← hE] at j4
    refine ⟨by rw [j2, hh]; exact h0, j2 ▸ hm0, j1.le, ?_, ?_⟩
    · rw [mem_closedBall_zero_iff]
      refine (pi_norm_le_iff_of_nonneg zero_le_one).2 fun i => ?_
      rw [Real.norm_eq_abs, ← j3]
      exact abs_le_npNorm _ i
    · rw [mem_closedBall_zero_iff]
      refine (pi_norm_le_iff_of_nonneg (hB ▸ Real.sqrt_nonneg _)).2 fun i => ?_
      rw [Real.norm_eq_abs, hB]
      refine (abs_le_npNorm _ i).trans (Real.le_sqrt_of_sq_le ?_)
      have hx := mul_le_of_le_one_right (mul_nonneg hK.le hE0) (exp_le_one_of hκ j0)
      have h2 : 0 ≤ c.alpha * npNorm (st.attrs.attitude - tr0.memory • qc) ^ 2 := by positivity
      rw [← dot_self3]
      simp only at j4 ⊢
      linarith

/-- The hypotheses are met by a controller of the constructor, whose half width is 0.3, and by a satellite with the
inertia diag(1, 2, 3), more than a hundred times the one assumed and of another shape: there are runs for every duration
that begin with a rate other than zero. -/
example : ∃ (c : RwController) (st0 : SatState c.sat.rw.n) (qc : V4), c.trigger.halfWidth = 0.3 ∧
    c.sat.totalMoment.PosDef ∧ st0.attrs.bodyAngVel ≠ 0 ∧
    ∀ T, 0 ≤ T → ∃ st, Spec.FlownRun c (Matrix.diagonal ![1, 2, 3]) qc 0 c.trigger st0 T c.trigger st 0 := by
  obtain ⟨sat, hb, hpd, -, hI, hins, hrw⟩ := exSat3 false []
  obtain ⟨c, hc⟩ : ∃ c : RwController, c = ⟨sat, exClock, some fun _ _ => .ok ![1, 0, 0], false, Trigger.init 1 0.3, 2, 2,
    sat.instruments.map fun i => setGains i Real.pi 2⟩ := ⟨_, rfl⟩
  have hJ : (Matrix.diagonal ![1, 2, 3] : M3).PosDef := by
    refine Matrix.PosDef.diagonal fun i => ?_
    fin_cases i <;> simp
  have hsat : c.sat = sat := by rw [hc]
  obtain ⟨R, hR, h⟩ := C214_exists c (by rw [hc]; norm_num) (by rw [hc]; norm_num) (hsat ▸ hb) (by norm_num)
    (hsat ▸ ⟨3, exAxes, fun _ => 1e-5, fun _ => 2e-6, 0.002, fun _ => by norm_num, hrw⟩) (hsat ▸ hpd) (by rw [hc])
    ⟨![6800000, 0, 0], 0, 0, 0, 0, 0, 0⟩ [sandwich 0 ![1, 0, 0], -normalizeV ![6800000, 0, 0]]
    (by subst hc; rfl) hJ (h := 0.3) (by norm_num) (by norm_num)
  obtain ⟨r, hr, hr1, hrR⟩ : ∃ r : ℝ, 0 < r ∧ r ≤ 1 ∧ r ≤ R :=
    ⟨min 1 R, lt_min one_pos hR, min_le_left _ _, min_le_right _ _⟩
  set a : Raw c.sat.rw.n := { exRaw c.sat.rw.n with rate := ![r, 0, 0] } with ha
  have hpos : a.pos 0 ^ 2 + a.pos 1 ^ 2 = 6800000 ^ 2 := by simp [ha, exRaw]
  obtain ⟨st, hst, -, -, -⟩ := mkState_equator a exClock (by simp [ha, exRaw]) (by rw [hpos]; norm_num)
    (by
      rw [hpos, Real.sqrt_sq (by norm_num)]
      have := wgsE2_lt; have := wgsE2_pos
      unfold Fr.wgsA; nlinarith)
  obtain ⟨hcons, harr, -⟩ := C80_new hst
  have hrate : st.attrs.bodyAngVel = ![r, 0, 0] := by simp only [hcons.bodyAngVel, harr, ha]
  have hatt : npNorm st.attrs.attitude = 1 := by
    simp only [hcons.attitude, harr, ha, exRaw]
    exact npNorm_vec4 (by norm_num)
  have htr : c.trigger.halfWidth = 0.3 ∧ c.trigger.memory = 1 := by rw [hc]; exact ⟨rfl, by simp [Trigger.init, npSign]⟩
  refine ⟨c, st, st.attrs.attitude, htr.1, hsat ▸ hpd, fun h0 => ?_, h _ hatt _ st htr.1 (.inl htr.2) hatt ?_⟩
  · rw [hrate] at h0
    have := congrFun h0 0
    simp at this
    exact hr.ne' this
  · rw [htr.2, one_smul, sub_self, hrate, Matrix.vec3_dotProduct]
    have : npNorm (0 : V4) = 0 := by simp [npNorm]
    rw [this]
    simp
    nlinarith

end Adcs
