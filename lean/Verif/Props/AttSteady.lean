import Verif.Proofs.RiccatiLimit
import Verif.Props.AttFilter

set_option autoImplicit false

/-! # C164: the uncertainty of the attitude filter in regular operation -/

namespace Adcs

open Quat Vec Obs Att Filter Spec
open scoped Matrix Topology

/-- Specification: a filter in regular operation: a star tracker reading, then a prediction over `dt`, again
and again; `ks n` is the filter before reading number `n`, and the rate reading minus the bias estimate is
always `u`. -/
def Spec.Regular (u : V3) (dt : ℝ) (ks : ℕ → Att.Kalman) : Prop :=
  ∀ n, ∃ q w k, (ks n).measurement q = .ok k ∧ w - k.b = u ∧ ks (n + 1) = k.propagate w dt

/-- The claim: at every rate the covariance approaches one limit, whatever it was at first. -/
def C164_claim : Prop :=
  ∀ (u : V3) (dt : ℝ), 0 < dt → ∃ P, StrictCovariance P ∧ ∀ ks, Spec.Regular u dt ks → Covariance (ks 0).P →
    Tendsto (fun n => (ks n).P) atTop (𝓝 P)

theorem covariance_psd {n : Type} [Fintype n] {P : Matrix n n ℝ} : Covariance P ↔ P.PosSemidef := by
  constructor
  · intro h
    refine Matrix.PosSemidef.of_dotProduct_mulVec_nonneg ?_ fun x => ?_
    · rw [Matrix.IsHermitian, Matrix.conjTranspose_eq_transpose_of_trivial]; exact h.1
    · rw [star_trivial]; exact h.2 x
  · intro h
    have h1 := h.isHermitian
    rw [Matrix.IsHermitian, Matrix.conjTranspose_eq_transpose_of_trivial] at h1
    refine ⟨h1, fun x => ?_⟩
    have := h.dotProduct_mulVec_nonneg x
    rwa [star_trivial] at this

theorem strict_pd {n : Type} [Fintype n] {P : Matrix n n ℝ} : StrictCovariance P ↔ P.PosDef := by
  constructor
  · intro h
    refine Matrix.PosDef.of_dotProduct_mulVec_pos ?_ fun x hx => ?_
    · rw [Matrix.IsHermitian, Matrix.conjTranspose_eq_transpose_of_trivial]; exact h.1
    · rw [star_trivial]; exact h.2 x hx
  · intro h
    have h1 := h.isHermitian
    rw [Matrix.IsHermitian, Matrix.conjTranspose_eq_transpose_of_trivial] at h1
    refine ⟨h1, fun x hx => ?_⟩
    have := h.dotProduct_mulVec_pos hx
    rwa [star_trivial] at this

/-- The noise that a prediction adds. -/
noncomputable def addedNoise (dt : ℝ) : M6 := G * (processNoise dt * Gᵀ)

/-- A reading and a prediction, as a step of the Riccati iteration of the transposed system. -/
theorem cycle_ric {P : M6} (u : V3) (dt : ℝ) :
    phi u dt * (kpost P Att.R obsH * (phi u dt)ᵀ) + addedNoise dt
      = ric (phi u dt)ᵀ obsHᵀ (addedNoise dt) Att.R P := by
  rw [ric, kpost, kgain, innov]
  simp only [Matrix.transpose_transpose, Matrix.sub_mul, Matrix.mul_sub, Matrix.one_mul, Matrix.mul_assoc]

theorem regular_P {u : V3} {dt : ℝ} {ks : ℕ → Att.Kalman} (h : Spec.Regular u dt ks) (hdt : 0 < dt)
    (h0 : Covariance (ks 0).P) (n : ℕ) :
    Covariance (ks n).P ∧
      (ks n).P = (ric (phi u dt)ᵀ obsHᵀ (addedNoise dt) Att.R)^[n] (ks 0).P := by
  induction n with
  | zero => exact ⟨h0, rfl⟩
  | succ n ih =>
    obtain ⟨q, w, k, h1, h2, h3⟩ := h n
    rw [measurement_eq ih.1] at h1
    have hP : k.P = kpost (ks n).P Att.R obsH := by
      rw [← Except.ok.inj h1]
    have hc : Covariance k.P := by rw [hP]; exact kpost_cov ih.1 attR_strict
    refine ⟨by rw [h3]; exact (C81_propagate k hc w dt hdt).weaken, ?_⟩
    rw [Function.iterate_succ_apply', ← ih.2, ← cycle_ric, h3, ← hP, ← h2]
    rfl

theorem poly_det (w : V3) (x a c : ℝ) :
    (x • (1 : M3) + a • cross w + c • (cross w * cross w)).det
      = x * ((x - c * npNorm w ^ 2) ^ 2 + a ^ 2 * npNorm w ^ 2) := by
  rw [npNorm3_sq, Matrix.det_fin_three]
  simp [cross]
  ring

/-- The angle of a prediction tells the bias apart unless the satellite makes whole turns in between. -/
theorem phi12_det {u : V3} {dt : ℝ} (hdt : 0 < dt) (h : u = 0 ∨ Real.cos (npNorm u * dt) ≠ 1) :
    (phi12 u dt).det ≠ 0 := by
  by_cases hn : npNorm u = 0
  · rw [phi12_zero hn, Matrix.det_smul]
    simp [hdt.ne']
  · have hc : Real.cos (npNorm u * dt) ≠ 1 := by
      rcases h with h | h
      · exact absurd (npNorm_eq_zero.2 h) hn
      · exact h
    rw [phi12_eq hn, poly_det]
    refine mul_ne_zero (by linarith) ?_
    have h1 : 0 < ((1 - Real.cos (npNorm u * dt)) / npNorm u ^ 2) ^ 2 * npNorm u ^ 2 := by
      have : (1 - Real.cos (npNorm u * dt)) / npNorm u ^ 2 ≠ 0 :=
        div_ne_zero (sub_ne_zero.2 (Ne.symm hc)) (pow_ne_zero 2 hn)
      positivity
    positivity

theorem transposed_rest {u : V3} {dt : ℝ} (hd : (phi12 u dt).det ≠ 0) (x : I6 → ℝ) :
    ∃ us, Spec.final (phi u dt)ᵀ obsHᵀ us x = 0 := by
  have hstep : ∀ y1 y2 v : V3, (phi u dt)ᵀ *ᵥ Sum.elim y1 y2 + obsHᵀ *ᵥ v
      = Sum.elim ((phi11 u dt)ᵀ *ᵥ y1 + v) ((phi12 u dt)ᵀ *ᵥ y1 + y2) := by
    intro y1 y2 v
    rw [phi, Matrix.fromBlocks_transpose, Matrix.fromBlocks_mulVec, obsH_T]
    funext i
    rcases i with i | i <;> simp [Matrix.fromRows_mulVec]
  have hdT : IsUnit ((phi12 u dt)ᵀ).det := by rw [Matrix.det_transpose]; exact isUnit_iff_ne_zero.2 hd
  obtain ⟨x1, x2, rfl⟩ : ∃ x1 x2 : V3, x = Sum.elim x1 x2 := ⟨_, _, (Sum.elim_comp_inl_inr x).symm⟩
  set z := (phi12 u dt)ᵀ *ᵥ x1 + x2 with hz
  set y := -(((phi12 u dt)ᵀ)⁻¹ *ᵥ z) with hy
  refine ⟨[y - (phi11 u dt)ᵀ *ᵥ x1, -((phi11 u dt)ᵀ *ᵥ y)], ?_⟩
  rw [Spec.final, Spec.final, Spec.final, hstep, hstep, add_sub_cancel, add_neg_cancel, ← hz]
  have : (phi12 u dt)ᵀ *ᵥ y = -z := by
    rw [hy, Matrix.mulVec_neg, Matrix.mulVec_mulVec, Matrix.mul_nonsing_inv _ hdT, Matrix.one_mulVec]
  rw [this, neg_add_cancel]
  funext i
  rcases i with i | i <;> rfl

/-- C164, what holds: unless the satellite turns by whole turns between the readings (no rotation at all is
fine), the covariance of the filter approaches one positive definite limit, whatever it was at first and
whatever is read.  Missing: whole turns (`C164_blind`). -/
theorem C164_settles_partial (u : V3) (dt : ℝ) (hdt : 0 < dt) (hu : u = 0 ∨ Real.cos (npNorm u * dt) ≠ 1) :
    ∃ P, StrictCovariance P ∧ ∀ ks, Spec.Regular u dt ks → Covariance (ks 0).P →
      Tendsto (fun n => (ks n).P) atTop (𝓝 P) := by
  have hN : (addedNoise dt).PosDef := strict_pd.1 (processNoise_strict hdt)
  have hR : Att.R.PosDef := strict_pd.1 attR_strict
  obtain ⟨P, h1, h2, h3⟩ := ric_tendsto (a := (phi u dt)ᵀ) (b := obsHᵀ) hR hN
    (transposed_rest (phi12_det hdt hu))
  refine ⟨P, ⟨psd_symm h1, fun x hx => ?_⟩, fun ks hk h0 => ?_⟩
  · obtain ⟨v, hv⟩ := ric_eq (a := (phi u dt)ᵀ) (b := obsHᵀ) (q := addedNoise dt) hR h1 x
    rw [h2] at hv
    rw [hv]
    have := pd_pos hN hx
    have := psd_nonneg hR.posSemidef v
    have := psd_nonneg h1 ((phi u dt)ᵀ *ᵥ x + obsHᵀ *ᵥ v)
    linarith
  · refine (h3 _ (covariance_psd.1 h0)).congr fun n => ?_
    exact (regular_P hk hdt h0 n).2.symm

/-- Regular operation is possible with any readings of the star tracker. -/
theorem regular_exists (u : V3) (dt : ℝ) (hdt : 0 < dt) (k : Att.Kalman) (h : Covariance k.P) :
    ∃ ks, Spec.Regular u dt ks ∧ ks 0 = k := by
  have hstep : ∀ k : { k : Att.Kalman // Covariance k.P }, ∃ k' : { k : Att.Kalman // Covariance k.P },
      ∃ q w m, k.1.measurement q = .ok m ∧ w - m.b = u ∧ k'.1 = m.propagate w dt := by
    intro k
    have e := measurement_eq k.2 ![1, 0, 0, 0]
    refine ⟨⟨_, ?_⟩, ![1, 0, 0, 0], _, _, e, add_sub_cancel_right u _, rfl⟩
    exact (C81_propagate _ (kpost_cov k.2 attR_strict) _ dt hdt).weaken
  choose f hf using hstep
  refine ⟨fun n => (f^[n] ⟨k, h⟩).1, fun n => ?_, rfl⟩
  obtain ⟨q, w, m, h1, h2, h3⟩ := hf (f^[n] ⟨k, h⟩)
  exact ⟨q, w, m, h1, h2, by simp only [Function.iterate_succ_apply']; exact h3⟩

/-- A positive definite form bounds every linear functional. -/
theorem pd_functional {n : Type} [Fintype n] [DecidableEq n] {q : Matrix n n ℝ} (hq : q.PosDef) (e : n → ℝ) :
    ∃ c, 0 < c ∧ ∀ y : n → ℝ, c * (e ⬝ᵥ y) ^ 2 ≤ y ⬝ᵥ q *ᵥ y := by
  have hu : IsUnit q.det := isUnit_iff_ne_zero.2 hq.det_pos.ne'
  set d := (q⁻¹ *ᵥ e) ⬝ᵥ q *ᵥ (q⁻¹ *ᵥ e) with hd
  have hd0 : 0 ≤ d := psd_nonneg hq.posSemidef _
  refine ⟨(d + 1)⁻¹, by positivity, fun y => ?_⟩
  have h := psd_cauchy hq.posSemidef (q⁻¹ *ᵥ e) y
  have e1 : (q⁻¹ *ᵥ e) ⬝ᵥ q *ᵥ y = e ⬝ᵥ y := by
    rw [Matrix.dotProduct_mulVec, ← Matrix.mulVec_transpose, psd_symm hq.posSemidef, Matrix.mulVec_mulVec,
      Matrix.mul_nonsing_inv _ hu, Matrix.one_mulVec]
  rw [e1, ← hd] at h
  have hy := psd_nonneg hq.posSemidef y
  rw [inv_mul_le_iff₀ (by positivity)]
  nlinarith

/-- C164: with whole turns between the readings the filter is blind to the bias across the axis: its variance
grows without bound, from every covariance at first and whatever is read. -/
theorem C164_blind (u : V3) (dt : ℝ) (hdt : 0 < dt) (hu : u ≠ 0) (hc : Real.cos (npNorm u * dt) = 1) (b : V3)
    (hb : b ≠ 0) (hbu : u ⬝ᵥ b = 0) (ks : ℕ → Att.Kalman) (hk : Spec.Regular u dt ks) (h0 : Covariance (ks 0).P) :
    Tendsto (fun n => Sum.elim 0 b ⬝ᵥ (ks n).P *ᵥ Sum.elim 0 b) atTop atTop := by
  have hn : npNorm u ≠ 0 := fun h => hu (npNorm_eq_zero.1 h)
  have hs : Real.sin (npNorm u * dt) = 0 := by
    have := Real.sin_sq_add_cos_sq (npNorm u * dt)
    rw [hc] at this
    exact pow_eq_zero_iff two_ne_zero |>.1 (by linarith)
  have hphi : phi12 u dt *ᵥ b = 0 := by
    have hX : cross u *ᵥ (cross u *ᵥ b) = -(npNorm u ^ 2) • b := by
      rw [npNorm3_sq]
      rw [Matrix.vec3_dotProduct] at hbu
      refine vec3_ext ?_ ?_ ?_ <;> simp [cross, Matrix.mulVec, dotProduct, Fin.sum_univ_three]
      · linear_combination u 0 * hbu
      · linear_combination u 1 * hbu
      · linear_combination u 2 * hbu
    rw [phi12_eq hn, hc, hs, Matrix.add_mulVec, Matrix.add_mulVec, Matrix.smul_mulVec, Matrix.smul_mulVec,
      Matrix.smul_mulVec, Matrix.one_mulVec, ← Matrix.mulVec_mulVec, hX, sub_self, zero_div, zero_smul, add_zero,
      sub_zero, smul_smul, ← add_smul]
    have : -dt + -(npNorm u * dt / npNorm u ^ 3) * -(npNorm u ^ 2) = 0 := by field_simp; ring
    rw [this, zero_smul]
  set e : I6 → ℝ := Sum.elim 0 b with he
  have hN : (addedNoise dt).PosDef := strict_pd.1 (processNoise_strict hdt)
  have hR : Att.R.PosDef := strict_pd.1 attR_strict
  obtain ⟨c, hc0, hcN⟩ := pd_functional hN e
  have hkeep : ∀ (x : I6 → ℝ) (v : V3), e ⬝ᵥ ((phi u dt)ᵀ *ᵥ x + obsHᵀ *ᵥ v) = e ⬝ᵥ x := by
    intro x v
    have h1 : phi u dt *ᵥ e = e := by
      rw [phi, he, Matrix.fromBlocks_mulVec]
      simp [hphi]
    have h2 : obsH *ᵥ e = 0 := by
      rw [obsH, he, Matrix.fromCols_mulVec]
      simp
    rw [dotProduct_add, Matrix.dotProduct_mulVec, Matrix.dotProduct_mulVec, Matrix.vecMul_transpose,
      Matrix.vecMul_transpose, h1, h2, zero_dotProduct, add_zero]
  have hbound : ∀ n : ℕ, ∀ x, n * c * (e ⬝ᵥ x) ^ 2 ≤ x ⬝ᵥ (ks n).P *ᵥ x := by
    intro n
    induction n with
    | zero => intro x; simpa using h0.2 x
    | succ n ih =>
      intro x
      have hP := regular_P hk hdt h0
      rw [(hP (n + 1)).2, Function.iterate_succ_apply', ← (hP n).2]
      obtain ⟨v, hv⟩ := ric_eq (a := (phi u dt)ᵀ) (b := obsHᵀ) (q := addedNoise dt) hR (covariance_psd.1 (hP n).1) x
      rw [hv]
      have h1 := ih ((phi u dt)ᵀ *ᵥ x + obsHᵀ *ᵥ v)
      rw [hkeep] at h1
      have h2 := psd_nonneg hR.posSemidef v
      have h3 := hcN x
      push_cast
      linarith
  have hee : 0 < e ⬝ᵥ e := by
    obtain ⟨i, hi⟩ := Function.ne_iff.1 hb
    have h1 : e ⬝ᵥ e = ∑ i, b i * b i := by simp [he, dotProduct, Fintype.sum_sum_type]
    rw [h1]
    exact Finset.sum_pos' (fun j _ => mul_self_nonneg _) ⟨i, Finset.mem_univ i, mul_self_pos.2 hi⟩
  refine tendsto_atTop_mono (fun n => hbound n e) ?_
  have : Tendsto (fun n : ℕ => (n : ℝ) * (c * (e ⬝ᵥ e) ^ 2)) atTop atTop :=
    tendsto_natCast_atTop_atTop.atTop_mul_const (by positivity)
  refine this.congr fun n => by ring

/-- C164 fails for a satellite that turns once per second and is seen once per second. -/
theorem C164_steady_fails : ¬ C164_claim := by
  intro h
  have hn : npNorm (![2 * Real.pi, 0, 0] : V3) = 2 * Real.pi := by
    have : (![2 * Real.pi, 0, 0] : V3) = (2 * Real.pi) • ![1, 0, 0] := by
      refine vec3_ext ?_ ?_ ?_ <;> simp
    rw [this, npNorm_smul, npNorm_e1, mul_one, abs_of_pos (by positivity)]
  obtain ⟨P, -, hP⟩ := h ![2 * Real.pi, 0, 0] 1 one_pos
  obtain ⟨ks, hk, h0⟩ := regular_exists ![2 * Real.pi, 0, 0] 1 one_pos (Att.init ![1, 0, 0, 0])
    (init_strict _).weaken
  have h0' : Covariance (ks 0).P := by rw [h0]; exact (init_strict _).weaken
  have h1 := C164_blind ![2 * Real.pi, 0, 0] 1 one_pos
    (fun h => by rw [npNorm_eq_zero.2 h] at hn; linarith [Real.pi_pos]) (by rw [hn, mul_one, Real.cos_two_pi])
    ![0, 1, 0] (fun h => by simpa using congrFun h 1) (by simp) ks hk h0'
  exact not_tendsto_nhds_of_tendsto_atTop h1 _ (form_tendsto (hP ks hk h0') _)

/-- The hypotheses of `C164_settles_partial` hold for a satellite that turns once in ten seconds and is seen
once per second. -/
example : (![Real.pi / 5, 0, 0] : V3) = 0 ∨ Real.cos (npNorm (![Real.pi / 5, 0, 0] : V3) * 1) ≠ 1 := by
  have hn : npNorm (![Real.pi / 5, 0, 0] : V3) = Real.pi / 5 := by
    have : (![Real.pi / 5, 0, 0] : V3) = (Real.pi / 5) • ![1, 0, 0] := by
      refine vec3_ext ?_ ?_ ?_ <;> simp
    rw [this, npNorm_smul, npNorm_e1, mul_one, abs_of_pos (by positivity)]
  refine .inr fun h => ?_
  rw [hn, mul_one] at h
  have := Real.cos_lt_cos_of_nonneg_of_le_pi (x := 0) (y := Real.pi / 5) le_rfl (by linarith [Real.pi_pos])
    (by linarith [Real.pi_pos])
  rw [Real.cos_zero, h] at this
  exact lt_irrefl _ this

end Adcs
