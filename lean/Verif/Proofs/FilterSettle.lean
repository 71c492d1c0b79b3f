import Verif.Proofs.FilterLinear
import Verif.Proofs.Instability

set_option autoImplicit false

/-! # The errors of the attitude filter of a satellite at rest die out -/

namespace Adcs

open Quat Vec Obs Att Filter Spec Asymptotics
open scoped Matrix Topology

/-- Index of the stacked errors. -/
abbrev IE := (Fin 4 ⊕ Fin 3) ⊕ (I6 × I6)

/-- The errors relative to `errRest P` in one vector; those of the estimate are weighted by `M`. -/
def stackE (M : ℝ) (P : M6) (X : Err) : IE → ℝ :=
  Sum.elim (M • Sum.elim (X.1 - ![1, 0, 0, 0]) X.2.1) fun ij => (X.2.2 - P) ij.1 ij.2

/-- The covariance part of a stacked vector. -/
def covPart (x : IE → ℝ) : M6 := Matrix.of fun i j => x (Sum.inr (i, j))

/-- The inverse of `stackE`. -/
noncomputable def unstackE (M : ℝ) (P : M6) (x : IE → ℝ) : Err :=
  (![1, 0, 0, 0] + M⁻¹ • fun i => x (Sum.inl (Sum.inl i)), M⁻¹ • fun i => x (Sum.inl (Sum.inr i)), P + covPart x)

theorem stackE_att (M : ℝ) (P : M6) (X : Err) (i : Fin 4) :
    stackE M P X (Sum.inl (Sum.inl i)) = M * (X.1 i - (![1, 0, 0, 0] : V4) i) := rfl

theorem stackE_bias (M : ℝ) (P : M6) (X : Err) (i : Fin 3) :
    stackE M P X (Sum.inl (Sum.inr i)) = M * X.2.1 i := rfl

theorem unstack_stack {M : ℝ} (hM : M ≠ 0) (P : M6) (X : Err) : unstackE M P (stackE M P X) = X := by
  refine Prod.ext ?_ (Prod.ext ?_ ?_)
  · funext i
    show (![1, 0, 0, 0] : V4) i + M⁻¹ * (M * (X.1 i - (![1, 0, 0, 0] : V4) i)) = X.1 i
    rw [inv_mul_cancel_left₀ hM]; ring
  · funext i
    show M⁻¹ * (M * X.2.1 i) = X.2.1 i
    rw [inv_mul_cancel_left₀ hM]
  · ext i j
    simp [unstackE, stackE, covPart]

theorem unstack_zero (M : ℝ) (P : M6) : unstackE M P 0 = errRest P := by
  refine Prod.ext ?_ (Prod.ext ?_ ?_)
  · funext i
    show (![1, 0, 0, 0] : V4) i + M⁻¹ * 0 = (![1, 0, 0, 0] : V4) i
    ring
  · funext i
    show M⁻¹ * 0 = (0 : ℝ)
    ring
  · ext i j
    simp [unstackE, errRest, covPart]

theorem unstack_continuous (M : ℝ) (P : M6) : Continuous (unstackE M P) := by
  refine Continuous.prodMk ?_ (Continuous.prodMk ?_ ?_)
  · refine continuous_pi fun i => ?_
    simp only [Pi.add_apply, Pi.smul_apply, smul_eq_mul]
    fun_prop
  · refine continuous_pi fun i => ?_
    simp only [Pi.smul_apply, smul_eq_mul]
    fun_prop
  · refine continuous_pi fun i => continuous_pi fun j => ?_
    simp only [Matrix.add_apply, covPart, Matrix.of_apply]
    fun_prop

/-- The linear part of a cycle. -/
noncomputable def linE (α h k : ℝ) (A : M6) : (IE → ℝ) →ₗ[ℝ] IE → ℝ where
  toFun x := Sum.elim
    (Sum.elim (Fin.cons 0 fun i : Fin 3 => α * x (Sum.inl (Sum.inl i.succ)) - h * x (Sum.inl (Sum.inr i)) : Fin 4 → ℝ)
      fun i => x (Sum.inl (Sum.inr i)) - k * x (Sum.inl (Sum.inl i.succ)))
    fun ij => (A * covPart x * Aᵀ) ij.1 ij.2
  map_add' x y := by
    have e : covPart (x + y) = covPart x + covPart y := rfl
    funext i
    rcases i with (i | i) | ⟨i, j⟩
    · refine Fin.cases ?_ (fun i => ?_) i
      · simp
      · simp; ring
    · simp; ring
    · simp [e, Matrix.mul_add, Matrix.add_mul]
  map_smul' c x := by
    have e : covPart (c • x) = c • covPart x := rfl
    funext i
    rcases i with (i | i) | ⟨i, j⟩
    · refine Fin.cases ?_ (fun i => ?_) i
      · simp
      · simp; ring
    · simp; ring
    · simp [e]

theorem linE_0 (α h k : ℝ) (A : M6) (x : IE → ℝ) : linE α h k A x (Sum.inl (Sum.inl 0)) = 0 := rfl

theorem linE_att (α h k : ℝ) (A : M6) (x : IE → ℝ) (i : Fin 3) : linE α h k A x (Sum.inl (Sum.inl i.succ))
    = α * x (Sum.inl (Sum.inl i.succ)) - h * x (Sum.inl (Sum.inr i)) := rfl

theorem linE_bias (α h k : ℝ) (A : M6) (x : IE → ℝ) (i : Fin 3) : linE α h k A x (Sum.inl (Sum.inr i))
    = x (Sum.inl (Sum.inr i)) - k * x (Sum.inl (Sum.inl i.succ)) := rfl

theorem powers_tendsto {A : M6} (h : ∀ x : I6 → ℝ, Tendsto (fun k => (Aᵀ ^ k) *ᵥ x) atTop (𝓝 0)) :
    Tendsto (fun k => A ^ k) atTop (𝓝 0) := by
  refine tendsto_pi_nhds.2 fun i => tendsto_pi_nhds.2 fun j => ?_
  refine ((tendsto_pi_nhds.1 (h (Pi.single i 1))) j).congr fun k => ?_
  rw [Matrix.mulVec_single_one, Matrix.col_apply, ← Matrix.transpose_pow, Matrix.transpose_apply]

theorem linE_decay {α h k p : ℝ} {A : M6} (hp : α - h * k = p) (hp1 : |p| < 1) (ht : |α + 1| < 1 + p)
    (hA : Tendsto (fun k => A ^ k) atTop (𝓝 0)) (x : IE → ℝ) :
    Tendsto (fun n => ((LinearMap.toMatrix' (linE α h k A)) ^ n) *ᵥ x) atTop (𝓝 0) := by
  set y : ℕ → IE → ℝ := fun n => ((LinearMap.toMatrix' (linE α h k A)) ^ n) *ᵥ x with hy
  have step : ∀ n, y (n + 1) = linE α h k A (y n) := fun n => by
    rw [hy]
    simp only [pow_succ', ← Matrix.mulVec_mulVec]
    rw [← Matrix.toLin'_apply, Matrix.toLin'_toMatrix']
  have hd : ∀ n (i : Fin 3), y (n + 1) (Sum.inl (Sum.inl i.succ))
      = α * y n (Sum.inl (Sum.inl i.succ)) - h * y n (Sum.inl (Sum.inr i)) := fun n i => by
    rw [step]; simp [linE]
  have hb : ∀ n (i : Fin 3), y (n + 1) (Sum.inl (Sum.inr i))
      = y n (Sum.inl (Sum.inr i)) - k * y n (Sum.inl (Sum.inl i.succ)) := fun n i => by
    rw [step]; simp [linE]
  refine tendsto_pi_nhds.2 fun i => ?_
  rcases i with (i | i) | ⟨i, j⟩
  · refine Fin.cases ?_ (fun i => ?_) i
    · refine (tendsto_add_atTop_iff_nat 1).1 (tendsto_const_nhds.congr fun n => ?_)
      rw [step]; simp [linE]
    · refine recurrence_tendsto hp1 ht fun n => ?_
      rw [hd (n + 1), hb n, hd n, ← hp]; ring
  · refine recurrence_tendsto hp1 ht fun n => ?_
    rw [hb (n + 1), hb n, hd n, ← hp]; ring
  · have hc : ∀ n, covPart (y n) = A ^ n * covPart (y 0) * (A ^ n)ᵀ := by
      intro n
      induction n with
      | zero => simp
      | succ n ih =>
        have : covPart (y (n + 1)) = A * covPart (y n) * Aᵀ := by
          rw [step]; ext i j; simp [linE, covPart]
        rw [this, ih, pow_succ', Matrix.transpose_mul]
        simp only [Matrix.mul_assoc]
    have hcont : Continuous fun z : M6 => z * covPart (y 0) * zᵀ :=
      (continuous_id.matrix_mul continuous_const).matrix_mul continuous_id.matrix_transpose
    have h1 := (hcont.tendsto 0).comp hA
    rw [Matrix.zero_mul, Matrix.zero_mul] at h1
    refine ((tendsto_pi_nhds.1 (tendsto_pi_nhds.1 h1 i)) j).congr fun n => ?_
    show (A ^ n * covPart (y 0) * (A ^ n)ᵀ) i j = _
    rw [← hc]; rfl

theorem gE_le {M : ℝ} (hM : 0 < M) (P : M6) (X : Err) : M * gE X ≤ 2 * ‖stackE M P X‖ := by
  have h1 : M * ‖X.1 - ![1, 0, 0, 0]‖ ≤ ‖stackE M P X‖ := by
    rw [← Real.norm_of_nonneg hM.le, ← norm_smul, pi_norm_le_iff_of_nonneg (norm_nonneg _)]
    intro i
    have := norm_le_pi_norm (stackE M P X) (Sum.inl (Sum.inl i))
    simpa [stackE, abs_of_pos hM] using this
  have h2 : M * ‖X.2.1‖ ≤ ‖stackE M P X‖ := by
    rw [← Real.norm_of_nonneg hM.le, ← norm_smul, pi_norm_le_iff_of_nonneg (norm_nonneg _)]
    intro i
    have := norm_le_pi_norm (stackE M P X) (Sum.inl (Sum.inr i))
    simpa [stackE, abs_of_pos hM] using this
  rw [gE]; linarith

theorem gP_le (M : ℝ) (P : M6) (X : Err) : gP P X ≤ ‖stackE M P X‖ := by
  rw [gP, pi_norm_le_iff_of_nonneg (norm_nonneg _)]
  intro ij
  exact norm_le_pi_norm (stackE M P X) (Sum.inr ij)

/-- Near its fixed point a cycle follows its linear part. -/
theorem cyc_close {P : M6} {k1 k2 : ℝ} (hP : P.PosSemidef)
    (hK : kgain P Att.R obsH = Matrix.fromRows (k1 • (1 : M3)) (k2 • (1 : M3))) {dt : ℝ} (hdt : 0 < dt) (q : V4)
    (hfix : ric (phi 0 dt)ᵀ obsHᵀ (addedNoise dt) Att.R P = P) {κ : ℝ} (hκ : 0 < κ) :
    ∃ M > 0, ∀ᶠ X in 𝓝 (errRest P), ‖stackE M P (cyc q dt X)
      - linE (1 - k1 / 2 + dt * k2 / 2) (dt / 2) k2 (loopA dt P) (stackE M P X)‖ ≤ κ * ‖stackE M P X‖ := by
  have hb : ∀ ij : I6 × I6, ∃ C, ∀ᶠ X in 𝓝 (errRest P), |covTurn dt X ij.1 ij.2| ≤ C * gE X := by
    intro ij
    obtain ⟨C, hC⟩ := (covTurn_bo hP hK hdt ij.1 ij.2).bound
    refine ⟨C, hC.mono fun X h => ?_⟩
    rwa [Real.norm_eq_abs, Real.norm_of_nonneg (by rw [gE]; positivity)] at h
  choose C hC using hb
  set S := ∑ ij, |C ij| with hS
  have hS0 : 0 ≤ S := Finset.sum_nonneg fun _ _ => abs_nonneg _
  set M := 4 * (S + 1) / κ with hM
  have hM0 : 0 < M := by positivity
  have hκ2 : 0 < κ / 2 := by positivity
  refine ⟨M, hM0, ?_⟩
  have c0 := (cyc_0_lo hP hK hdt.ne' q).bound hκ2
  have cv := eventually_all.2 fun i => (cyc_v_lo hP hK hdt.ne' q i).bound hκ2
  have cb := eventually_all.2 fun i => (cB_lo hP hK i).bound hκ2
  have ct := eventually_all.2 hC
  have cg := eventually_all.2 fun ij : I6 × I6 => (covGain_lo hP dt ij.1 ij.2).bound hκ2
  filter_upwards [c0, cv, cb, ct, cg, cov_split hP q hfix] with X h0 hv hβ ht hg hs
  have gE0 : 0 ≤ gE X := by rw [gE]; positivity
  have gP0 : 0 ≤ gP P X := norm_nonneg _
  have e1 := gE_le hM0 P X
  have e2 := gP_le M P X
  have hX0 := norm_nonneg (stackE M P X)
  have fin : ∀ {a : ℝ}, |a| ≤ κ / 2 * gE X → |M * a| ≤ κ * ‖stackE M P X‖ := by
    intro a ha
    rw [abs_mul, abs_of_pos hM0]
    calc M * |a| ≤ M * (κ / 2 * gE X) := mul_le_mul_of_nonneg_left ha hM0.le
      _ = κ / 2 * (M * gE X) := by ring
      _ ≤ κ / 2 * (2 * ‖stackE M P X‖) := mul_le_mul_of_nonneg_left e1 hκ2.le
      _ = _ := by ring
  rw [pi_norm_le_iff_of_nonneg (by positivity)]
  intro i
  rw [Real.norm_eq_abs]
  rcases i with (i | i) | ij
  · refine Fin.cases ?_ (fun i => ?_) i
    · rw [Real.norm_eq_abs, Real.norm_of_nonneg gE0] at h0
      refine le_of_eq_of_le ?_ (fin h0)
      congr 1
      rw [Pi.sub_apply, linE_0, stackE_att, sub_zero]
      rfl
    · have := hv i
      rw [Real.norm_eq_abs, Real.norm_of_nonneg gE0] at this
      refine le_of_eq_of_le ?_ (fin this)
      congr 1
      have e : (![1, 0, 0, 0] : V4) i.succ = 0 := by fin_cases i <;> rfl
      have e' : X.1 i.succ = vecPart X.1 i := by fin_cases i <;> rfl
      rw [Pi.sub_apply, linE_att, stackE_att, stackE_att, stackE_bias, e, e']
      ring
  · have := hβ i
    rw [Real.norm_eq_abs, Real.norm_of_nonneg gE0] at this
    refine le_of_eq_of_le ?_ (fin this)
    congr 1
    have e : (![1, 0, 0, 0] : V4) i.succ = 0 := by fin_cases i <;> rfl
    have e' : X.1 i.succ = vecPart X.1 i := by fin_cases i <;> rfl
    have e3 : (cyc q dt X).2.1 i = cB X i := rfl
    rw [Pi.sub_apply, linE_bias, stackE_bias, stackE_bias, stackE_att, e, e', e3]
    ring
  · have h1 := ht ij
    have h2 := hg ij
    rw [Real.norm_eq_abs, Real.norm_of_nonneg gP0] at h2
    have e : (stackE M P (cyc q dt X)
        - linE (1 - k1 / 2 + dt * k2 / 2) (dt / 2) k2 (loopA dt P) (stackE M P X)) (Sum.inr ij)
        = covTurn dt X ij.1 ij.2 + covGain dt P X ij.1 ij.2 := by
      have ec : covPart (stackE M P X) = X.2.2 - P := by ext i j; simp [covPart, stackE]
      have es : stackE M P (cyc q dt X) (Sum.inr ij) = ((cyc q dt X).2.2 - P) ij.1 ij.2 := rfl
      have el : linE (1 - k1 / 2 + dt * k2 / 2) (dt / 2) k2 (loopA dt P) (stackE M P X) (Sum.inr ij)
          = (loopA dt P * (X.2.2 - P) * (loopA dt P)ᵀ) ij.1 ij.2 := by rw [← ec]; rfl
      rw [Pi.sub_apply, es, el, hs]
      simp only [Matrix.add_apply]
      ring
    rw [e]
    have h3 : C ij ≤ S := (le_abs_self _).trans (Finset.single_le_sum (f := fun ij => |C ij|)
      (fun _ _ => abs_nonneg _) (Finset.mem_univ ij))
    have h4 : |covTurn dt X ij.1 ij.2| ≤ κ / 2 * ‖stackE M P X‖ := by
      have h5 : (S + 1) * gE X ≤ κ / 2 * ‖stackE M P X‖ := by
        have : M * gE X * (κ / 4) = (S + 1) * gE X := by rw [hM]; field_simp
        rw [← this]
        nlinarith
      nlinarith
    have h6 := abs_add_le (covTurn dt X ij.1 ij.2) (covGain dt P X ij.1 ij.2)
    nlinarith

/-- The errors of the filter of a satellite at rest die out, when they are small at first. -/
theorem cyc_settles {dt : ℝ} (hdt : 0 < dt) (q : V4) : ∃ P : M6, P.PosDef ∧ ∀ P₀ : M6, P₀.PosSemidef →
    ∀ᶠ X in 𝓝 (errRest P₀), Tendsto (fun n => (cyc q dt)^[n] X) atTop (𝓝 (errRest P)) := by
  obtain ⟨a, b, c, hpd, hfix, hlim⟩ := rest_limit hdt
  obtain ⟨ha, hS, hb, hk⟩ := rest_gains hdt hpd hfix
  have hR : Att.R.PosDef := strict_pd.1 attR_strict
  have hN : (addedNoise dt).PosDef := strict_pd.1 (processNoise_strict hdt)
  have hK := kgain_blk (b := b) (c := c) hS.ne'
  set P := blk a b c with hPd
  set k1 := a / (a + sensorSigma ^ 2) with hk1
  set k2 := b / (a + sensorSigma ^ 2) with hk2
  have hP := hpd.posSemidef
  have k1p : 0 < k1 := div_pos ha hS
  have k1l : k1 < 1 := by
    rw [hk1, div_lt_one hS]
    have : 0 < sensorSigma ^ 2 := by norm_num [sensorSigma]
    linarith
  have k2n : k2 < 0 := div_neg_of_neg_of_pos hb hS
  rw [abs_of_neg k2n] at hk
  have hdk : 0 < dt * -k2 := by
    have : 0 < -k2 := by linarith
    positivity
  have hA := powers_tendsto fun x => loopA_stable hdt hP hfix x
  obtain ⟨κ, hκ, c', hc', hset⟩ := settles_of_decay
    (LinearMap.toMatrix' (linE (1 - k1 / 2 + dt * k2 / 2) (dt / 2) k2 (loopA dt P)))
    (linE_decay (p := 1 - k1 / 2) (by ring) (by rw [abs_lt]; constructor <;> linarith)
      (by rw [abs_lt]; constructor <;> nlinarith) hA)
  obtain ⟨M, hM, hclose⟩ := cyc_close hP hK hdt q hfix hκ
  -- a ball of stacked errors where the cycle follows its linear part
  have hball : ∃ η > 0, ∀ x : IE → ℝ, ‖x‖ ≤ η → ‖stackE M P (cyc q dt (unstackE M P x))
      - linE (1 - k1 / 2 + dt * k2 / 2) (dt / 2) k2 (loopA dt P) (stackE M P (unstackE M P x))‖
        ≤ κ * ‖stackE M P (unstackE M P x)‖ := by
    have h1 := (unstack_continuous M P).tendsto 0
    rw [unstack_zero] at h1
    obtain ⟨ε, hε, h2⟩ := Metric.eventually_nhds_iff.1 (h1.eventually hclose)
    refine ⟨ε / 2, by positivity, fun x hx => h2 ?_⟩
    rw [dist_zero_right]; linarith
  obtain ⟨η, hη, hball⟩ := hball
  have hlocal : ∀ᶠ X in 𝓝 (errRest P), Tendsto (fun n => (cyc q dt)^[n] X) atTop (𝓝 (errRest P)) := by
    have hst : Continuous (stackE M P) := by
      refine continuous_pi fun i => ?_
      rcases i with (i | i) | ⟨i, j⟩
      · have : Continuous fun X : Err => M * (X.1 i - (![1, 0, 0, 0] : V4) i) := by fun_prop
        exact this
      · have : Continuous fun X : Err => M * X.2.1 i := by fun_prop
        exact this
      · have h1 : Continuous fun X : Err => X.2.2 i j :=
          (continuous_apply j).comp ((continuous_apply i).comp (continuous_snd.comp continuous_snd))
        exact h1.sub continuous_const
    have h0 : stackE M P (errRest P) = 0 := by
      funext i
      rcases i with (i | i) | ⟨i, j⟩ <;> simp [stackE, errRest]
    have h1 := hst.tendsto (errRest P)
    rw [h0] at h1
    have h2 : ∀ᶠ X in 𝓝 (errRest P), ‖stackE M P X‖ < η / c' := by
      have := h1.norm
      rw [norm_zero] at this
      exact this.eventually_lt_const (by positivity)
    filter_upwards [h2] with X hX
    have h3 := hset η (fun n => stackE M P ((cyc q dt)^[n] X)) (by
      rw [lt_div_iff₀ hc'] at hX
      simp only [Function.iterate_zero_apply]
      linarith) ⊤ (fun k _ hj => by
      have := hball _ (hj k le_rfl)
      rw [unstack_stack hM.ne'] at this
      rw [Function.iterate_succ_apply', ← Matrix.toLin'_apply, Matrix.toLin'_toMatrix']
      exact this)
    have h4 := ((unstack_continuous M P).tendsto 0).comp (h3.2 rfl)
    rw [unstack_zero] at h4
    refine h4.congr fun n => ?_
    exact unstack_stack hM.ne' P _
  refine ⟨P, hpd, fun P₀ h0 => ?_⟩
  set f := ric (phi 0 dt)ᵀ obsHᵀ (addedNoise dt) Att.R with hf
  have hn : ∀ n, Tendsto ((cyc q dt)^[n]) (𝓝 (errRest P₀)) (𝓝 (errRest (f^[n] P₀))) := by
    intro n
    induction n with
    | zero => exact tendsto_id
    | succ n ih =>
      rw [Function.iterate_succ', Function.iterate_succ_apply']
      exact (cyc_tendsto (iter_psd hR hN.posSemidef h0 n) q hdt).comp ih
  have hr : Tendsto (fun n => errRest (f^[n] P₀)) atTop (𝓝 (errRest P)) :=
    tendsto_const_nhds.prodMk_nhds (tendsto_const_nhds.prodMk_nhds (hlim P₀ h0))
  obtain ⟨n, hn'⟩ := (hr.eventually (eventually_eventually_nhds.2 hlocal)).exists
  filter_upwards [(hn n).eventually hn'] with X hX
  refine (tendsto_add_atTop_iff_nat n).1 (hX.congr fun k => ?_)
  rw [← Function.iterate_add_apply]

end Adcs
