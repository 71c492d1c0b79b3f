import Verif.Proofs.FilterSettle
import Verif.Proofs.AttError

set_option autoImplicit false

/-! # C166: exact readings lead the attitude filter to the truth -/

namespace Adcs

open Quat Vec Obs Att Filter Spec
open scoped Matrix Topology

/-- Specification: an attitude that turns at the constant rate `u`. -/
def Spec.TurnsSteadily (u : V3) (Q : ℝ → V4) : Prop :=
  IsUnit4 (Q 0) ∧ ∀ t, HasDerivAt Q ((0.5 : ℝ) • product (Q t) ![0, u 0, u 1, u 2]) t

/-- Specification: a filter that is given exact readings every `dt`: the star tracker reads the attitude and the
gyroscope reads the rate plus the bias. -/
def Spec.Tracks (u b : V3) (dt : ℝ) (Q : ℝ → V4) (ks : ℕ → Att.Kalman) : Prop :=
  ∀ n : ℕ, ∃ k, (ks n).measurement (Q (n * dt)) = .ok k ∧ ks (n + 1) = k.propagate (u + b) dt

/-- The claim: exact readings of a satellite that turns steadily lead the filter to the attitude and to the bias,
from every covariance, when the first errors are small and the bias can be told from the readings (C164). -/
def C166_claim : Prop :=
  ∀ (u b : V3) (dt : ℝ) (Q : ℝ → V4), 0 < dt → (u = 0 ∨ Real.cos (npNorm u * dt) ≠ 1) → Spec.TurnsSteadily u Q →
    ∀ P₀ : M6, Covariance P₀ → ∃ ε > 0, ∀ ks, Spec.Tracks u b dt Q ks → (ks 0).P = P₀ → (ks 0).dq = 0 →
      ‖(ks 0).q - Q 0‖ < ε → ‖(ks 0).b - b‖ < ε →
      Tendsto (fun n => (ks n).b) atTop (𝓝 b) ∧ Tendsto (fun n : ℕ => (ks n).q - Q (n * dt)) atTop (𝓝 0)

theorem turns_rest {Q : ℝ → V4} (h : Spec.TurnsSteadily 0 Q) (t : ℝ) : Q t = Q 0 := by
  rw [expq_unique h.2 t]
  have : expq 0 t = ![1, 0, 0, 0] := by
    have h0 : npNorm (0 : V3) = 0 := npNorm_eq_zero.2 rfl
    refine vec4_ext ?_ ?_ ?_ ?_ <;> simp [expq, h0]
  rw [this, product_one]

/-- A filter that is given exact readings of a satellite at rest follows the cycle of the errors. -/
theorem tracks_rest {b : V3} {dt : ℝ} {Q : ℝ → V4} {ks : ℕ → Att.Kalman} (hdt : 0 < dt) (hQ : Spec.TurnsSteadily 0 Q)
    (h : Spec.Tracks 0 b dt Q ks) (h0 : Covariance (ks 0).P) (hd : (ks 0).dq = 0) (n : ℕ) :
    Covariance (ks n).P ∧ (ks n).dq = 0 ∧ errOf (Q 0) b (ks n) = (cyc (Q 0) dt)^[n] (errOf (Q 0) b (ks 0)) := by
  induction n with
  | zero => exact ⟨h0, hd, rfl⟩
  | succ n ih =>
    obtain ⟨ih1, ih2, ih3⟩ := ih
    obtain ⟨k, h1, h2⟩ := h n
    rw [turns_rest hQ] at h1
    rw [zero_add] at h2
    refine ⟨?_, ?_, ?_⟩
    · have h1' := h1
      rw [measurement_eq ih1] at h1'
      rw [h2]
      refine (C81_propagate k ?_ b dt hdt).weaken
      rw [← Except.ok.inj h1']
      exact kpost_cov ih1 attR_strict
    · rw [measurement_eq ih1] at h1
      rw [h2, ← Except.ok.inj h1]
      rfl
    · rw [h2, cycle_err hQ.1 b dt ih1 ih2 h1, ih3, Function.iterate_succ_apply']

/-- C166, what holds: the filter of a satellite at rest finds the attitude and the bias, and its covariance settles.
Missing: a satellite that turns (`C166_converges_fails`, `C166_turning_fails`). -/
theorem C166_rest_partial (b : V3) (dt : ℝ) (Q : ℝ → V4) (hdt : 0 < dt) (hQ : Spec.TurnsSteadily 0 Q) :
    ∃ P : M6, StrictCovariance P ∧ ∀ P₀ : M6, Covariance P₀ → ∃ ε > 0, ∀ ks, Spec.Tracks 0 b dt Q ks →
      (ks 0).P = P₀ → (ks 0).dq = 0 → ‖(ks 0).q - Q 0‖ < ε → ‖(ks 0).b - b‖ < ε →
      Tendsto (fun n => (ks n).b) atTop (𝓝 b) ∧ Tendsto (fun n : ℕ => (ks n).q - Q (n * dt)) atTop (𝓝 0) ∧
        Tendsto (fun n => (ks n).P) atTop (𝓝 P) := by
  obtain ⟨P, hP, hset⟩ := cyc_settles hdt (Q 0)
  refine ⟨P, strict_pd.2 hP, fun P₀ h0 => ?_⟩
  have hev := hset P₀ (covariance_psd.1 h0)
  -- small errors of the estimates are a neighbourhood of none
  set F : V4 × V3 → Err := fun d => (product (conjugate (Q 0)) (Q 0 + d.1), d.2, P₀) with hF
  have hc : Continuous F := by
    refine Continuous.prodMk ?_ (Continuous.prodMk continuous_snd continuous_const)
    refine continuous_pi fun i => ?_
    fin_cases i <;> simp [product_0, product_1, product_2, product_3] <;> fun_prop
  have hF0 : F (0, 0) = errRest P₀ := by
    simp only [hF, add_zero, errRest, conj_product_self hQ.1]
  have h1 := hc.tendsto (0, 0)
  rw [hF0] at h1
  obtain ⟨ε, hε, h2⟩ := Metric.eventually_nhds_iff.1 (h1.eventually hev)
  refine ⟨ε, hε, fun ks hk hP0 hd hq hb => ?_⟩
  have hcov : Covariance (ks 0).P := by rw [hP0]; exact h0
  have hrun := tracks_rest hdt hQ hk hcov hd
  have h3 : Tendsto (fun n => errOf (Q 0) b (ks n)) atTop (𝓝 (errRest P)) := by
    have h4 : errOf (Q 0) b (ks 0) = F ((ks 0).q - Q 0, (ks 0).b - b) := by
      simp only [hF, errOf, add_sub_cancel, hP0]
    have h5 := h2 (y := ((ks 0).q - Q 0, (ks 0).b - b)) (by
      rw [Prod.dist_eq]
      exact max_lt (by rw [dist_zero_right]; exact hq) (by rw [dist_zero_right]; exact hb))
    rw [← h4] at h5
    exact h5.congr fun n => ((hrun n).2.2).symm
  refine ⟨?_, ?_, ?_⟩
  · have h4 : Tendsto (fun n => (ks n).b - b) atTop (𝓝 0) :=
      ((continuous_fst.comp continuous_snd).tendsto (errRest P)).comp h3
    simpa using h4.add_const b
  · have h4 : Tendsto (fun n => product (conjugate (Q 0)) (ks n).q) atTop (𝓝 ![1, 0, 0, 0]) :=
      (continuous_fst.tendsto (errRest P)).comp h3
    have hcp : Continuous fun y : V4 => product (Q 0) y - Q 0 := by
      refine continuous_pi fun i => ?_
      fin_cases i <;> simp [product_0, product_1, product_2, product_3] <;> fun_prop
    have h5 := (hcp.tendsto _).comp h4
    rw [product_one, sub_self] at h5
    refine h5.congr fun n => ?_
    show product (Q 0) (product (conjugate (Q 0)) (ks n).q) - Q 0 = _
    rw [← product_assoc, product_conj_self hQ.1, one_product, turns_rest hQ (n * dt)]
  · exact ((continuous_snd.comp continuous_snd).tendsto (errRest P)).comp h3

/-- Exact readings can be given to every filter. -/
theorem tracks_exists (u b : V3) {dt : ℝ} (hdt : 0 < dt) (Q : ℝ → V4) (k : Att.Kalman) (h : Covariance k.P) :
    ∃ ks, Spec.Tracks u b dt Q ks ∧ ks 0 = k := by
  have hstep : ∀ (n : ℕ) (k : { k : Att.Kalman // Covariance k.P }), ∃ k' : { k : Att.Kalman // Covariance k.P },
      ∃ m, k.1.measurement (Q (n * dt)) = .ok m ∧ k'.1 = m.propagate (u + b) dt := by
    intro n k
    have e := measurement_eq k.2 (Q (n * dt))
    refine ⟨⟨_, ?_⟩, _, e, rfl⟩
    exact (C81_propagate _ (kpost_cov k.2 attR_strict) _ dt hdt).weaken
  choose f hf using hstep
  refine ⟨fun n => (Nat.rec (motive := fun _ => { k : Att.Kalman // Covariance k.P }) ⟨k, h⟩ f n).1,
    fun n => ?_, rfl⟩
  exact hf n _

theorem normalize_le (v : V4) : normalizeV v 0 ^ 2 + normalizeV v 1 ^ 2 ≤ 1 := by
  rcases eq_or_ne v 0 with rfl | hv
  · have e : normalizeV (0 : V4) = 0 := by simp [normalizeV, npNorm_eq_zero]
    rw [e]; simp
  · have := npNorm4_sq (normalizeV v)
    rw [npNorm_normalize hv] at this
    nlinarith [sq_nonneg (normalizeV v 2), sq_nonneg (normalizeV v 3)]

theorem expq_turns (u : V3) : Spec.TurnsSteadily u (expq u) := ⟨expq_unit u 0, expq_deriv u⟩

/-- C166 fails for a satellite that makes half a turn between the readings: the filter starts from the truth and
does not stay there. -/
theorem C166_converges_fails : ¬ C166_claim := by
  intro h
  set u : V3 := ![Real.pi, 0, 0] with hu
  have hn : npNorm u = Real.pi := by
    have : u = Real.pi • ![1, 0, 0] := by refine vec3_ext ?_ ?_ ?_ <;> simp [hu]
    rw [this, npNorm_smul, npNorm_e1, mul_one, abs_of_pos Real.pi_pos]
  have hcov : Covariance (Att.init (expq u 0)).P := (init_strict _).weaken
  obtain ⟨ε, hε, hall⟩ := h u 0 1 (expq u) one_pos (.inr (by rw [hn, mul_one, Real.cos_pi]; norm_num))
    (expq_turns u) _ hcov
  obtain ⟨ks, hk, h0⟩ := tracks_exists u 0 one_pos (expq u) (Att.init (expq u 0)) hcov
  obtain ⟨hb, hq⟩ := hall ks hk (by rw [h0]) (by rw [h0]; rfl) (by rw [h0]; simpa [Att.init] using hε)
    (by rw [h0]; simpa [Att.init] using hε)
  have hP : ∀ n, Covariance (ks n).P := by
    intro n
    induction n with
    | zero => rw [h0]; exact hcov
    | succ n ih =>
      obtain ⟨k, h1, h2⟩ := hk n
      rw [measurement_eq ih] at h1
      rw [h2]
      refine (C81_propagate k ?_ _ 1 one_pos).weaken
      rw [← Except.ok.inj h1]
      exact kpost_cov ih attR_strict
  choose m hm1 hm2 using hk
  have hunit : ∀ n, (m n).q 0 ^ 2 + (m n).q 1 ^ 2 ≤ 1 := by
    intro n
    have := hm1 n
    rw [measurement_eq (hP n)] at this
    rw [← Except.ok.inj this]
    exact normalize_le _
  have hin : ∀ n, ∀ i, |(m n).q i| ≤ 1 := by
    intro n i
    have := hm1 n
    rw [measurement_eq (hP n)] at this
    rw [← Except.ok.inj this]
    set v := (ks n).q + (0.5 : ℝ) • (xi (ks n).q *ᵥ
      ((kgain (ks n).P Att.R obsH *ᵥ (vecPart (errorQuat (expq u (n * 1)) (ks n).q) - (ks n).dq)) ∘ Sum.inl))
    refine (abs_le_npNorm (normalizeV v) i).trans ?_
    rcases eq_or_ne v 0 with h | h
    · have e : normalizeV v = 0 := by rw [h]; simp [normalizeV, npNorm_eq_zero]
      rw [e, npNorm_eq_zero.2 rfl]; norm_num
    · exact (npNorm_normalize h).le
  -- the rate used by the filter
  have hw : Tendsto (fun n => u + 0 - (m n).b) atTop (𝓝 u) := by
    have h1 : Tendsto (fun n => (ks (n + 1)).b) atTop (𝓝 0) := hb.comp (tendsto_add_atTop_nat 1)
    have h2 : Tendsto (fun n => u + 0 - (ks (n + 1)).b) atTop (𝓝 (u + 0 - 0)) := tendsto_const_nhds.sub h1
    rw [add_zero, sub_zero] at h2
    refine h2.congr fun n => ?_
    rw [hm2 n]
    simp [Kalman.propagate]
  set w : ℕ → V3 := fun n => u + 0 - (m n).b with hwd
  have hwn : Tendsto (fun n => npNorm (w n) * 1 * 0.5) atTop (𝓝 (Real.pi / 2)) := by
    have := (((npNorm_continuous.tendsto u).comp hw).mul_const 1).mul_const 0.5
    rw [hn] at this
    refine this.trans_eq ?_
    congr 1; ring
  have hc : Tendsto (fun n => Real.cos (npNorm (w n) * 1 * 0.5)) atTop (𝓝 0) := by
    have := (Real.continuous_cos.tendsto _).comp hwn
    rwa [Real.cos_pi_div_two] at this
  have hs : Tendsto (fun n => Real.sinc (npNorm (w n) * 1 * 0.5)) atTop (𝓝 (2 / Real.pi)) := by
    have := (Real.continuous_sinc.tendsto _).comp hwn
    rw [Real.sinc_of_ne_zero (by positivity), Real.sin_pi_div_two] at this
    refine this.trans_eq ?_
    congr 1; field_simp
  have hp : ∀ i, Tendsto (fun n => psi (w n) 1 i) atTop (𝓝 ((![1, 0, 0] : V3) i)) := by
    intro i
    have h1 := (hs.const_mul (1 / 2)).mul ((tendsto_pi_nhds.1 hw) i)
    refine (h1.congr fun n => (psi_eq _ _ one_ne_zero i).symm).trans_eq ?_
    congr 1
    have := Real.pi_pos.ne'
    fin_cases i <;> simp [hu]
    field_simp
  have hp0 : Tendsto (fun n => psi (w n) 1 0 - 1) atTop (𝓝 0) := by
    have := (hp 0).sub_const 1
    simpa using this
  have hp1 : Tendsto (fun n => psi (w n) 1 1) atTop (𝓝 0) := by simpa using hp 1
  have hp2 : Tendsto (fun n => psi (w n) 1 2) atTop (𝓝 0) := by simpa using hp 2
  have hz : ∀ {f : ℕ → ℝ} (i : Fin 4), Tendsto f atTop (𝓝 0) → Tendsto (fun n => f n * (m n).q i) atTop (𝓝 0) := by
    intro f i hf
    refine squeeze_zero_norm (fun n => ?_) ((tendsto_zero_iff_abs_tendsto_zero _).1 hf)
    rw [Real.norm_eq_abs, abs_mul]
    exact mul_le_of_le_one_right (abs_nonneg _) (hin n i)
  have hf : Tendsto (fun n => (ks (n + 1)).q 0 + (m n).q 1) atTop (𝓝 0) := by
    have := (hz 0 hc).sub (((hz 1 hp0).add (hz 2 hp1)).add (hz 3 hp2))
    simp only [add_zero, sub_zero] at this
    refine this.congr fun n => ?_
    rw [hm2 n]
    show _ = (omega (w n) 1 *ᵥ (m n).q) 0 + _
    rw [omega_eq]
    simp [product_0]
    ring
  have hg : Tendsto (fun n => (ks (n + 1)).q 1 - ((m n).q 0 + (m n).q 1)) atTop (𝓝 0) := by
    have := (hz 0 hp0).add ((hz 2 hp2).sub (hz 3 hp1))
    simp only [add_zero, sub_zero] at this
    refine this.congr fun n => ?_
    rw [hm2 n]
    show _ = (omega (w n) 1 *ᵥ (m n).q) 1 - _
    rw [omega_eq]
    simp [product_1]
    ring
  -- every other reading
  have hsub : Tendsto (fun j : ℕ => 2 * j + 1) atTop atTop :=
    tendsto_atTop_mono (fun j => by show j ≤ _; omega) tendsto_id
  have hsub' : Tendsto (fun j : ℕ => 2 * j + 1 + 1) atTop atTop :=
    tendsto_atTop_mono (fun j => by show j ≤ _; omega) tendsto_id
  have hq0 : Tendsto (fun j : ℕ => (ks (2 * j + 1 + 1)).q 0 - (-1) ^ (j + 1)) atTop (𝓝 0) := by
    have := (tendsto_pi_nhds.1 (hq.comp hsub')) 0
    refine this.congr fun j => ?_
    have e : expq u (((2 * j + 1 + 1 : ℕ) : ℝ) * 1) 0 = (-1) ^ (j + 1) := by
      simp only [expq, hn, Matrix.cons_val_zero]
      rw [← Real.cos_nat_mul_pi (j + 1)]
      congr 1; push_cast; ring
    show _ - expq u _ 0 = _
    rw [e]
  have hq1 : Tendsto (fun j : ℕ => (ks (2 * j + 1 + 1)).q 1) atTop (𝓝 0) := by
    have := (tendsto_pi_nhds.1 (hq.comp hsub')) 1
    refine this.congr fun j => ?_
    have e : expq u (((2 * j + 1 + 1 : ℕ) : ℝ) * 1) 1 = 0 := by
      have : Real.sin (Real.pi * (((2 * j + 1 + 1 : ℕ) : ℝ) * 1 / 2)) = 0 := by
        rw [← Real.sin_nat_mul_pi (j + 1)]
        congr 1; push_cast; ring
      have e2 : expq u (((2 * j + 1 + 1 : ℕ) : ℝ) * 1) 1
          = Real.sin (npNorm u * (((2 * j + 1 + 1 : ℕ) : ℝ) * 1 / 2)) / npNorm u * u 0 := rfl
      rw [e2, hn, this, zero_div, zero_mul]
    show _ - expq u _ 1 = _
    rw [e, sub_zero]
  have hm1' : Tendsto (fun j : ℕ => (m (2 * j + 1)).q 1 + (-1) ^ (j + 1)) atTop (𝓝 0) := by
    have := (hf.comp hsub).sub hq0
    rw [sub_zero] at this
    refine this.congr fun j => ?_
    show (ks (2 * j + 1 + 1)).q 0 + (m (2 * j + 1)).q 1 - _ = _
    ring
  have hm0' : Tendsto (fun j : ℕ => (m (2 * j + 1)).q 0 - (-1) ^ (j + 1)) atTop (𝓝 0) := by
    have := (hq1.sub (hg.comp hsub)).sub hm1'
    simp only [sub_zero] at this
    refine this.congr fun j => ?_
    show (ks (2 * j + 1 + 1)).q 1 - ((ks (2 * j + 1 + 1)).q 1 - ((m (2 * j + 1)).q 0 + (m (2 * j + 1)).q 1)) - _ = _
    ring
  obtain ⟨j, hj1, hj2⟩ := ((hm1'.abs.eventually_lt_const (u := 1 / 8) (by simp)).and
    (hm0'.abs.eventually_lt_const (u := 1 / 8) (by simp))).exists
  have hun := hunit (2 * j + 1)
  rw [abs_lt] at hj1 hj2
  rcases neg_one_pow_eq_or ℝ (j + 1) with e | e
  · rw [e] at hj1 hj2; nlinarith
  · rw [e] at hj1 hj2; nlinarith

/-- A filter as the code creates it meets the hypotheses of `C166_rest_partial`. -/
example : ∃ ks, Spec.Tracks 0 0 1 (fun _ => ![0, 1, 0, 0]) ks ∧ ks 0 = Att.init ![0, 1, 0, 0] ∧
    Spec.TurnsSteadily 0 (fun _ => ![0, 1, 0, 0]) := by
  obtain ⟨ks, h1, h2⟩ := tracks_exists 0 0 one_pos (fun _ => ![0, 1, 0, 0]) (Att.init ![0, 1, 0, 0])
    (init_strict _).weaken
  refine ⟨ks, h1, h2, by simp [IsUnit4], fun t => ?_⟩
  refine (hasDerivAt_const t _).congr_deriv ?_
  refine vec4_ext ?_ ?_ ?_ ?_ <;> simp [product_0, product_1, product_2, product_3]

end Adcs
