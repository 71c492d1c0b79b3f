import Verif.Props.TrueLoop

set_option autoImplicit false

/-! # C184: the speeds of the wheels over whole runs of the simulation

`check_torque_vals` (FlightSoftwareModule.py lines 159-172) predicts the speed of a wheel at the next sample from the
torque on it, and changes a torque that would take the wheel past its greatest speed. The prediction leaves out that
the satellite, too, is turned by the wheels; the speed of a wheel is measured against the satellite. -/

namespace Adcs

open scoped Matrix Quaternion Topology
open Set Filter Sim Obs Lqr Spec

/-- C184: in all runs of the simulation with the gain of `get_gain_matrix` and without total angular momentum, no wheel
is ever faster at a sample than the greatest speed, if none is at the start. -/
def C184_claim : Prop :=
  ∀ (d : V3) (T e w : ℝ), (∀ i, 0 < d i) → 0 < T →
    ∀ (f₀ : Fsw) (xy z : ℝ) (t m : V4), GetGain (Matrix.diagonal d) T e w f₀.K →
      Aimed f₀ (wheelMatrix xy z) t m → f₀.updateTime = T →
      (∀ i, 4 * f₀.rwInertia * xy ^ 2 < d i ∧ 4 * f₀.rwInertia * z ^ 2 < d i) →
      ∀ f q ω Ω, Run (Matrix.diagonal d) f₀.rwInertia (wheelMatrix xy z) m T f q ω Ω → f 0 = f₀ → npNorm (q 0 0) = 1 →
        Matrix.diagonal d *ᵥ ω 0 0 + f₀.rwInertia • (wheelMatrix xy z *ᵥ Ω 0 0) = 0 →
        (∀ i, |Ω 0 0 i| ≤ f₀.maxSpeed) → ∀ k i, |Ω k 0 i| ≤ f₀.maxSpeed

/-! ### One wheel -/

/-- The check takes a wheel that is a little too fast back within its limit, as far as it can see. -/
theorem checkTorque_back {f : Fsw} (h : 0 ≤ f.maxTorque) (hI : 0 < f.rwInertia) (ht : 0 < f.updateTime)
    (hm : 0 ≤ f.maxSpeed) {τ v u δ : ℝ} (hc : f.checkTorque τ v = .ok u) (hv : |v| ≤ f.maxSpeed + δ)
    (hδ : δ * f.rwInertia ≤ f.maxTorque * f.updateTime) :
    |v + f.updateTime / f.rwInertia * u| ≤ f.maxSpeed := by
  have hk : 0 < f.updateTime / f.rwInertia := div_pos ht hI
  set k := f.updateTime / f.rwInertia with hkd
  have hδ' : δ ≤ f.maxTorque * k := by
    rw [hkd, mul_div_assoc', le_div_iff₀ hI]; exact hδ
  obtain ⟨hv1, hv2⟩ := abs_le.1 hv
  have step : τ / f.rwInertia * f.updateTime = k * τ := by rw [hkd]; ring
  -- between the present speed and a speed within the limit
  have key : ∀ x, |v + k * x| ≤ f.maxSpeed → |v + k * f.clamp x| ≤ f.maxSpeed := by
    intro x hx
    obtain ⟨hx1, hx2⟩ := abs_le.1 hx
    rcases le_total |x| f.maxTorque with hs | hs
    · obtain ⟨hs1, hs2⟩ := abs_le.1 hs
      rwa [Fsw.clamp, min_eq_left hs2, max_eq_right hs1]
    · rcases le_total 0 x with h0 | h0
      · rw [abs_of_nonneg h0] at hs
        rw [Fsw.clamp, min_eq_right hs, max_eq_right (by linarith)]
        have := mul_le_mul_of_nonneg_left hs hk.le
        rw [abs_le]
        constructor <;> nlinarith
      · rw [abs_of_nonpos h0] at hs
        rw [Fsw.clamp, min_eq_left (by linarith), max_eq_left (by linarith)]
        have := mul_le_mul_of_nonneg_left hs hk.le
        rw [abs_le]
        constructor <;> nlinarith
  simp only [Fsw.checkTorque, npDiv, hI.ne', ht.ne', if_false] at hc
  rw [step] at hc
  split at hc
  · obtain rfl := Except.ok.inj hc
    apply key
    set σ := (if v ≠ 0 then npSign v else npSign τ) with hσ
    have e : v + k * ((σ * f.maxSpeed - v) * f.rwInertia / f.updateTime) = σ * f.maxSpeed := by
      rw [hkd]; field_simp; ring
    rw [e, abs_mul, abs_of_nonneg hm]
    have hσ1 : |σ| ≤ 1 := by
      rw [hσ]; split <;> (rw [npSign]; split_ifs <;> norm_num)
    nlinarith
  · rename_i hp
    obtain rfl := Except.ok.inj hc
    exact key _ (not_lt.1 hp)

/-! ### All runs -/

section

variable {I : M3} {Js : ℝ} {G : Matrix (Fin 3) (Fin 4) ℝ} {m : V4} {f₀ : Fsw} {f : ℕ → Fsw} {q : ℕ → ℝ → V4}
  {ω : ℕ → ℝ → V3} {Ω : ℕ → ℝ → Fin 4 → ℝ}

theorem starReading_ne_zero {b m : V4} (hb : npNorm b = 1) (hm : npNorm m = 1) : starReading b m ≠ 0 := by
  intro hz
  have hs : toScalarLast (starReading b m) = rawMult b m := by
    apply vec4_ext <;> simp [toScalarLast, starReading, rawMult, Quaternion.re_mul, Quaternion.imI_mul,
      Quaternion.imJ_mul, Quaternion.imK_mul, toHLast_re, toHLast_imI, toHLast_imJ, toHLast_imK]
  have hn : npNorm (rawMult b m) = 1 := by rw [npNorm_rawMult, hb, hm, one_mul]
  rw [← hs, hz] at hn
  have : toScalarLast (0 : V4) = 0 := by apply vec4_ext <;> simp [toScalarLast]
  rw [this, npNorm_eq_zero.2 rfl] at hn
  exact zero_ne_one hn

/-- What one sample of a run does: the torques come from the check, for the speeds at the sample. -/
theorem run_sample {f g : Fsw} (hs : SameSetup f g) (hI : f.rwInertia ≠ 0) (ht : f.updateTime ≠ 0) (hq : g.qTarget ≠ 0)
    {r : V4} (hr : r ≠ 0) (o : V3) (v : Fin 4 → ℝ) :
    SameSetup f (g.updateState r o v).2 ∧ (g.updateState r o v).2.qTarget ≠ 0 ∧ ∃ τ : Fin 4 → ℝ, ∀ i,
      f.checkTorque (τ i) (v i) = .ok ((g.updateState r o v).2.torqueVals i) := by
  obtain ⟨err, g', -, -, hu, hs', hT, f1, g1, hs1, hc, hg1⟩ := updateState_step (by rw [hs.rwInertia]; exact hI)
    (by rw [hs.updateTime]; exact ht) hq hr o v
  rw [hu]
  refine ⟨⟨hs'.1.trans hs.1, hs'.2.trans hs.2, hs'.3.trans hs.3, hs'.4.trans hs.4, hs'.5.trans hs.5,
    hs'.6.trans hs.6, hs'.7.trans hs.7, hs'.8.trans hs.8⟩, ?_, g.convertTorque (errorTorque g err o), fun i => ?_⟩
  · rcases hT with h | ⟨h, -⟩ <;> simp only [h]
    · exact hq
    · exact ne_zero_of_norm secondTarget_norm
  · rw [Fsw.checkTorqueVals] at hc
    split at hc
    · cases hc
    · rename_i y hy
      cases hc
      have := fswForall_ok hy i
      have e : f1.checkTorque = f.checkTorque := by
        funext a b
        simp only [Fsw.checkTorque, Fsw.clamp, hs1.rwInertia.trans hs.rwInertia, hs1.updateTime.trans hs.updateTime,
          hs1.maxTorque.trans hs.maxTorque, hs1.maxSpeed.trans hs.maxSpeed]
      rw [e] at this
      rw [this, ← hg1]

/-- What the recoil of the satellite adds to the speed of a wheel. -/
theorem recoil_le {J : M3} {u : Fin 4 → ℝ} {c M : ℝ} (hc : ∀ i, ∑ j, |(Gᵀ * J⁻¹ * G) i j| ≤ c) (hM : 0 ≤ M)
    (hu : ∀ j, |u j| ≤ M) (i : Fin 4) : |(Gᵀ *ᵥ (J⁻¹ *ᵥ -(G *ᵥ u))) i| ≤ c * M := by
  have e : Gᵀ *ᵥ (J⁻¹ *ᵥ -(G *ᵥ u)) = -((Gᵀ * J⁻¹ * G) *ᵥ u) := by
    rw [Matrix.mulVec_neg, Matrix.mulVec_neg, Matrix.mulVec_mulVec, Matrix.mulVec_mulVec, Matrix.mul_assoc]
  rw [e, Pi.neg_apply, abs_neg, Matrix.mulVec, dotProduct]
  calc |∑ j, (Gᵀ * J⁻¹ * G) i j * u j| ≤ ∑ j, |(Gᵀ * J⁻¹ * G) i j * u j| := Finset.abs_sum_le_sum_abs _ _
    _ ≤ ∑ j, |(Gᵀ * J⁻¹ * G) i j| * M := by
        refine Finset.sum_le_sum fun j _ => ?_
        rw [abs_mul]
        exact mul_le_mul_of_nonneg_left (hu j) (abs_nonneg _)
    _ = (∑ j, |(Gᵀ * J⁻¹ * G) i j|) * M := by rw [Finset.sum_mul]
    _ ≤ c * M := mul_le_mul_of_nonneg_right (hc i) hM

/-- C184: over any run without total angular momentum, at the samples and in between, no wheel passes its greatest
speed by more than what the recoil of the satellite can add in one interval, `c * maxTorque * T`, where `c` bounds how
strongly the torques of the wheels turn the satellite about the axes of the wheels. For any gain, target, mounting of
the star tracker, inertia and arrangement of wheels. -/
theorem C184_speed_partial (hI : 0 < f₀.rwInertia) (hT : 0 < f₀.updateTime) (hM : 0 ≤ f₀.maxTorque)
    (hmax : 0 ≤ f₀.maxSpeed) (hq : f₀.qTarget ≠ 0) (hm : npNorm m = 1)
    (hJ : (loopInertia I f₀.rwInertia G).det ≠ 0) {c : ℝ}
    (hc : ∀ i, ∑ j, |(Gᵀ * (loopInertia I f₀.rwInertia G)⁻¹ * G) i j| ≤ c) (hcI : c * f₀.rwInertia ≤ 1)
    (hr : Run I f₀.rwInertia G m f₀.updateTime f q ω Ω) (h0 : f 0 = f₀) (hu : npNorm (q 0 0) = 1)
    (hH : I *ᵥ ω 0 0 + f₀.rwInertia • (G *ᵥ Ω 0 0) = 0)
    (hΩ : ∀ i, |Ω 0 0 i| ≤ f₀.maxSpeed) (k : ℕ) (s : ℝ) (hs : s ∈ Icc 0 f₀.updateTime) (i : Fin 4) :
    |Ω k s i| ≤ f₀.maxSpeed + c * f₀.maxTorque * f₀.updateTime := by
  have hc0 : 0 ≤ c := le_trans (Finset.sum_nonneg fun j _ => abs_nonneg _) (hc 0)
  set δ := c * f₀.maxTorque * f₀.updateTime with hδ
  have hδ0 : 0 ≤ δ := by positivity
  have hδI : δ * f₀.rwInertia ≤ f₀.maxTorque * f₀.updateTime := by
    have := mul_le_mul_of_nonneg_right hcI (mul_nonneg hM hT.le)
    rw [hδ]; nlinarith
  -- one interval
  have one : ∀ k, SameSetup f₀ (f k) → (f k).qTarget ≠ 0 → npNorm (q k 0) = 1 →
      I *ᵥ ω k 0 + f₀.rwInertia • (G *ᵥ Ω k 0) = 0 → (∀ i, |Ω k 0 i| ≤ f₀.maxSpeed + δ) →
      SameSetup f₀ (f (k + 1)) ∧ (f (k + 1)).qTarget ≠ 0 ∧ ∀ s ∈ Icc 0 f₀.updateTime, npNorm (q k s) = 1 ∧
        I *ᵥ ω k s + f₀.rwInertia • (G *ᵥ Ω k s) = 0 ∧ ∀ i, |Ω k s i| ≤ f₀.maxSpeed + δ := by
    intro k h1 h2 h3 h4 h5
    obtain ⟨a1, a2, τ, a3⟩ := run_sample h1 hI.ne' hT.ne' h2 (starReading_ne_zero h3 hm) (ω k 0) (Ω k 0)
    have hco := hr.coast k
    rw [← hr.sample k] at a1 a2 a3
    refine ⟨a1, a2, fun s hs => ⟨coast_unit hco h3 hs, coast_momentum hco h4 hs, fun i => ?_⟩⟩
    set u := (f (k + 1)).torqueVals with hud
    have hback := checkTorque_back hM hI hT hmax (a3 i) (h5 i) hδI
    have hul : ∀ j, |u j| ≤ f₀.maxTorque := by
      intro j
      have := a3 j
      unfold Fsw.checkTorque at this
      split at this
      · cases this
      · dsimp only at this
        split at this
        · split at this
          · cases this
          · rw [← Except.ok.inj this]; exact clamp_abs hM _
        · rw [← Except.ok.inj this]; exact clamp_abs hM _
    have hrec := recoil_le hc hM hul i
    rw [(coast_linear hco h4 hI.ne' hJ hs).2]
    simp only [Pi.add_apply, Pi.smul_apply, Pi.sub_apply, smul_eq_mul]
    set ρ := (Gᵀ *ᵥ ((loopInertia I f₀.rwInertia G)⁻¹ *ᵥ -(G *ᵥ u))) i with hρ
    obtain ⟨r1, r2⟩ := abs_le.1 hrec
    obtain ⟨b1, b2⟩ := abs_le.1 hback
    obtain ⟨c1, c2⟩ := abs_le.1 (h5 i)
    have hsT : s / f₀.updateTime ≤ 1 := (div_le_one hT).2 hs.2
    have hs0 : 0 ≤ s / f₀.updateTime := div_nonneg hs.1 hT.le
    set θ := s / f₀.updateTime with hθ
    have es : s = θ * f₀.updateTime := by rw [hθ]; field_simp
    have e : Ω k 0 i + s * (f₀.rwInertia⁻¹ * u i - ρ) = (1 - θ) * Ω k 0 i +
        θ * (Ω k 0 i + f₀.updateTime / f₀.rwInertia * u i) - θ * (f₀.updateTime * ρ) := by
      rw [es]; ring
    have hρ1 : f₀.updateTime * ρ ≤ δ := by rw [hδ]; nlinarith
    have hρ2 : -δ ≤ f₀.updateTime * ρ := by rw [hδ]; nlinarith
    rw [e, abs_le]
    have m1 := mul_le_mul_of_nonneg_left c1 (sub_nonneg.2 hsT)
    have m2 := mul_le_mul_of_nonneg_left c2 (sub_nonneg.2 hsT)
    have m3 := mul_le_mul_of_nonneg_left b1 hs0
    have m4 := mul_le_mul_of_nonneg_left b2 hs0
    have m5 := mul_le_mul_of_nonneg_left hρ1 hs0
    have m6 := mul_le_mul_of_nonneg_left hρ2 hs0
    constructor <;> nlinarith
  have hTm : f₀.updateTime ∈ Icc 0 f₀.updateTime := ⟨hT.le, le_rfl⟩
  have all : ∀ k, SameSetup f₀ (f k) ∧ (f k).qTarget ≠ 0 ∧ npNorm (q k 0) = 1 ∧
      I *ᵥ ω k 0 + f₀.rwInertia • (G *ᵥ Ω k 0) = 0 ∧ ∀ i, |Ω k 0 i| ≤ f₀.maxSpeed + δ := by
    intro k
    induction k with
    | zero =>
      rw [h0]
      exact ⟨⟨rfl, rfl, rfl, rfl, rfl, rfl, rfl, rfl⟩, hq, hu, hH, fun i => (hΩ i).trans (by linarith)⟩
    | succ k ih =>
      obtain ⟨h1, h2, h3, h4, h5⟩ := ih
      obtain ⟨g1, g2, g3⟩ := one k h1 h2 h3 h4 h5
      obtain ⟨g4, g5, g6⟩ := g3 _ hTm
      rw [hr.attitude, hr.rate, hr.wheels]
      exact ⟨g1, g2, g4, g5, g6⟩
  obtain ⟨h1, h2, h3, h4, h5⟩ := all k
  exact ((one k h1 h2 h3 h4 h5).2.2 s hs).2.2 i

end

/-! ### The wheels of the satellite -/

theorem wheelMatrix_mulVec (xy z : ℝ) (v : Fin 4 → ℝ) : wheelMatrix xy z *ᵥ v =
    ![xy * (v 0 + v 1 - v 2 - v 3), xy * (v 0 - v 1 - v 2 + v 3), -z * (v 0 + v 1 + v 2 + v 3)] := by
  apply vec3_ext <;> simp [wheelMatrix, Matrix.mulVec, dotProduct, Fin.sum_univ_four] <;> ring

theorem loopInertia_inv {d : V3} {Js xy z : ℝ} (h : ∀ i, 4 * Js * xy ^ 2 < d i ∧ 4 * Js * z ^ 2 < d i) :
    (loopInertia (Matrix.diagonal d) Js (wheelMatrix xy z))⁻¹ =
      Matrix.diagonal ![(d 0 - 4 * Js * xy ^ 2)⁻¹, (d 1 - 4 * Js * xy ^ 2)⁻¹, (d 2 - 4 * Js * z ^ 2)⁻¹] := by
  have hp := wheel_moments h
  have p0 : 0 < d 0 - 4 * Js * xy ^ 2 := by simpa using hp 0
  have p1 : 0 < d 1 - 4 * Js * xy ^ 2 := by simpa using hp 1
  have p2 : 0 < d 2 - 4 * Js * z ^ 2 := by simpa using hp 2
  rw [loopInertia_wheels]
  apply Matrix.inv_eq_right_inv
  rw [Matrix.diagonal_mul_diagonal, ← Matrix.diagonal_one]
  congr 1
  funext k
  fin_cases k
  · simpa using mul_inv_cancel₀ p0.ne'
  · simpa using mul_inv_cancel₀ p1.ne'
  · simpa using mul_inv_cancel₀ p2.ne'

/-- How strongly four wheels arranged as on the satellite turn it about their axes. -/
theorem wheel_recoil {d : V3} {Js xy z : ℝ} (h : ∀ i, 4 * Js * xy ^ 2 < d i ∧ 4 * Js * z ^ 2 < d i) (i : Fin 4) :
    ∑ j, |((wheelMatrix xy z)ᵀ * (loopInertia (Matrix.diagonal d) Js (wheelMatrix xy z))⁻¹ * wheelMatrix xy z) i j| ≤
      4 * (xy ^ 2 / (d 0 - 4 * Js * xy ^ 2) + xy ^ 2 / (d 1 - 4 * Js * xy ^ 2) + z ^ 2 / (d 2 - 4 * Js * z ^ 2)) := by
  have hp := wheel_moments h
  have p0 : 0 < d 0 - 4 * Js * xy ^ 2 := by simpa using hp 0
  have p1 : 0 < d 1 - 4 * Js * xy ^ 2 := by simpa using hp 1
  have p2 : 0 < d 2 - 4 * Js * z ^ 2 := by simpa using hp 2
  rw [loopInertia_inv h]
  generalize (d 0 - 4 * Js * xy ^ 2) = a at *
  generalize (d 1 - 4 * Js * xy ^ 2) = b at *
  generalize (d 2 - 4 * Js * z ^ 2) = c at *
  have hA : 0 ≤ xy ^ 2 / a := by positivity
  have hB : 0 ≤ xy ^ 2 / b := by positivity
  have hC : 0 ≤ z ^ 2 / c := by positivity
  have entry : ∀ j, |((wheelMatrix xy z)ᵀ * Matrix.diagonal ![a⁻¹, b⁻¹, c⁻¹] * wheelMatrix xy z) i j| ≤
      xy ^ 2 / a + xy ^ 2 / b + z ^ 2 / c := by
    intro j
    have : ∃ s t : ℝ, (s = 1 ∨ s = -1) ∧ (t = 1 ∨ t = -1) ∧
        ((wheelMatrix xy z)ᵀ * Matrix.diagonal ![a⁻¹, b⁻¹, c⁻¹] * wheelMatrix xy z) i j =
          s * (xy ^ 2 / a) + t * (xy ^ 2 / b) + z ^ 2 / c := by
      refine ⟨if (i = 0 ∨ i = 1) = (j = 0 ∨ j = 1) then 1 else -1, if (i = 0 ∨ i = 3) = (j = 0 ∨ j = 3) then 1 else -1,
        by split_ifs <;> simp, by split_ifs <;> simp, ?_⟩
      rw [Matrix.mul_apply]
      simp only [Matrix.mul_diagonal, Matrix.transpose_apply, Fin.sum_univ_three]
      fin_cases i <;> fin_cases j <;> simp [wheelMatrix] <;> ring
    obtain ⟨s, t, hs, ht, e⟩ := this
    rw [e, abs_le]
    rcases hs with rfl | rfl <;> rcases ht with rfl | rfl <;> constructor <;> linarith
  calc _ ≤ ∑ _j : Fin 4, (xy ^ 2 / a + xy ^ 2 / b + z ^ 2 / c) := Finset.sum_le_sum fun j _ => entry j
    _ = _ := by simp; ring

/-- C184 for the satellite: with four wheels arranged as on the satellite, in every run of the simulation the speeds
stay within the limit and what the recoil of the satellite adds in one interval. -/
theorem C184_satellite_partial {d : V3} {f₀ : Fsw} {xy z : ℝ} {t m : V4} (h : Aimed f₀ (wheelMatrix xy z) t m)
    (hmax : 0 ≤ f₀.maxSpeed) (hw : ∀ i, 4 * f₀.rwInertia * xy ^ 2 < d i ∧ 4 * f₀.rwInertia * z ^ 2 < d i) {c : ℝ}
    (hc : 4 * (xy ^ 2 / (d 0 - 4 * f₀.rwInertia * xy ^ 2) + xy ^ 2 / (d 1 - 4 * f₀.rwInertia * xy ^ 2) +
      z ^ 2 / (d 2 - 4 * f₀.rwInertia * z ^ 2)) ≤ c) (hcI : c * f₀.rwInertia ≤ 1)
    {f : ℕ → Fsw} {q : ℕ → ℝ → V4} {ω : ℕ → ℝ → V3} {Ω : ℕ → ℝ → Fin 4 → ℝ}
    (hr : Run (Matrix.diagonal d) f₀.rwInertia (wheelMatrix xy z) m f₀.updateTime f q ω Ω) (h0 : f 0 = f₀)
    (hu : npNorm (q 0 0) = 1)
    (hH : Matrix.diagonal d *ᵥ ω 0 0 + f₀.rwInertia • (wheelMatrix xy z *ᵥ Ω 0 0) = 0)
    (hΩ : ∀ i, |Ω 0 0 i| ≤ f₀.maxSpeed) (k : ℕ) (s : ℝ) (hs : s ∈ Icc 0 f₀.updateTime) (i : Fin 4) :
    |Ω k s i| ≤ f₀.maxSpeed + c * f₀.maxTorque * f₀.updateTime :=
  C184_speed_partial h.inertia h.time h.torque.le hmax
    (by rw [h.target]; exact ne_zero_of_norm (by rw [npNorm_rawMult, h.unit, h.mount, one_mul])) h.mount
    (wheel_det hw) (fun i => (wheel_recoil hw i).trans hc) hcI hr h0 hu hH hΩ k s hs i

theorem exAim_wheels (i : Fin 3) : 4 * (0.001 : ℝ) * (1 / 2) ^ 2 < (![0.0165, 0.016, 0.0065] : V3) i ∧
    4 * (0.001 : ℝ) * (1 / 2) ^ 2 < (![0.0165, 0.016, 0.0065] : V3) i := by
  fin_cases i <;> norm_num

/-- All assumptions hold for the moments of inertia of the satellite, with `c = 320`. -/
example (K : Matrix (Fin 3) I6 ℝ) : Aimed (exAim K ![0, 0, 0, 1] ![0, 0, 0, 1]) (wheelMatrix (1/2) (1/2)) ![0, 0, 0, 1] ![0, 0, 0, 1] ∧
    4 * ((1/2 : ℝ) ^ 2 / ((![0.0165, 0.016, 0.0065] : V3) 0 - 4 * 0.001 * (1/2) ^ 2) +
      (1/2 : ℝ) ^ 2 / ((![0.0165, 0.016, 0.0065] : V3) 1 - 4 * 0.001 * (1/2) ^ 2) +
      (1/2 : ℝ) ^ 2 / ((![0.0165, 0.016, 0.0065] : V3) 2 - 4 * 0.001 * (1/2) ^ 2)) ≤ 320 ∧
    320 * (exAim K ![0, 0, 0, 1] ![0, 0, 0, 1]).rwInertia ≤ 1 ∧
    ∃ f q ω Ω, Run (Matrix.diagonal ![0.0165, 0.016, 0.0065]) 0.001 (wheelMatrix (1/2) (1/2)) ![0, 0, 0, 1] 0.1 f q ω Ω ∧
      f 0 = exAim K ![0, 0, 0, 1] ![0, 0, 0, 1] ∧ q 0 0 = ![0.6, 0, 0, 0.8] ∧ ω 0 0 = 0 ∧
      Ω 0 0 = ![100, -100, 100, -100] := by
  have hA := exAim_aimed K (t := ![0, 0, 0, 1]) (m := ![0, 0, 0, 1]) (npNorm_vec4 (by norm_num))
    (npNorm_vec4 (by norm_num))
  refine ⟨hA, by norm_num, by norm_num [exAim, Fsw.init], ?_⟩
  refine C160_runs hA (by norm_num) (wheel_det exAim_wheels) (npNorm_vec4 (by norm_num)) ?_
  rw [wheelMatrix_mulVec]
  apply vec3_ext <;> norm_num

/-! ### The limit is passed -/

theorem checkTorque_at_limit {f : Fsw} (hI : 0 < f.rwInertia) (ht : 0 < f.updateTime) (hM : 0 ≤ f.maxTorque)
    (hm : 0 < f.maxSpeed) {τ σ : ℝ} (hσ : σ = 1 ∨ σ = -1) (hτ : 0 < σ * τ) :
    f.checkTorque τ (σ * f.maxSpeed) = .ok 0 := by
  have hp : |σ * f.maxSpeed + τ / f.rwInertia * f.updateTime| > f.maxSpeed := by
    have : 0 < σ * τ / f.rwInertia * f.updateTime := by positivity
    have e : σ * (σ * f.maxSpeed + τ / f.rwInertia * f.updateTime) = f.maxSpeed + σ * τ / f.rwInertia * f.updateTime := by
      have : σ * σ = 1 := by rcases hσ with rfl | rfl <;> norm_num
      linear_combination f.maxSpeed * this
    have ha : |σ| = 1 := by rcases hσ with rfl | rfl <;> norm_num
    rw [← one_mul |_|, ← ha, ← abs_mul, e, abs_of_pos (by linarith)]
    linarith
  have hv : σ * f.maxSpeed ≠ 0 := by rcases hσ with rfl | rfl <;> simp [hm.ne']
  have hs : npSign (σ * f.maxSpeed) = σ := by
    rcases hσ with rfl | rfl
    · rw [one_mul, npSign, if_neg hm.le.not_gt, if_neg hm.ne']
    · rw [npSign, if_pos (by linarith)]
  simp only [Fsw.checkTorque, npDiv, hI.ne', ht.ne', if_false]
  rw [if_pos hp, if_pos hv, hs, sub_self, zero_mul, zero_div, Fsw.clamp, min_eq_left hM, max_eq_right (by linarith)]

theorem recoil_first {d : V3} {Js xy z : ℝ} (h : ∀ i, 4 * Js * xy ^ 2 < d i ∧ 4 * Js * z ^ 2 < d i) (R : ℝ) :
    ((wheelMatrix xy z)ᵀ *ᵥ ((loopInertia (Matrix.diagonal d) Js (wheelMatrix xy z))⁻¹ *ᵥ
      -(wheelMatrix xy z *ᵥ ![0, 0, -R, R]))) 0 = -(2 * xy ^ 2 * R / (d 1 - 4 * Js * xy ^ 2)) := by
  rw [loopInertia_inv h, wheelMatrix_mulVec]
  generalize (d 0 - 4 * Js * xy ^ 2) = a at *
  generalize (d 1 - 4 * Js * xy ^ 2) = b at *
  generalize (d 2 - 4 * Js * z ^ 2) = c at *
  simp [Matrix.mulVec, dotProduct, Fin.sum_univ_three, wheelMatrix, Matrix.diagonal]
  ring

/-- C184 fails for the gain of the satellite: two wheels turn at the greatest speed against each other, and the other two
also; a small error of the attitude makes the flight software slow down one pair. That turns the satellite, and the
wheels of the other pair, on which the check leaves no torque, are then too fast. -/
theorem C184_limit_fails : ¬ C184_claim := by
  intro H
  obtain ⟨K, hK⟩ := exGain
  have hA := exAim_aimed K (t := ![0, 0, 0, 1]) (m := ![0, 0, 0, 1]) (npNorm_vec4 (by norm_num))
    (npNorm_vec4 (by norm_num))
  set f₀ := exAim K ![0, 0, 0, 1] ![0, 0, 0, 1] with hf₀
  have hfI : f₀.rwInertia = 0.001 := rfl
  have hfT : f₀.updateTime = 0.1 := rfl
  have hfM : f₀.maxTorque = 0.01 := rfl
  have hfK : f₀.K = K := rfl
  have hmax : 1000 < f₀.maxSpeed := by
    have e : f₀.maxSpeed = 10000 * (2 * Real.pi / 60) := rfl
    have := Real.pi_gt_three
    rw [e]; linarith
  have hK' : GetGain (Matrix.diagonal ![0.0165, 0.016, 0.0065]) 0.1 0.1 0.05 f₀.K := hK
  obtain ⟨e1, -⟩ := gain_blocks (fun i => (exMoments i).ne') (by norm_num) hK'
  have hkp := (C150_positive _ exMoments 0.1 0.1 0.05 (by norm_num) K hK 1).1
  set kp := K 1 (.inl 1) with hkpd
  set s := 0.02 / (kp + 1) with hs
  have hs0 : 0 < s := by positivity
  have hs1 : s < 1 := by rw [hs, div_lt_one (by linarith)]; norm_num; linarith
  set R := kp * s / 2 with hR
  have hR0 : 0 < R := by positivity
  have hR1 : R < 0.01 := by
    have : kp * s < 0.02 := by
      rw [hs, mul_div_assoc', div_lt_iff₀ (by linarith)]; norm_num; linarith
    rw [hR]; norm_num at *; linarith
  -- the start
  set δ : V3 := ![0, -2 * s, 0] with hδ
  have hδ4 : δ 0 ^ 2 + δ 1 ^ 2 + δ 2 ^ 2 ≤ 4 := by simp [hδ]; nlinarith
  set q₀ := near ![0, 0, 0, 1] δ with hq₀
  have hq₀n : npNorm q₀ = 1 := near_norm hA.unit hδ4
  set v : Fin 4 → ℝ := ![f₀.maxSpeed, -f₀.maxSpeed, f₀.maxSpeed, -f₀.maxSpeed] with hv
  have hH : Matrix.diagonal ![0.0165, 0.016, 0.0065] *ᵥ (0 : V3) + f₀.rwInertia • (wheelMatrix (1/2) (1/2) *ᵥ v) = 0 := by
    rw [wheelMatrix_mulVec]
    apply vec3_ext <;> simp [hv]
  have hw := exAim_wheels
  obtain ⟨f, q, ω, Ω, hr, h0, h1, h2, h3⟩ := C160_runs (I := Matrix.diagonal ![0.0165, 0.016, 0.0065]) hA hA.inertia.ne'
    (wheel_det hw) hq₀n hH
  have hbad := H _ 0.1 0.1 0.05 exMoments (by norm_num) f₀ _ _ _ _ hK' hA rfl hw f q ω Ω hr h0 (by rw [h1]; exact hq₀n)
    (by rw [h2, h3]; exact hH) (by
      rw [h3]; intro i
      fin_cases i <;> simp [hv, abs_of_pos (show 0 < f₀.maxSpeed by linarith)]) 1 0
  -- the first torques
  obtain ⟨err, he, hev⟩ := near_error (m := ![0, 0, 0, 1]) hA.unit hA.mount hδ4 (σ := 1) (.inl rfl)
  rw [one_smul, ← hq₀] at he
  have hqT : f₀.qTarget ≠ 0 := by
    rw [hA.target]; exact ne_zero_of_norm (by rw [npNorm_rawMult, hA.unit, one_mul])
  obtain ⟨err', g, he', -, hu, -, -, f1, g1, hs1', hc, hg1⟩ := updateState_step hA.inertia.ne' hA.time.ne' hqT
    (starReading_ne_zero hq₀n hA.mount) 0 v
  rw [hA.target] at he'
  obtain rfl : err = err' := Except.ok.inj (he.symm.trans he')
  have hτ : f₀.convertTorque (errorTorque f₀ err 0) = ![R, -R, -R, R] := by
    have e : f₀.K = Matrix.fromCols (kq f₀) (kw f₀) := (Matrix.fromCols_toCols f₀.K).symm
    have hax : axes ![0, 0, 0, 1] *ᵥ δ = δ := by
      rw [axes_mulVec]
      apply vec3_ext <;> simp [turn_0, turn_1, turn_2]
    rw [errorTorque_eq, hA.rate, sub_zero, e, Matrix.fromCols_mulVec_sumElim, hev, hax, e1, Matrix.mulVec_zero, add_zero]
    have ed : -(Matrix.diagonal (fun i => f₀.K i (.inl i)) *ᵥ (-(1 / 2 : ℝ) • δ)) = ![0, -(kp * s), 0] := by
      apply vec3_ext
      · simp [hδ, Matrix.mulVec_diagonal]
      · simp [hδ, Matrix.mulVec_diagonal, hfK, ← hkpd]
      · simp [hδ, Matrix.mulVec_diagonal]
    rw [ed]
    have eG : f₀.Gpinv = -(wheelMatrix (1/2) (1/2))ᵀ := rfl
    rw [Fsw.convertTorque, eG, Matrix.neg_mulVec]
    apply vec4_ext <;> simp [Matrix.mulVec, dotProduct, Fin.sum_univ_three, wheelMatrix, hR] <;> ring
  rw [hτ] at hc
  have hf1 : f1.checkTorque = f₀.checkTorque := by
    funext a b
    simp only [Fsw.checkTorque, Fsw.clamp, hs1'.rwInertia, hs1'.updateTime, hs1'.maxTorque, hs1'.maxSpeed]
  have hgt : g.torqueVals = ![0, 0, -R, R] := by
    rw [← hg1]
    rw [Fsw.checkTorqueVals, hf1] at hc
    split at hc
    · cases hc
    · rename_i y hy
      cases hc
      have hM0 : 0 ≤ f₀.maxTorque := hA.torque.le
      have hmp : 0 < f₀.maxSpeed := by linarith
      have a0 := fswForall_ok hy 0
      have a1 := fswForall_ok hy 1
      have a2 := fswForall_ok hy 2
      have a3 := fswForall_ok hy 3
      have b0 := checkTorque_at_limit hA.inertia hA.time hM0 hmp (τ := R) (σ := 1) (.inl rfl) (by linarith)
      have b1 := checkTorque_at_limit hA.inertia hA.time hM0 hmp (τ := -R) (σ := -1) (.inr rfl) (by linarith)
      have b2 : f₀.checkTorque (-R) f₀.maxSpeed = .ok (-R) := by
        refine checkTorque_small hA.inertia.ne' (by rw [abs_neg, abs_of_pos hR0, hfM]; exact hR1.le) ?_
        rw [hfI, hfT, abs_le]
        norm_num at hR1 ⊢
        constructor <;> linarith
      have b3 : f₀.checkTorque R (-f₀.maxSpeed) = .ok R := by
        refine checkTorque_small hA.inertia.ne' (by rw [abs_of_pos hR0, hfM]; exact hR1.le) ?_
        rw [hfI, hfT, abs_le]
        norm_num at hR1 ⊢
        constructor <;> linarith
      rw [one_mul] at b0
      rw [neg_one_mul] at b1
      apply vec4_ext
      · exact Except.ok.inj (a0.symm.trans b0)
      · exact Except.ok.inj (a1.symm.trans b1)
      · exact Except.ok.inj (a2.symm.trans b2)
      · exact Except.ok.inj (a3.symm.trans b3)
  -- the speed at the next sample
  have hco := hr.coast 0
  have hf : f (0 + 1) = g := by rw [hr.sample 0, h0, h1, h2, h3, hu]
  rw [hf, hgt] at hco
  have hlin := (coast_linear hco (by rw [h2, h3]; exact hH) hA.inertia.ne' (wheel_det hw) ⟨hA.time.le, le_rfl⟩).2
  rw [hr.wheels 0, hlin, h3] at hbad
  have hfirst := recoil_first (d := ![0.0165, 0.016, 0.0065]) hw R
  rw [← hfI] at hfirst
  simp only [Pi.add_apply, Pi.smul_apply, Pi.sub_apply, smul_eq_mul, hfirst] at hbad
  have hv0 : v 0 = f₀.maxSpeed := rfl
  have hle := (abs_le.1 hbad).2
  rw [hv0, hfT, hfI] at hle
  norm_num at hle
  linarith

end Adcs
