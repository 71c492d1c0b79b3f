import Verif.Proofs.Held
import Verif.Props.LongWay
import Verif.Props.Margins
import Verif.Props.ErrorAngle

set_option autoImplicit false

/-! # C158: the flight software near its target

`ADCS_Simulation_Basilisk.py` mounts the star tracker turned against the body (lines 158-180) and gives the flight
software the attitude of its case, but the rates of the body. The errors are quaternions, but the wheels act about
the axes of the body. -/

namespace Adcs

open scoped Matrix Quaternion Topology
open Sim Obs Set Filter Lqr

/-- The torque on the body from wheels with the axes `G` (columns) after one call of `UpdateState`. -/
noncomputable def Spec.reaction (G : Matrix (Fin 3) (Fin 4) ℝ) (f : Fsw) (reading : V4) (ω : V3)
    (v : Fin 4 → ℝ) : V3 := -(G *ᵥ (f.updateState reading ω v).2.torqueVals)

/-- What a star tracker reads (`qInrtl2Case`, scalar first) if the body has the attitude `b` and the case has the
attitude `m` in the body (both scalar last). -/
noncomputable def Spec.starReading (b m : V4) : V4 :=
  ![(Spec.toHLast b * Spec.toHLast m).re, (Spec.toHLast b * Spec.toHLast m).imI,
    (Spec.toHLast b * Spec.toHLast m).imJ, (Spec.toHLast b * Spec.toHLast m).imK]

/-- The attitude `t`, turned by a small rotation vector `δ` in body axes (the angle is `2 arcsin (|δ| / 2)`). -/
noncomputable def Spec.near (t : V4) (δ : V3) : V4 :=
  rawMult t ![δ 0 / 2, δ 1 / 2, δ 2 / 2, √(1 - (δ 0 ^ 2 + δ 1 ^ 2 + δ 2 ^ 2) / 4)]

/-- The columns are the body axes in inertial coordinates, for the attitude `t`. -/
noncomputable def Spec.axes (t : V4) : M3 := Matrix.of fun i j => Spec.turn (Spec.toHLast t) (Pi.single j 1) i

/-- The flight software aims with a star tracker mounted as `m` at the body attitude `t`, at rest, and the wheels
work. -/
structure Spec.Aimed (f : Fsw) (G : Matrix (Fin 3) (Fin 4) ℝ) (t m : V4) : Prop where
  target : f.qTarget = rawMult t m
  unit : npNorm t = 1
  mount : npNorm m = 1
  rate : f.omegaTarget = 0
  inertia : 0 < f.rwInertia
  time : 0 < f.updateTime
  torque : 0 < f.maxTorque
  wheels : G * f.Gpinv = -1

/-- Near the target, the torque of the flight software is `-S δ - D ω` for an error `δ` and a rate `ω`. `σ` is the
sign of the quaternion that the star tracker gives for the attitude. -/
def Spec.Linearised (f : Fsw) (G : Matrix (Fin 3) (Fin 4) ℝ) (t m : V4) (v : Fin 4 → ℝ) (σ : ℝ) (S D : M3) : Prop :=
  ∀ᶠ x in 𝓝 (0 : V3 × V3), Spec.reaction G f (Spec.starReading (σ • Spec.near t x.1) m) x.2 v =
    -(S *ᵥ x.1) - D *ᵥ x.2

/-- Small errors of a satellite of inertia `J` about the target die out. -/
def Spec.Settles (f : Fsw) (G : Matrix (Fin 3) (Fin 4) ℝ) (t m : V4) (v : Fin 4 → ℝ) (σ : ℝ) (J : M3) : Prop :=
  ∀ S D, Spec.Linearised f G t m v σ S D → Spec.DiesOut J S D f.updateTime

/-- Small errors of a satellite of inertia `J` about the target grow. -/
def Spec.Leaves (f : Fsw) (G : Matrix (Fin 3) (Fin 4) ℝ) (t m : V4) (v : Fin 4 → ℝ) (σ : ℝ) (J : M3) : Prop :=
  ∀ S D, Spec.Linearised f G t m v σ S D → Spec.Grows J S D f.updateTime

open Spec

theorem axes_mulVec (t : V4) (δ : V3) : axes t *ᵥ δ = turn (toHLast t) δ := by
  apply vec3_ext <;>
    simp only [Matrix.mulVec, dotProduct, axes, Matrix.of_apply, Fin.sum_univ_three, turn_0, turn_1, turn_2] <;>
    simp

/-- The half of the gain for the error, and that for the rate. -/
noncomputable def kq (f : Fsw) : M3 := f.K.toCols₁
noncomputable def kw (f : Fsw) : M3 := f.K.toCols₂

theorem near_norm {t : V4} (ht : npNorm t = 1) {δ : V3} (hδ : δ 0 ^ 2 + δ 1 ^ 2 + δ 2 ^ 2 ≤ 4) :
    npNorm (near t δ) = 1 := by
  rw [near, npNorm_rawMult, ht, one_mul]
  apply npNorm_vec4
  rw [Real.sq_sqrt (by linarith)]
  ring

/-- The mounting of the star tracker does not change the error. -/
theorem mount_cancel (t n : V4) {m : V4} (hm : npNorm m = 1) (σ : ℝ) :
    rawMult (rawMult t m) (quatConjugate (rawMult (σ • n) m)) = σ • rawMult t (quatConjugate n) := by
  have h1 : m 0 ^ 2 + m 1 ^ 2 + m 2 ^ 2 + m 3 ^ 2 = 1 := by rw [← npNorm4_sq, hm]; norm_num
  apply vec4_ext <;> simp [rawMult, quatConjugate]
  · linear_combination σ * (-(t 3 * n 0) + t 0 * n 3 - t 1 * n 2 + t 2 * n 1) * h1
  · linear_combination σ * (-(t 3 * n 1) + t 0 * n 2 + t 1 * n 3 - t 2 * n 0) * h1
  · linear_combination σ * (-(t 3 * n 2) - t 0 * n 1 + t 1 * n 0 + t 2 * n 3) * h1
  · linear_combination σ * (t 3 * n 3 + t 0 * n 0 + t 1 * n 1 + t 2 * n 2) * h1

/-- The error near the target: half of the rotation vector, turned into inertial axes, whatever the mounting. -/
theorem near_error {t m : V4} (ht : npNorm t = 1) (hm : npNorm m = 1) {δ : V3}
    (hδ : δ 0 ^ 2 + δ 1 ^ 2 + δ 2 ^ 2 ≤ 4) {σ : ℝ} (hσ : σ = 1 ∨ σ = -1) :
    ∃ err, quatError (rawMult t m) (toScalarLast (starReading (σ • near t δ) m)) = .ok err ∧
      ![err 0, err 1, err 2] = -(σ / 2) • (axes t *ᵥ δ) := by
  have hs : toScalarLast (starReading (σ • near t δ) m) = rawMult (σ • near t δ) m := by
    apply vec4_ext <;> simp [toScalarLast, starReading, rawMult, Quaternion.re_mul, Quaternion.imI_mul,
      Quaternion.imJ_mul, Quaternion.imK_mul, toHLast_re, toHLast_imI, toHLast_imJ, toHLast_imK]
  have hn : npNorm (σ • near t δ) = 1 := by
    rw [npNorm_smul, near_norm ht hδ]; rcases hσ with rfl | rfl <;> norm_num
  rw [hs]
  refine ⟨_, quatMult_unit (by rw [npNorm_rawMult, ht, hm, one_mul])
    (by rw [npNorm_conj, npNorm_rawMult, hn, hm, one_mul]), ?_⟩
  rw [mount_cancel t _ hm, axes_mulVec]
  apply vec3_ext
  · simp [turn_0, rawMult, quatConjugate, near]; ring
  · simp [turn_1, rawMult, quatConjugate, near]; ring
  · simp [turn_2, rawMult, quatConjugate, near]; ring

theorem checkTorque_small {f : Fsw} (hI : f.rwInertia ≠ 0) {x s : ℝ} (h1 : |x| ≤ f.maxTorque)
    (h2 : |s + x / f.rwInertia * f.updateTime| ≤ f.maxSpeed) : f.checkTorque x s = .ok x := by
  have hd : npDiv x f.rwInertia = .ok (x / f.rwInertia) := by rw [npDiv, if_neg hI]
  obtain ⟨h3, h4⟩ := abs_le.1 h1
  simp only [Fsw.checkTorque, hd]
  rw [if_neg (not_lt.2 h2), Fsw.clamp, min_eq_left h4, max_eq_right h3]

theorem axes_det {t : V4} (ht : npNorm t = 1) : (axes t).det = 1 := by
  have h1 : t 0 ^ 2 + t 1 ^ 2 + t 2 ^ 2 + t 3 ^ 2 = 1 := by rw [← npNorm4_sq, ht]; norm_num
  have : (axes t).det = (t 0 ^ 2 + t 1 ^ 2 + t 2 ^ 2 + t 3 ^ 2) ^ 3 := by
    rw [Matrix.det_fin_three]
    simp [axes, turn_0, turn_1, turn_2]
    ring
  rw [this, h1, one_pow]

/-- What one call of `UpdateState` does near the target: the wheels get the torque that makes `-S δ - D ω`, and the
target changes only if the satellite is exactly there, at rest. -/
theorem near_step {f : Fsw} {G : Matrix (Fin 3) (Fin 4) ℝ} {t m : V4} (h : Aimed f G t m) {v : Fin 4 → ℝ}
    (hv : ∀ i, |v i| < f.maxSpeed) {σ : ℝ} (hσ : σ = 1 ∨ σ = -1) :
    ∀ᶠ y in 𝓝 ((0, v) : (V3 × V3) × (Fin 4 → ℝ)), ∀ f', SameSetup f f' → f'.qTarget = f.qTarget →
      ∃ g, f'.updateState (starReading (σ • near t y.1.1) m) y.1.2 y.2 = (.ok (), g) ∧ SameSetup f g ∧
        g.torqueVals = f.Gpinv *ᵥ (-((-(σ / 2) • (kq f * axes t)) *ᵥ y.1.1) - kw f *ᵥ y.1.2) ∧
        (g.qTarget = f.qTarget ∨ y.1 = 0) := by
  set τ : V3 × V3 → V3 := fun x => -((-(σ / 2) • (kq f * axes t)) *ᵥ x.1) - kw f *ᵥ x.2 with hτ
  have hτc : Continuous τ := by fun_prop
  have hτ0 : τ 0 = 0 := by simp [hτ]
  have e0 : ∀ᶠ y in 𝓝 ((0, v) : (V3 × V3) × (Fin 4 → ℝ)), y.1.1 0 ^ 2 + y.1.1 1 ^ 2 + y.1.1 2 ^ 2 < 4 := by
    have hc : Continuous fun y : (V3 × V3) × (Fin 4 → ℝ) => y.1.1 0 ^ 2 + y.1.1 1 ^ 2 + y.1.1 2 ^ 2 := by fun_prop
    exact hc.continuousAt.eventually_lt continuousAt_const (by norm_num)
  have e1 : ∀ᶠ y in 𝓝 ((0, v) : (V3 × V3) × (Fin 4 → ℝ)), ∀ i, |(f.Gpinv *ᵥ τ y.1) i| < f.maxTorque := by
    rw [eventually_all]
    intro i
    have hc : Continuous fun y : (V3 × V3) × (Fin 4 → ℝ) => |(f.Gpinv *ᵥ τ y.1) i| := by fun_prop
    refine hc.continuousAt.eventually_lt continuousAt_const ?_
    simp [hτ0, h.torque]
  have e2 : ∀ᶠ y in 𝓝 ((0, v) : (V3 × V3) × (Fin 4 → ℝ)), ∀ i,
      |y.2 i + (f.Gpinv *ᵥ τ y.1) i / f.rwInertia * f.updateTime| < f.maxSpeed := by
    rw [eventually_all]
    intro i
    have hc : Continuous fun y : (V3 × V3) × (Fin 4 → ℝ) =>
      |y.2 i + (f.Gpinv *ᵥ τ y.1) i / f.rwInertia * f.updateTime| := by fun_prop
    refine hc.continuousAt.eventually_lt continuousAt_const ?_
    simp [hτ0, hv i]
  filter_upwards [e0, e1, e2] with y h0 h1 h2 f' hf' hft
  have hq : f'.qTarget ≠ 0 := by
    rw [hft, h.target]; exact ne_zero_of_norm (by rw [npNorm_rawMult, h.unit, h.mount, one_mul])
  obtain ⟨err, he, hev⟩ := near_error h.unit h.mount h0.le hσ
  have hr : starReading (σ • near t y.1.1) m ≠ 0 := by
    intro hz
    have hn : npNorm (rawMult (σ • near t y.1.1) m) = 1 := by
      rw [npNorm_rawMult, npNorm_smul, near_norm h.unit h0.le, h.mount]
      rcases hσ with rfl | rfl <;> norm_num
    have hs : toScalarLast (starReading (σ • near t y.1.1) m) = rawMult (σ • near t y.1.1) m := by
      apply vec4_ext <;> simp [toScalarLast, starReading, rawMult, Quaternion.re_mul, Quaternion.imI_mul,
        Quaternion.imJ_mul, Quaternion.imK_mul, toHLast_re, toHLast_imI, toHLast_imJ, toHLast_imK]
    rw [← hs, hz] at hn
    have : toScalarLast (0 : V4) = 0 := by apply vec4_ext <;> simp [toScalarLast]
    rw [this, npNorm_eq_zero.2 rfl] at hn
    exact zero_ne_one hn
  obtain ⟨err', g, he', hen, hg, hsg, htg, f₀, g₀, hs, hcheck, hgt⟩ :=
    updateState_step (by rw [hf'.rwInertia]; exact h.inertia.ne') (by rw [hf'.updateTime]; exact h.time.ne') hq hr
      y.1.2 y.2
  rw [hft, h.target] at he'
  obtain rfl : err = err' := Except.ok.inj (he.symm.trans he')
  have hK : f'.K = Matrix.fromCols (kq f) (kw f) := by rw [hf'.K]; exact (Matrix.fromCols_toCols f.K).symm
  have htor : errorTorque f' err y.1.2 = τ y.1 := by
    rw [errorTorque_eq, hf'.omegaTarget, h.rate, sub_zero, hK, Matrix.fromCols_mulVec_sumElim, hev, hτ]
    dsimp only
    rw [Matrix.mulVec_smul, Matrix.smul_mulVec, ← Matrix.mulVec_mulVec]
    module
  refine ⟨g, hg, ⟨hsg.Gpinv.trans hf'.Gpinv, hsg.rwInertia.trans hf'.rwInertia, hsg.updateTime.trans hf'.updateTime,
    hsg.omegaTarget.trans hf'.omegaTarget, hsg.maxTorque.trans hf'.maxTorque, hsg.maxSpeed.trans hf'.maxSpeed,
    hsg.K.trans hf'.K, hsg.mode.trans hf'.mode⟩, ?_, ?_⟩
  · rw [← hgt]
    have hall : Str.pyForall (fun i => f₀.checkTorque ((f.Gpinv *ᵥ τ y.1) i) (y.2 i)) = .ok (f.Gpinv *ᵥ τ y.1) := by
      apply fswForall_of_ok
      intro i
      refine checkTorque_small (by rw [hs.rwInertia, hf'.rwInertia]; exact h.inertia.ne') ?_ ?_
      · rw [hs.maxTorque, hf'.maxTorque]; exact (h1 i).le
      · rw [hs.rwInertia, hf'.rwInertia, hs.updateTime, hf'.updateTime, hs.maxSpeed, hf'.maxSpeed]; exact (h2 i).le
    rw [htor, Fsw.checkTorqueVals, Fsw.convertTorque, hf'.Gpinv, hall] at hcheck
    obtain rfl := Except.ok.inj hcheck
    rfl
  · rcases htg with htg | ⟨-, hang, hω⟩
    · exact Or.inl (htg.trans hft)
    right
    have h3 : err 3 ^ 2 = 1 := by
      have hc := (checkHemi_3 f' hen).1
      rw [errorAngle, if_pos hc] at hang
      have hang := Except.ok.inj hang
      have h0 : Real.arccos |(f'.checkHemi err).1 3| = 0 := by
        have := Real.pi_pos
        rcases div_eq_zero_iff.1 hang with h | h
        · linarith
        · exact absurd h this.ne'
      rw [Real.arccos_eq_zero] at h0
      have h1 : |(f'.checkHemi err).1 3| = 1 := le_antisymm hc h0
      have h2 : |err 3| = 1 := by
        rw [← h1, Fsw.checkHemi]
        split_ifs <;> simp
      rw [← sq_abs, h2, one_pow]
    have hn : err 0 ^ 2 + err 1 ^ 2 + err 2 ^ 2 + err 3 ^ 2 = 1 := by rw [← npNorm4_sq, hen]; norm_num
    have hz : (![err 0, err 1, err 2] : V3) = 0 := by
      apply vec3_ext <;> simp <;> nlinarith [sq_nonneg (err 0), sq_nonneg (err 1), sq_nonneg (err 2)]
    rw [hz] at hev
    have hδ : axes t *ᵥ y.1.1 = 0 := by
      rcases hσ with rfl | rfl
      · have := congrArg (fun z => (-2 : ℝ) • z) hev
        simpa [smul_smul] using this.symm
      · have := congrArg (fun z => (2 : ℝ) • z) hev
        simpa [smul_smul] using this.symm
    have hδ0 : y.1.1 = 0 := by
      by_contra hne
      exact one_ne_zero ((axes_det h.unit).symm.trans (Matrix.exists_mulVec_eq_zero_iff.1 ⟨_, hne, hδ⟩))
    exact Prod.ext hδ0 hω

/-- C158: the torque of the flight software near its target is the gain times the error and the rate, where the error
is turned from body axes into inertial axes; the mounting of the star tracker does not matter. -/
theorem C158_torque {f : Fsw} {G : Matrix (Fin 3) (Fin 4) ℝ} {t m : V4} (h : Aimed f G t m) {v : Fin 4 → ℝ}
    (hv : ∀ i, |v i| < f.maxSpeed) {σ : ℝ} (hσ : σ = 1 ∨ σ = -1) :
    Linearised f G t m v σ (-(σ / 2) • (kq f * axes t)) (kw f) := by
  have hc : Tendsto (fun x : V3 × V3 => (x, v)) (𝓝 0) (𝓝 (0, v)) := by
    have : Continuous fun x : V3 × V3 => (x, v) := by fun_prop
    exact this.tendsto 0
  filter_upwards [hc.eventually (near_step h hv hσ)] with x hx
  obtain ⟨g, hg, -, ht, -⟩ := hx f ⟨rfl, rfl, rfl, rfl, rfl, rfl, rfl, rfl⟩ rfl
  rw [reaction, hg]
  dsimp only at ht ⊢
  rw [ht, Matrix.mulVec_mulVec, h.wheels, Matrix.neg_mulVec, Matrix.one_mulVec, neg_neg]

/-- The torque near the target determines the two matrices. -/
theorem linearised_unique {f : Fsw} {G : Matrix (Fin 3) (Fin 4) ℝ} {t m : V4} {v : Fin 4 → ℝ} {σ : ℝ}
    {S D S' D' : M3} (h : Linearised f G t m v σ S D) (h' : Linearised f G t m v σ S' D') : S = S' ∧ D = D' := by
  have key : ∀ x : V3 × V3, -(S *ᵥ x.1) - D *ᵥ x.2 = -(S' *ᵥ x.1) - D' *ᵥ x.2 := by
    intro x
    have hc : Tendsto (fun ε : ℝ => ε • x) (𝓝[>] 0) (𝓝 (0 : V3 × V3)) := by
      have : Continuous fun ε : ℝ => ε • x := by fun_prop
      have h2 := this.tendsto 0
      rw [zero_smul] at h2
      exact h2.mono_left nhdsWithin_le_nhds
    have hev := hc.eventually (h.and h')
    obtain ⟨ε, ⟨h1, h2⟩, hε⟩ := (hev.and self_mem_nhdsWithin).exists
    have hε : (0 : ℝ) < ε := hε
    have h3 := h1.symm.trans h2
    simp only [Prod.smul_fst, Prod.smul_snd, Matrix.mulVec_smul] at h3
    have h4 : ε • (-(S *ᵥ x.1) - D *ᵥ x.2) = ε • (-(S' *ᵥ x.1) - D' *ᵥ x.2) := by
      rw [smul_sub, smul_sub, smul_neg, smul_neg]; exact h3
    exact smul_right_injective _ hε.ne' h4
  constructor
  · refine Matrix.ext_of_mulVec_single fun i => ?_
    have := key (Pi.single i 1, 0)
    simpa using this
  · refine Matrix.ext_of_mulVec_single fun i => ?_
    have := key (0, Pi.single i 1)
    simpa using this

theorem settles_iff {f : Fsw} {G : Matrix (Fin 3) (Fin 4) ℝ} {t m : V4} (h : Aimed f G t m) {v : Fin 4 → ℝ}
    (hv : ∀ i, |v i| < f.maxSpeed) {σ : ℝ} (hσ : σ = 1 ∨ σ = -1) (J : M3) :
    (Settles f G t m v σ J ↔ DiesOut J (-(σ / 2) • (kq f * axes t)) (kw f) f.updateTime) ∧
    (Leaves f G t m v σ J ↔ Grows J (-(σ / 2) • (kq f * axes t)) (kw f) f.updateTime) := by
  have hl := C158_torque h hv hσ
  refine ⟨⟨fun hs => hs _ _ hl, fun hd S D hSD => ?_⟩, ⟨fun hs => hs _ _ hl, fun hd S D hSD => ?_⟩⟩
  · obtain ⟨rfl, rfl⟩ := linearised_unique hl hSD; exact hd
  · obtain ⟨rfl, rfl⟩ := linearised_unique hl hSD; exact hd

/-- To first order the small rotation vector grows with the rate of the body. -/
theorem C158_kinematics {t : V4} (ht : npNorm t = 1) {δ ω : ℝ → V3} {s : ℝ} (hδ : δ s = 0) {δ' : V3}
    (hd : HasDerivAt δ δ' s) (hf : Spec.Follows (fun r => near t (δ r)) ω) : δ' = ω s := by
  have h1 : t 0 ^ 2 + t 1 ^ 2 + t 2 ^ 2 + t 3 ^ 2 = 1 := by rw [← npNorm4_sq, ht]; norm_num
  obtain ⟨d, hd1, hd2⟩ := hf s
  have hn : near t (δ s) = t := by
    rw [hδ]; apply vec4_ext <;> simp [near, rawMult]
  have hd2' : d = (1/2 : ℝ) • rawMult t ![ω s 0, ω s 1, ω s 2, 0] := by
    apply toHLast_injective
    rw [hd2, toHLast_smul, toHLast_rawMult]
    dsimp only
    rw [hn]
    rfl
  have hp : ∀ δ : V3, rawMult (quatConjugate t) (near t δ) =
      ![δ 0 / 2, δ 1 / 2, δ 2 / 2, √(1 - (δ 0 ^ 2 + δ 1 ^ 2 + δ 2 ^ 2) / 4)] := fun δ => (rawMult_conj ht _).2.2
  have hp2 : rawMult (quatConjugate t) d = (1/2 : ℝ) • ![ω s 0, ω s 1, ω s 2, 0] := by
    rw [hd2']
    have := rawMult_smul 1 (1/2) (quatConjugate t) (rawMult t ![ω s 0, ω s 1, ω s 2, 0])
    rw [one_smul, one_mul] at this
    rw [this, (rawMult_conj ht ![ω s 0, ω s 1, ω s 2, 0]).2.2]
  have hd' := hasDerivAt_pi.1 hd1
  have hδ' := hasDerivAt_pi.1 hd
  have hder : ∀ a b c e : ℝ, HasDerivAt (fun r => a * near t (δ r) 0 + b * near t (δ r) 1 + c * near t (δ r) 2 +
      e * near t (δ r) 3) (a * d 0 + b * d 1 + c * d 2 + e * d 3) s := fun a b c e =>
    ((((hd' 0).const_mul a).fun_add ((hd' 1).const_mul b)).fun_add ((hd' 2).const_mul c)).fun_add
      ((hd' 3).const_mul e)
  apply vec3_ext
  · have e1 := hder (t 3) (t 2) (-t 1) (-t 0)
    have e2 := (hδ' 0).div_const 2
    have e3 : (fun r => t 3 * near t (δ r) 0 + t 2 * near t (δ r) 1 + -t 1 * near t (δ r) 2 + -t 0 * near t (δ r) 3) =
        fun r => δ r 0 / 2 := by
      funext r
      have := congrFun (hp (δ r)) 0
      simp [rawMult, quatConjugate] at this
      rw [← this]; ring
    rw [e3] at e1
    have e4 := e1.unique e2
    have e5 := congrFun hp2 0
    simp [rawMult, quatConjugate] at e5
    linarith
  · have e1 := hder (-t 2) (t 3) (t 0) (-t 1)
    have e2 := (hδ' 1).div_const 2
    have e3 : (fun r => -t 2 * near t (δ r) 0 + t 3 * near t (δ r) 1 + t 0 * near t (δ r) 2 + -t 1 * near t (δ r) 3) =
        fun r => δ r 1 / 2 := by
      funext r
      have := congrFun (hp (δ r)) 1
      simp [rawMult, quatConjugate] at this
      rw [← this]; ring
    rw [e3] at e1
    have e4 := e1.unique e2
    have e5 := congrFun hp2 1
    simp [rawMult, quatConjugate] at e5
    linarith
  · have e1 := hder (t 1) (-t 0) (t 3) (-t 2)
    have e2 := (hδ' 2).div_const 2
    have e3 : (fun r => t 1 * near t (δ r) 0 + -t 0 * near t (δ r) 1 + t 3 * near t (δ r) 2 + -t 2 * near t (δ r) 3) =
        fun r => δ r 2 / 2 := by
      funext r
      have := congrFun (hp (δ r)) 2
      simp [rawMult, quatConjugate] at this
      rw [← this]; ring
    rw [e3] at e1
    have e4 := e1.unique e2
    have e5 := congrFun hp2 2
    simp [rawMult, quatConjugate] at e5
    linarith

/-- C158: for the gain of `get_gain_matrix`, and whatever the target, small errors about the target die out, at least
for one of the two quaternions of the attitude. -/
def C158_claim : Prop :=
  ∀ (d : V3) (T e w : ℝ) (K : Matrix (Fin 3) I6 ℝ), (∀ i, 0 < d i) → 0 < T → GetGain (Matrix.diagonal d) T e w K →
    ∀ (f : Fsw) (G : Matrix (Fin 3) (Fin 4) ℝ) (t m : V4) (v : Fin 4 → ℝ), Aimed f G t m → f.K = K → f.updateTime = T →
      (∀ i, |v i| < f.maxSpeed) → ∃ σ : ℝ, (σ = 1 ∨ σ = -1) ∧ Settles f G t m v σ (Matrix.diagonal d)

/-! ### Targets along the inertial axes -/

theorem axes_id : axes ![0, 0, 0, 1] = 1 := by
  ext i j
  rw [axes, Matrix.of_apply]
  fin_cases i <;> fin_cases j <;> simp [turn_0, turn_1, turn_2]

/-- C158 holds where the body axes of the target are the inertial axes, for every inertia: with the quaternion of the
attitude that has a negative scalar part, small errors die out. Missing: other targets. -/
theorem C158_upright_partial {J : M3} {T e w : ℝ} {K : Matrix (Fin 3) I6 ℝ} (hK : GetGain J T e w K) {f : Fsw}
    {G : Matrix (Fin 3) (Fin 4) ℝ} {m : V4} {v : Fin 4 → ℝ} (h : Aimed f G ![0, 0, 0, 1] m) (hf : f.K = K)
    (hT : f.updateTime = T) (hv : ∀ i, |v i| < f.maxSpeed) : Settles f G ![0, 0, 0, 1] m v (-1) J := by
  rw [(settles_iff h hv (Or.inr rfl) J).1, axes_id, hT, Matrix.mul_one, neg_div, neg_neg]
  have hJ : J.det ≠ 0 := by
    obtain ⟨-, -, Ji, -, hi, -⟩ := hK
    rw [npInv] at hi
    split_ifs at hi with h0
    exact h0
  have hst := ((C138_stable J T e w).1 K hK).1
  intro δ ω hh
  set X : ℕ → I6 → ℝ := fun k => Sum.elim ((1/2 : ℝ) • δ k) (ω k) with hX
  have hKc : K = Matrix.fromCols (kq f) (kw f) := by rw [← hf]; exact (Matrix.fromCols_toCols f.K).symm
  have hstep : ∀ k, X (k + 1) = (Ad T - Bd J⁻¹ T * K) *ᵥ X k := by
    intro k
    have hrate : T • (J⁻¹ *ᵥ (K *ᵥ X k)) = ω k - ω (k + 1) := by
      have h1 := congrArg (fun z => J⁻¹ *ᵥ z) (hh.rate k)
      simp only [Matrix.mulVec_mulVec, Matrix.nonsing_inv_mul J (isUnit_iff_ne_zero.2 hJ), Matrix.one_mulVec] at h1
      have h2 : K *ᵥ X k = (1/2 : ℝ) • kq f *ᵥ δ k + kw f *ᵥ ω k := by
        rw [hKc, hX]
        dsimp only
        rw [Matrix.fromCols_mulVec_sumElim, Matrix.mulVec_smul]
      have h3 : ω k - ω (k + 1) = J⁻¹ *ᵥ (T • (K *ᵥ X k)) := by
        rw [← neg_sub, h1, ← Matrix.mulVec_neg, h2]
        congr 1
        rw [Matrix.smul_mulVec]
        module
      rw [h3, Matrix.mulVec_smul]
    rw [Matrix.sub_mulVec, ← Matrix.mulVec_mulVec]
    have hA : Ad T *ᵥ X k = Sum.elim ((1/2 : ℝ) • δ k + (T / 2) • ω k) (ω k) := by
      rw [Ad, A, hX]
      dsimp only
      rw [Matrix.add_mulVec, Matrix.one_mulVec, Matrix.smul_mulVec, Matrix.fromBlocks_mulVec]
      funext i
      rcases i with i | i
      · simp [Function.comp_def, Matrix.smul_mulVec]; ring
      · simp [Function.comp_def]
    have hB : ∀ u : V3, Bd J⁻¹ T *ᵥ u = Sum.elim ((T / 4) • (T • (J⁻¹ *ᵥ u))) (T • (J⁻¹ *ᵥ u)) := by
      intro u
      rw [Bd, A, B, Matrix.fromBlocks_mul_fromRows, Matrix.add_mulVec, Matrix.smul_mulVec, Matrix.smul_mulVec,
        Matrix.fromRows_mulVec, Matrix.fromRows_mulVec]
      funext i
      rcases i with i | i
      · simp [Matrix.smul_mulVec]; ring
      · simp
    rw [hA, hB, hrate, hX]
    dsimp only
    rw [hh.angle k]
    funext i
    rcases i with i | i <;> simp
    ring
  have hpow : ∀ k, X k = ((Ad T - Bd J⁻¹ T * K) ^ k) *ᵥ X 0 := by
    intro k
    induction k with
    | zero => simp
    | succ k ih => rw [hstep, ih, Matrix.mulVec_mulVec, pow_succ']
  have ht : Tendsto X atTop (𝓝 0) := (hst (X 0)).congr fun k => (hpow k).symm
  rw [tendsto_pi_nhds] at ht
  constructor
  · rw [tendsto_pi_nhds]
    intro i
    have := (ht (.inl i)).const_mul 2
    simpa [hX] using this
  · rw [tendsto_pi_nhds]
    intro i
    simpa [hX] using ht (.inr i)

/-! ### Turned targets -/

/-- C158: for every inertia and every gain, if the trace of `(kq R)⁻¹ kw` is below three quarters of the sampling time
(`R` has the body axes of the target as columns), small errors grow; and with the other quaternion of the attitude, if
it is above minus this. So they always grow with at least one of the two quaternions. -/
theorem C158_trace_partial {f : Fsw} {G : Matrix (Fin 3) (Fin 4) ℝ} {t m : V4} (h : Aimed f G t m) {v : Fin 4 → ℝ}
    (hv : ∀ i, |v i| < f.maxSpeed) {J : M3} (hJ : J.det ≠ 0) (hk : (kq f).det ≠ 0) :
    (((kq f * axes t)⁻¹ * kw f).trace < 3 / 4 * f.updateTime → Leaves f G t m v (-1) J) ∧
    (-(3 / 4 * f.updateTime) < ((kq f * axes t)⁻¹ * kw f).trace → Leaves f G t m v 1 J) := by
  have hd : (kq f * axes t).det ≠ 0 := by rw [Matrix.det_mul, axes_det h.unit, mul_one]; exact hk
  have hinv : ∀ c : ℝ, c ≠ 0 → (c • (kq f * axes t))⁻¹ = c⁻¹ • (kq f * axes t)⁻¹ := by
    intro c hc
    apply Matrix.inv_eq_left_inv
    rw [Matrix.smul_mul, Matrix.mul_smul, smul_smul, inv_mul_cancel₀ hc, one_smul,
      Matrix.nonsing_inv_mul _ (isUnit_iff_ne_zero.2 hd)]
  constructor
  · intro ht
    rw [(settles_iff h hv (Or.inr rfl) J).2]
    refine grows_of_trace h.time hJ ?_ ?_
    · rw [Matrix.det_smul]; exact mul_ne_zero (by norm_num) hd
    · rw [hinv _ (by norm_num), Matrix.smul_mul, Matrix.trace_smul, Fintype.card_fin, smul_eq_mul]
      norm_num
      linarith
  · intro ht
    rw [(settles_iff h hv (Or.inl rfl) J).2]
    refine grows_of_trace h.time hJ ?_ ?_
    · rw [Matrix.det_smul]; exact mul_ne_zero (by norm_num) hd
    · rw [hinv _ (by norm_num), Matrix.smul_mul, Matrix.trace_smul, Fintype.card_fin, smul_eq_mul]
      norm_num
      linarith

theorem axes_spin (φ : ℝ) : axes (spin φ) =
    !![Real.cos φ, 0, Real.sin φ; 0, 1, 0; -Real.sin φ, 0, Real.cos φ] := by
  have h1 : Real.cos φ = Real.cos (φ / 2) ^ 2 - Real.sin (φ / 2) ^ 2 := by
    rw [← Real.cos_two_mul']; congr 1; ring
  have h2 : Real.sin φ = 2 * Real.sin (φ / 2) * Real.cos (φ / 2) := by
    rw [← Real.sin_two_mul]; congr 1; ring
  have h3 := Real.sin_sq_add_cos_sq (φ / 2)
  ext i j
  rw [axes, Matrix.of_apply, h1, h2]
  fin_cases i <;> fin_cases j <;> simp [turn_0, turn_1, turn_2, spin] <;> linarith

/-- The blocks of the gain for principal axes. -/
theorem gain_blocks {d : V3} (hd : ∀ i, d i ≠ 0) {T e w : ℝ} (hT : T ≠ 0) {f : Fsw}
    (h : GetGain (Matrix.diagonal d) T e w f.K) :
    kq f = Matrix.diagonal (fun i => f.K i (.inl i)) ∧ kw f = Matrix.diagonal (fun i => f.K i (.inr i)) := by
  have := gainMatrix_diag hd hT h
  constructor
  · ext i j
    have := congrFun (congrFun this i) (.inl j)
    simpa [diagGain, kq] using this
  · ext i j
    have := congrFun (congrFun this i) (.inr j)
    simpa [diagGain, kw] using this

/-- C158: about a target turned by a quarter turn about the body axis `y`, small errors grow for every satellite with
principal moments of inertia `d'`, every gain of `get_gain_matrix` for principal moments of inertia `d` (the wheels make
a difference), and both quaternions of the attitude. -/
theorem C158_quarter_partial {d d' : V3} (hd : ∀ i, 0 < d i) (hd' : ∀ i, d' i ≠ 0) {T e w : ℝ} (hT : 0 < T) {f : Fsw}
    (hK : GetGain (Matrix.diagonal d) T e w f.K) {G : Matrix (Fin 3) (Fin 4) ℝ} {m : V4} {v : Fin 4 → ℝ}
    (h : Aimed f G (spin (Real.pi / 2)) m) (hfT : f.updateTime = T) (hv : ∀ i, |v i| < f.maxSpeed) {σ : ℝ}
    (hσ : σ = 1 ∨ σ = -1) : Leaves f G (spin (Real.pi / 2)) m v σ (Matrix.diagonal d') := by
  obtain ⟨e1, e2⟩ := gain_blocks (fun i => (hd i).ne') hT.ne' hK
  have hg := C150_positive d hd T e w hT f.K hK
  rw [(settles_iff h hv hσ _).2, hfT, axes_spin, Real.cos_pi_div_two, Real.sin_pi_div_two, e1, e2]
  have hσ0 : σ ≠ 0 := by rcases hσ with rfl | rfl <;> norm_num
  have hout : ∀ i : Fin 3, i ∉ Set.range (![0, 2] : Fin 2 → Fin 3) → i = 1 := by
    intro i hi
    fin_cases i
    · exact absurd ⟨0, rfl⟩ hi
    · rfl
    · exact absurd ⟨1, rfl⟩ hi
  refine grows_sub ![0, 2] (by decide) ?_ ?_ ?_ ?_
  · intro i hi j; rw [hout i hi]; fin_cases j <;> simp
  · intro i hi j; rw [hout i hi]; fin_cases j <;> simp
  · intro i hi j; rw [hout i hi]; fin_cases j <;> simp
  · have hS : ((-(σ / 2) • (Matrix.diagonal (fun i => f.K i (.inl i)) *
        !![0, 0, 1; 0, 1, 0; -1, 0, 0] : M3)).submatrix ![0, 2] ![0, 2] : Matrix (Fin 2) (Fin 2) ℝ) =
        !![0, -(σ / 2) * f.K 0 (.inl 0); σ / 2 * f.K 2 (.inl 2), 0] := by
      ext i j
      fin_cases i <;> fin_cases j <;> simp
    have hD : ((Matrix.diagonal (fun i => f.K i (.inr i)) : M3).submatrix ![0, 2] ![0, 2] : Matrix (Fin 2) (Fin 2) ℝ) =
        !![f.K 0 (.inr 0), 0; 0, f.K 2 (.inr 2)] := by
      ext i j
      fin_cases i <;> fin_cases j <;> simp
    rw [hS, hD]
    have k0 := (hg 0).1
    have k2 := (hg 2).1
    have hdet : (!![0, -(σ / 2) * f.K 0 (.inl 0); σ / 2 * f.K 2 (.inl 2), 0] : Matrix (Fin 2) (Fin 2) ℝ).det ≠ 0 := by
      rw [Matrix.det_fin_two_of]
      have : 0 < σ ^ 2 := by positivity
      have : 0 < σ / 2 * f.K 0 (.inl 0) * (σ / 2 * f.K 2 (.inl 2)) := by
        have : σ / 2 * f.K 0 (.inl 0) * (σ / 2 * f.K 2 (.inl 2)) = σ ^ 2 / 4 * (f.K 0 (.inl 0) * f.K 2 (.inl 2)) := by ring
        rw [this]; positivity
      nlinarith
    refine grows_of_trace hT ?_ hdet ?_
    · have : ((Matrix.diagonal d' : M3).submatrix ![0, 2] ![0, 2] : Matrix (Fin 2) (Fin 2) ℝ) = !![d' 0, 0; 0, d' 2] := by
        ext i j
        fin_cases i <;> fin_cases j <;> simp
      rw [this, Matrix.det_fin_two_of]
      simpa using mul_ne_zero (hd' 0) (hd' 2)
    · rw [Matrix.inv_def, Matrix.adjugate_fin_two_of, Matrix.smul_mul, Matrix.trace_smul, Matrix.trace_fin_two]
      simp [hT]

/-- C158: about a target turned by half a turn about the body axis `y`, the same. -/
theorem C158_half_partial {d d' : V3} (hd : ∀ i, 0 < d i) (hd' : ∀ i, d' i ≠ 0) {T e w : ℝ} (hT : 0 < T) {f : Fsw}
    (hK : GetGain (Matrix.diagonal d) T e w f.K) {G : Matrix (Fin 3) (Fin 4) ℝ} {m : V4} {v : Fin 4 → ℝ}
    (h : Aimed f G (spin Real.pi) m) (hfT : f.updateTime = T) (hv : ∀ i, |v i| < f.maxSpeed) {σ : ℝ}
    (hσ : σ = 1 ∨ σ = -1) : Leaves f G (spin Real.pi) m v σ (Matrix.diagonal d') := by
  obtain ⟨e1, e2⟩ := gain_blocks (fun i => (hd i).ne') hT.ne' hK
  have hg := C150_positive d hd T e w hT f.K hK
  rw [(settles_iff h hv hσ _).2, hfT, axes_spin, Real.cos_pi, Real.sin_pi, neg_zero, e1, e2]
  have one : ∀ (a : Fin 3) (s : ℝ), s < 0 →
      (-(σ / 2) • (Matrix.diagonal (fun i => f.K i (.inl i)) * !![-1, 0, 0; 0, 1, 0; 0, 0, -1] : M3)) a a = s →
      Spec.Grows (Matrix.diagonal d') (-(σ / 2) • (Matrix.diagonal (fun i => f.K i (.inl i)) *
        !![-1, 0, 0; 0, 1, 0; 0, 0, -1])) (Matrix.diagonal fun i => f.K i (.inr i)) T := by
    intro a s hs hsa
    have hc : 0 < f.K a (.inr a) := lt_trans (mul_pos (by linarith) (hg a).1) (hg a).2.1
    refine grows_sub (fun _ : Fin 1 => a) (Function.injective_of_subsingleton _) ?_ ?_ ?_ ?_
    · intro i hi j
      have : i ≠ a := fun hh => hi ⟨0, hh.symm⟩
      rw [Matrix.diagonal_apply_ne _ this]
    · intro i hi j
      have : i ≠ a := fun hh => hi ⟨0, hh.symm⟩
      fin_cases i <;> fin_cases a <;> simp at this ⊢
    · intro i hi j
      have : i ≠ a := fun hh => hi ⟨0, hh.symm⟩
      rw [Matrix.diagonal_apply_ne _ this]
    · refine grows_of_trace hT ?_ ?_ ?_
      · rw [Matrix.det_fin_one]; simp [hd' a]
      · rw [Matrix.det_fin_one, Matrix.submatrix_apply, hsa]; exact hs.ne
      · rw [Matrix.inv_def, Matrix.adjugate_fin_one, Matrix.smul_mul, Matrix.trace_smul, Matrix.one_mul,
          Matrix.det_fin_one, Matrix.submatrix_apply, hsa, Matrix.trace_fin_one]
        simp only [Matrix.submatrix_apply, Matrix.diagonal_apply_eq, Ring.inverse_eq_inv', smul_eq_mul,
          Fintype.card_fin, Nat.cast_one]
        have := mul_neg_of_neg_of_pos (inv_lt_zero.2 hs) hc
        linarith
  rcases hσ with rfl | rfl
  · exact one 1 (-(1 / 2) * f.K 1 (.inl 1)) (by have := (hg 1).1; linarith) (by simp)
  · exact one 0 (-(1 / 2) * f.K 0 (.inl 0)) (by have := (hg 0).1; linarith) (by simp; ring)

/-- The targets of the simulation: the mounting of the star tracker is a quarter turn about `y`, the first target is
the initial attitude turned by a quarter turn, the second one by half a turn. -/
theorem shipped_targets : initialTarget ![0, 1, 0] 90 (aaq ![0, 1, 0] 90) =
      .ok (rawMult (spin (Real.pi / 2)) (aaq ![0, 1, 0] 90)) ∧
    secondTarget = rawMult (spin Real.pi) (aaq ![0, 1, 0] 90) := by
  have e : ∀ deg : ℝ, aaq ![0, 1, 0] deg = spin (npRadians deg) := by
    intro deg
    apply vec4_ext <;> simp [aaq, spin]
  have h90 : npRadians 90 = Real.pi / 2 := by rw [npRadians]; ring
  have h180 : npRadians 180 = Real.pi := by rw [npRadians]; ring
  constructor
  · rw [initialTarget, axisAngle_unit yAxis_norm]
    dsimp only
    rw [quatMult_unit (aaq_norm yAxis_norm _) (aaq_norm yAxis_norm _), e, h90]
  · rw [secondTarget, e 180, h180]

/-- C158: about both targets of the simulation (90 and 180 degrees), small errors grow: for every satellite with
principal moments of inertia, every gain of `get_gain_matrix`, every sampling time and both quaternions. -/
theorem C158_shipped_partial {d d' : V3} (hd : ∀ i, 0 < d i) (hd' : ∀ i, d' i ≠ 0) {T e w : ℝ} (hT : 0 < T) {f : Fsw}
    (hK : GetGain (Matrix.diagonal d) T e w f.K) {G : Matrix (Fin 3) (Fin 4) ℝ} {v : Fin 4 → ℝ}
    (hG : G * f.Gpinv = -1) (hr : f.omegaTarget = 0) (hI : 0 < f.rwInertia) (hm : 0 < f.maxTorque)
    (hfT : f.updateTime = T) (hv : ∀ i, |v i| < f.maxSpeed) {σ : ℝ} (hσ : σ = 1 ∨ σ = -1) :
    (initialTarget ![0, 1, 0] 90 (aaq ![0, 1, 0] 90) = .ok f.qTarget →
      Leaves f G (aaq ![0, 1, 0] 90) (aaq ![0, 1, 0] 90) v σ (Matrix.diagonal d')) ∧
    (f.qTarget = secondTarget → Leaves f G (aaq ![0, 1, 0] 180) (aaq ![0, 1, 0] 90) v σ (Matrix.diagonal d')) := by
  have e : ∀ deg : ℝ, aaq ![0, 1, 0] deg = spin (npRadians deg) := by
    intro deg
    apply vec4_ext <;> simp [aaq, spin]
  have h90 : npRadians 90 = Real.pi / 2 := by rw [npRadians]; ring
  have h180 : npRadians 180 = Real.pi := by rw [npRadians]; ring
  constructor
  · intro ht
    rw [shipped_targets.1] at ht
    have ht := (Except.ok.inj ht).symm
    have := C158_quarter_partial hd hd' hT hK (G := G) (m := aaq ![0, 1, 0] 90) (v := v) ⟨ht, spin_norm _,
      aaq_norm yAxis_norm _, hr, hI, by rw [hfT]; exact hT, hm, hG⟩ hfT hv hσ
    rw [← h90, ← e] at this
    exact this
  · intro ht
    rw [shipped_targets.2] at ht
    have := C158_half_partial hd hd' hT hK (G := G) (m := aaq ![0, 1, 0] 90) (v := v) ⟨ht, spin_norm _,
      aaq_norm yAxis_norm _, hr, hI, by rw [hfT]; exact hT, hm, hG⟩ hfT hv hσ
    rw [← h180, ← e] at this
    exact this

/-- The flight software of the simulation with the gain `K`, aiming at `t`. -/
noncomputable def exAim (K : Matrix (Fin 3) I6 ℝ) (t m : V4) : Fsw :=
  { Fsw.init exPinv 0.1 0.001 K with qTarget := rawMult t m }

theorem exAim_aimed (K : Matrix (Fin 3) I6 ℝ) {t m : V4} (ht : npNorm t = 1) (hm : npNorm m = 1) :
    Aimed (exAim K t m) (wheelMatrix (1/2) (1/2)) t m := by
  refine ⟨rfl, ht, hm, rfl, by norm_num [exAim, Fsw.init], by norm_num [exAim, Fsw.init],
    by norm_num [exAim, Fsw.init], ?_⟩
  have h : wheelMatrix (1/2) (1/2) * exPinv = 1 := by
    ext i j
    fin_cases i <;> fin_cases j <;>
      simp [exPinv, wheelMatrix, Matrix.mul_apply, Fin.sum_univ_four] <;> norm_num
  show wheelMatrix (1/2) (1/2) * -exPinv = -1
  rw [Matrix.mul_neg, h]

theorem exAim_speed (K : Matrix (Fin 3) I6 ℝ) (t m : V4) : ∀ i, |(0 : Fin 4 → ℝ) i| < (exAim K t m).maxSpeed := by
  intro i
  have := Real.pi_pos
  simp [exAim, Fsw.init]
  positivity

/-- C158 fails: for the moments of inertia of the satellite and the first target of the simulation. -/
theorem C158_settles_fails : ¬ C158_claim := by
  intro H
  obtain ⟨K, hK⟩ := exGain
  obtain ⟨σ, hσ, hs⟩ := H _ 0.1 0.1 0.05 K exMoments (by norm_num) hK (exAim K (spin (Real.pi / 2)) (aaq ![0, 1, 0] 90))
    (wheelMatrix (1/2) (1/2)) (spin (Real.pi / 2)) (aaq ![0, 1, 0] 90) 0
    (exAim_aimed K (spin_norm _) (aaq_norm yAxis_norm _)) rfl rfl (exAim_speed _ _ _)
  have hl := C158_quarter_partial exMoments (fun i => (exMoments i).ne') (by norm_num) (f := exAim K (spin (Real.pi / 2)) (aaq ![0, 1, 0] 90)) hK
    (exAim_aimed K (spin_norm _) (aaq_norm yAxis_norm _)) rfl (exAim_speed _ _ _) hσ
  have ht := C158_torque (exAim_aimed K (spin_norm (Real.pi / 2)) (aaq_norm yAxis_norm 90)) (exAim_speed _ _ _) hσ
  exact not_diesOut_of_grows (hl _ _ ht) (hs _ _ ht)

/-! ### A satellite that is the same about all axes -/

theorem axes_complex (t : V4) (x : Fin 3 → ℂ) :
    ((axes t).map Complex.ofReal *ᵥ x) = ![
      (t 3 ^ 2 + t 0 ^ 2 - t 1 ^ 2 - t 2 ^ 2) * x 0 + 2 * (t 0 * t 1 - t 3 * t 2) * x 1 + 2 * (t 0 * t 2 + t 3 * t 1) * x 2,
      2 * (t 0 * t 1 + t 3 * t 2) * x 0 + (t 3 ^ 2 - t 0 ^ 2 + t 1 ^ 2 - t 2 ^ 2) * x 1 + 2 * (t 1 * t 2 - t 3 * t 0) * x 2,
      2 * (t 0 * t 2 - t 3 * t 1) * x 0 + 2 * (t 1 * t 2 + t 3 * t 0) * x 1 + (t 3 ^ 2 - t 0 ^ 2 - t 1 ^ 2 + t 2 ^ 2) * x 2] := by
  funext i
  fin_cases i <;> simp [Matrix.mulVec, dotProduct, axes, Fin.sum_univ_three, turn_0, turn_1, turn_2]

/-- The eigenvalues of a turn. -/
theorem axes_eig {t : V4} (ht : npNorm t = 1) {x : Fin 3 → ℂ} (hx : x ≠ 0) {ρ : ℂ}
    (h : (axes t).map Complex.ofReal *ᵥ x = ρ • x) :
    ρ = 1 ∨ (ρ - (2 * t 3 ^ 2 - 1 : ℝ)) ^ 2 = -(1 - (2 * t 3 ^ 2 - 1 : ℝ) ^ 2) := by
  have h1 : (t 0 : ℂ) ^ 2 + t 1 ^ 2 + t 2 ^ 2 + t 3 ^ 2 = 1 := by
    have : t 0 ^ 2 + t 1 ^ 2 + t 2 ^ 2 + t 3 ^ 2 = 1 := by rw [← npNorm4_sq, ht]; norm_num
    exact_mod_cast this
  rw [axes_complex] at h
  have e0 := congrFun h 0
  have e1 := congrFun h 1
  have e2 := congrFun h 2
  simp at e0 e1 e2
  push_cast
  have hq : (ρ - 1) * (t 0 * x 0 + t 1 * x 1 + t 2 * x 2) = 0 := by
    linear_combination -(t 0 : ℂ) * e0 - t 1 * e1 - t 2 * e2 + (t 0 * x 0 + t 1 * x 1 + t 2 * x 2) * h1
  rcases mul_eq_zero.1 hq with h2 | h2
  · left; linear_combination h2
  · right
    have f0 : (ρ - (2 * t 3 ^ 2 - 1)) * x 0 = 2 * t 3 * (t 1 * x 2 - t 2 * x 1) := by
      linear_combination -e0 - x 0 * h1 + 2 * t 0 * h2
    have f1 : (ρ - (2 * t 3 ^ 2 - 1)) * x 1 = 2 * t 3 * (t 2 * x 0 - t 0 * x 2) := by
      linear_combination -e1 - x 1 * h1 + 2 * t 1 * h2
    have f2 : (ρ - (2 * t 3 ^ 2 - 1)) * x 2 = 2 * t 3 * (t 0 * x 1 - t 1 * x 0) := by
      linear_combination -e2 - x 2 * h1 + 2 * t 2 * h2
    have hc : (1 : ℂ) - (2 * t 3 ^ 2 - 1) ^ 2 = 4 * t 3 ^ 2 * (t 0 ^ 2 + t 1 ^ 2 + t 2 ^ 2) := by
      linear_combination -4 * (t 3 : ℂ) ^ 2 * h1
    set μ : ℂ := ρ - (2 * t 3 ^ 2 - 1) with hμ
    obtain ⟨i, hi⟩ := Function.ne_iff.1 hx
    have key : ∀ i, (μ ^ 2 + 4 * t 3 ^ 2 * (t 0 ^ 2 + t 1 ^ 2 + t 2 ^ 2)) * x i = 0 := by
      intro i
      fin_cases i
      · simp only [Fin.zero_eta]
        linear_combination μ * f0 + 2 * t 3 * t 1 * f2 - 2 * t 3 * t 2 * f1 + 4 * t 3 ^ 2 * t 0 * h2
      · simp only [Fin.mk_one]
        linear_combination μ * f1 + 2 * t 3 * t 2 * f0 - 2 * t 3 * t 0 * f2 + 4 * t 3 ^ 2 * t 1 * h2
      · simp only [Fin.reduceFinMk]
        linear_combination μ * f2 + 2 * t 3 * t 0 * f1 - 2 * t 3 * t 1 * f0 + 4 * t 3 ^ 2 * t 2 * h2
    have := (mul_eq_zero.1 (key i)).resolve_right hi
    rw [hc]
    linear_combination this

/-- A turn has an eigenvector for the angle of the turn. -/
theorem axes_eigvec {t : V4} (ht : npNorm t = 1) : ∃ (r : ℝ) (x : Fin 3 → ℂ), x ≠ 0 ∧
    r ^ 2 = 1 - (2 * t 3 ^ 2 - 1) ^ 2 ∧
    (axes t).map Complex.ofReal *ᵥ x = (((2 * t 3 ^ 2 - 1 : ℝ) : ℂ) + r * Complex.I) • x := by
  have h1 : t 0 ^ 2 + t 1 ^ 2 + t 2 ^ 2 + t 3 ^ 2 = 1 := by rw [← npNorm4_sq, ht]; norm_num
  by_cases hq : t 0 = 0 ∧ t 1 = 0 ∧ t 2 = 0
  · obtain ⟨h2, h3, h4⟩ := hq
    have h5 : t 3 ^ 2 = 1 := by rw [h2, h3, h4] at h1; linarith
    have h5' : (t 3 : ℂ) ^ 2 = 1 := by exact_mod_cast h5
    refine ⟨0, ![1, 0, 0], by intro h; simpa using congrFun h 0, by rw [h5]; norm_num, ?_⟩
    rw [axes_complex, h2, h3, h4]
    funext i
    fin_cases i <;> simp [h5']
    norm_num
  · set n : ℝ := √(t 0 ^ 2 + t 1 ^ 2 + t 2 ^ 2) with hn
    have hn2 : n ^ 2 = t 0 ^ 2 + t 1 ^ 2 + t 2 ^ 2 := Real.sq_sqrt (by positivity)
    have hn0 : n ≠ 0 := by
      intro h
      rw [h] at hn2
      apply hq
      have a := sq_nonneg (t 0); have b := sq_nonneg (t 1); have c := sq_nonneg (t 2)
      refine ⟨?_, ?_, ?_⟩ <;> (apply pow_eq_zero_iff (two_ne_zero) |>.1; linarith)
    have hn2' : (n : ℂ) ^ 2 = t 0 ^ 2 + t 1 ^ 2 + t 2 ^ 2 := by exact_mod_cast hn2
    have h1' : (t 0 : ℂ) ^ 2 + t 1 ^ 2 + t 2 ^ 2 + t 3 ^ 2 = 1 := by exact_mod_cast h1
    have hI := Complex.I_sq
    obtain ⟨p, hp, hp0⟩ : ∃ p : V3, p ≠ 0 ∧ t 0 * p 0 + t 1 * p 1 + t 2 * p 2 = 0 := by
      by_cases h2 : t 0 = 0 ∧ t 1 = 0
      · exact ⟨![1, 0, 0], by intro h; simpa using congrFun h 0, by simp [h2.1]⟩
      · refine ⟨![t 1, -t 0, 0], ?_, by simp; ring⟩
        intro h
        apply h2
        have a := congrFun h 0
        have b := congrFun h 1
        simp at a b
        exact ⟨b, a⟩
    have hp0' : (t 0 : ℂ) * p 0 + t 1 * p 1 + t 2 * p 2 = 0 := by exact_mod_cast hp0
    refine ⟨2 * t 3 * n, ![n * p 0 - Complex.I * (t 1 * p 2 - t 2 * p 1), n * p 1 - Complex.I * (t 2 * p 0 - t 0 * p 2),
      n * p 2 - Complex.I * (t 0 * p 1 - t 1 * p 0)], ?_, ?_, ?_⟩
    · intro h
      apply hp
      have key : ∀ a b c : ℝ, (n : ℂ) * a - Complex.I * ((b : ℂ) - c) = 0 → a = 0 := by
        intro a b c h
        have := congrArg Complex.re h
        simp at this
        exact this.resolve_left hn0
      apply vec3_ext
      · have := congrFun h 0
        simp only [Matrix.cons_val_zero, Pi.zero_apply] at this
        exact key _ (t 1 * p 2) (t 2 * p 1) (by push_cast; exact this)
      · have := congrFun h 1
        simp only [Matrix.cons_val_one, Matrix.cons_val_zero, Pi.zero_apply] at this
        exact key _ (t 2 * p 0) (t 0 * p 2) (by push_cast; exact this)
      · have := congrFun h 2
        simp only [Pi.zero_apply] at this
        exact key _ (t 0 * p 1) (t 1 * p 0) (by push_cast; exact this)
    · linear_combination 4 * t 3 ^ 2 * hn2 + 4 * t 3 ^ 2 * h1
    · rw [axes_complex]
      push_cast
      funext i
      fin_cases i <;> simp
      · linear_combination -(n * p 0 - Complex.I * (t 1 * p 2 - t 2 * p 1 : ℂ)) * h1' + (2 * t 0 * n - 2 * t 3 * Complex.I * t 0) * hp0' - 2 * t 3 * Complex.I * p 0 * hn2' + 2 * t 3 * n * (t 1 * p 2 - t 2 * p 1 : ℂ) * hI
      · linear_combination -(n * p 1 - Complex.I * (t 2 * p 0 - t 0 * p 2 : ℂ)) * h1' + (2 * t 1 * n - 2 * t 3 * Complex.I * t 1) * hp0' - 2 * t 3 * Complex.I * p 1 * hn2' + 2 * t 3 * n * (t 2 * p 0 - t 0 * p 2 : ℂ) * hI
      · linear_combination -(n * p 2 - Complex.I * (t 0 * p 1 - t 1 * p 0 : ℂ)) * h1' + (2 * t 2 * n - 2 * t 3 * Complex.I * t 2) * hp0' - 2 * t 3 * Complex.I * p 2 * hn2' + 2 * t 3 * n * (t 0 * p 1 - t 1 * p 0 : ℂ) * hI

/-- A turn has an axis. -/
theorem axes_axis {t : V4} (ht : npNorm t = 1) : ∃ x : Fin 3 → ℂ, x ≠ 0 ∧ (axes t).map Complex.ofReal *ᵥ x = x := by
  have h1 : t 0 ^ 2 + t 1 ^ 2 + t 2 ^ 2 + t 3 ^ 2 = 1 := by rw [← npNorm4_sq, ht]; norm_num
  have h1' : (t 0 : ℂ) ^ 2 + t 1 ^ 2 + t 2 ^ 2 + t 3 ^ 2 = 1 := by exact_mod_cast h1
  by_cases hq : t 0 = 0 ∧ t 1 = 0 ∧ t 2 = 0
  · obtain ⟨h2, h3, h4⟩ := hq
    have h5 : t 3 ^ 2 = 1 := by rw [h2, h3, h4] at h1; linarith
    have h5' : (t 3 : ℂ) ^ 2 = 1 := by exact_mod_cast h5
    refine ⟨![1, 0, 0], by intro h; simpa using congrFun h 0, ?_⟩
    rw [axes_complex, h2, h3, h4]
    funext i
    fin_cases i <;> simp [h5']
  · refine ⟨![t 0, t 1, t 2], ?_, ?_⟩
    · intro h
      apply hq
      have a := congrFun h 0
      have b := congrFun h 1
      have c := congrFun h 2
      simp at a b c
      exact ⟨a, b, c⟩
    · rw [axes_complex]
      funext i
      fin_cases i <;> simp
      · linear_combination (t 0 : ℂ) * h1'
      · linear_combination (t 1 : ℂ) * h1'
      · linear_combination (t 2 : ℂ) * h1'

/-- With the same moment of inertia about all axes, the gains are the same for all axes. -/
theorem round_gain {j T e w : ℝ} (hj : j ≠ 0) (hT : T ≠ 0) {K : Matrix (Fin 3) I6 ℝ}
    (hK : GetGain (Matrix.diagonal fun _ => j) T e w K) (i : Fin 3) :
    K i (.inl i) = K 0 (.inl 0) ∧ K i (.inr i) = K 0 (.inr 0) := by
  set U : M3 := !![0, 1, 0; 0, 0, 1; 1, 0, 0] with hU
  have hU1 : Uᵀ * U = 1 := by
    ext a b; fin_cases a <;> fin_cases b <;> simp [hU, Matrix.mul_apply, Fin.sum_univ_three]
  have hU2 : U * Uᵀ = 1 := mul_eq_one_comm.1 hU1
  have hJ : (Matrix.diagonal (fun _ => j) : M3).det ≠ 0 := by
    rw [Matrix.det_diagonal]; exact Finset.prod_ne_zero_iff.2 fun _ _ => hj
  have h2 := (C150_axes _ U hU1 T e w).1 K hK
  have h3 : U * Matrix.diagonal (fun _ => j) * Uᵀ = Matrix.diagonal fun _ => j := by
    have : (Matrix.diagonal fun _ => j : M3) = j • 1 := by rw [Matrix.smul_one_eq_diagonal]
    rw [this, Matrix.mul_smul, Matrix.mul_one, Matrix.smul_mul, hU2]
  rw [h3] at h2
  have h4 := (C138_unique _ hJ T e w hT hK.1 hK.2.1).1.unique h2 hK
  have g : ∀ a b, (U * K * (Matrix.fromBlocks U 0 0 U)ᵀ) a b = K a b := fun a b => by rw [h4]
  have a0 := g 0 (.inl 0)
  have a1 := g 1 (.inl 1)
  have b0 := g 0 (.inr 0)
  have b1 := g 1 (.inr 1)
  simp [hU, Matrix.mul_apply, Fintype.sum_sum_type, Fin.sum_univ_three, Matrix.fromBlocks_transpose, Matrix.vecMul,
    dotProduct] at a0 a1 b0 b1
  fin_cases i
  · exact ⟨rfl, rfl⟩
  · exact ⟨a0, b0⟩
  · exact ⟨a1.trans a0, b1.trans b0⟩

theorem map_diag (j : ℝ) : ((Matrix.diagonal fun _ => j : M3)).map Complex.ofReal =
    (j : ℂ) • (1 : Matrix (Fin 3) (Fin 3) ℂ) := by
  ext a b; by_cases h : a = b <;> simp [h]

theorem map_smul_one (c : ℝ) : (c • (1 : M3)).map Complex.ofReal = (c : ℂ) • (1 : Matrix (Fin 3) (Fin 3) ℂ) := by
  rw [Matrix.smul_one_eq_diagonal, map_diag]

theorem map_smul_mul (s k : ℝ) (A : M3) : (s • ((k • (1 : M3)) * A)).map Complex.ofReal =
    ((s * k : ℝ) : ℂ) • A.map Complex.ofReal := by
  ext a b; simp [mul_assoc]

/-- The equations of a mode along an eigenvector of the turn. -/
theorem round_mode {A : M3} {j T k c s : ℝ} (hj : j ≠ 0) (hT : T ≠ 0) {l ρ : ℂ} {x : Fin 3 → ℂ} (hl : l ≠ -1)
    (hx : A.map Complex.ofReal *ᵥ x = ρ • x) :
    ((l - 1) • (((Matrix.diagonal fun _ => j : M3)).map Complex.ofReal *ᵥ ((2 * (l - 1) / (T * (1 + l))) • x)) =
      (T : ℂ) • (-(((s • ((k • (1 : M3)) * A))).map Complex.ofReal *ᵥ x) -
        (c • (1 : M3)).map Complex.ofReal *ᵥ ((2 * (l - 1) / (T * (1 + l))) • x)) ↔
      x = 0 ∨ (l - 1) ^ 2 + (T * c / j : ℝ) * (l - 1) + s * (T ^ 2 * k / (2 * j) : ℝ) * ρ * (1 + l) = 0) ∧
    (l - 1) • x = ((T : ℂ) / 2 * (1 + l)) • ((2 * (l - 1) / (T * (1 + l))) • x) := by
  have hT' : (T : ℂ) ≠ 0 := by exact_mod_cast hT
  have hj' : (j : ℂ) ≠ 0 := by exact_mod_cast hj
  have hl' : 1 + l ≠ 0 := by intro h; apply hl; linear_combination h
  constructor
  · rw [map_diag, map_smul_one, map_smul_mul, Matrix.smul_mulVec, Matrix.smul_mulVec, Matrix.smul_mulVec, Matrix.one_mulVec, hx]
    rw [← sub_eq_zero]
    have : (l - 1) • (j : ℂ) • (2 * (l - 1) / (T * (1 + l))) • x -
        (T : ℂ) • (-(((s * k : ℝ) : ℂ) • ρ • x) - (c : ℂ) • (2 * (l - 1) / (T * (1 + l))) • x) =
        (2 * j / (T * (1 + l)) * ((l - 1) ^ 2 + (T * c / j : ℝ) * (l - 1) +
          s * (T ^ 2 * k / (2 * j) : ℝ) * ρ * (1 + l))) • x := by
      funext i
      simp only [Pi.smul_apply, Pi.sub_apply, Pi.neg_apply, smul_eq_mul]
      push_cast
      field_simp
      ring
    rw [this, smul_eq_zero, mul_eq_zero, or_comm]
    have h0 : 2 * (j : ℂ) / (T * (1 + l)) ≠ 0 := div_ne_zero (mul_ne_zero two_ne_zero hj') (mul_ne_zero hT' hl')
    simp [h0]
  · rw [smul_smul]
    congr 1
    field_simp

/-- A mode is along an eigenvector of the turn. -/
theorem round_eig {A : M3} {j T k c : ℝ} (hj : j ≠ 0) (hT : T ≠ 0) (hk : k ≠ 0) (hu : T * c ≠ 2 * j) {l : ℂ}
    {x y : Fin 3 → ℂ} (hne : x ≠ 0 ∨ y ≠ 0)
    (m1 : (l - 1) • (((Matrix.diagonal fun _ => j : M3)).map Complex.ofReal *ᵥ y) =
      (T : ℂ) • (-((((1 / 2 : ℝ) • ((k • (1 : M3)) * A))).map Complex.ofReal *ᵥ x) -
        (c • (1 : M3)).map Complex.ofReal *ᵥ y))
    (m2 : (l - 1) • x = ((T : ℂ) / 2 * (1 + l)) • y) : ∃ ρ : ℂ, x ≠ 0 ∧ A.map Complex.ofReal *ᵥ x = ρ • x ∧
      (l - 1) ^ 2 + (T * c / j : ℝ) * (l - 1) + (1 / 2 : ℝ) * (T ^ 2 * k / (2 * j) : ℝ) * ρ * (1 + l) = 0 := by
  have hT' : (T : ℂ) ≠ 0 := by exact_mod_cast hT
  have hj' : (j : ℂ) ≠ 0 := by exact_mod_cast hj
  have hk' : (k : ℂ) ≠ 0 := by exact_mod_cast hk
  have hlne : l ≠ -1 := by
    rintro rfl
    have hx : x = 0 := by
      have : (-1 - 1 : ℂ) • x = 0 := by rw [m2]; simp
      exact (smul_eq_zero.1 this).resolve_left (by norm_num)
    have hy := hne.resolve_left (not_not.2 hx)
    rw [hx, Matrix.mulVec_zero, map_diag, map_smul_one, Matrix.smul_mulVec, Matrix.smul_mulVec,
      Matrix.one_mulVec] at m1
    obtain ⟨i, hi⟩ := Function.ne_iff.1 hy
    have := congrFun m1 i
    simp only [Pi.smul_apply, Pi.sub_apply, Pi.neg_apply, Pi.zero_apply, smul_eq_mul] at this
    have h2 : ((-1 - 1 : ℂ) * j + T * c) * y i = 0 := by linear_combination this
    have h3 := (mul_eq_zero.1 h2).resolve_right hi
    have h4 : (-1 - 1) * j + T * c = 0 := by exact_mod_cast h3
    apply hu; linarith
  have hl' : 1 + l ≠ 0 := by intro h; apply hlne; linear_combination h
  have hy : y = (2 * (l - 1) / (T * (1 + l))) • x := by
    have : y = (2 / (T * (1 + l))) • ((T : ℂ) / 2 * (1 + l)) • y := by
      rw [smul_smul]
      have : 2 / ((T : ℂ) * (1 + l)) * ((T : ℂ) / 2 * (1 + l)) = 1 := by field_simp
      rw [this, one_smul]
    rw [this, ← m2, smul_smul]
    congr 1
    ring
  have hx : x ≠ 0 := by
    rcases hne with hx | hy'
    · exact hx
    · intro hx; apply hy'; rw [hy, hx, smul_zero]
  obtain ⟨V, hV⟩ : ∃ V : ℝ, V = T ^ 2 * k / (2 * j) := ⟨_, rfl⟩
  obtain ⟨u, hu'⟩ : ∃ u : ℝ, u = T * c / j := ⟨_, rfl⟩
  rw [← hV, ← hu']
  have hV' : (V : ℂ) ≠ 0 := by rw [hV]; push_cast; simp [hj', hT', hk']
  obtain ⟨ρ, hρ⟩ : ∃ ρ : ℂ, (l - 1) ^ 2 + (u : ℂ) * (l - 1) + (1 / 2 : ℝ) * (V : ℂ) * ρ * (1 + l) = 0 :=
    ⟨-((l - 1) ^ 2 + u * (l - 1)) * 2 / (V * (1 + l)), by push_cast; field_simp; ring⟩
  have hA : A.map Complex.ofReal *ᵥ x = ρ • x := by
    rw [map_diag, map_smul_one, map_smul_mul, Matrix.smul_mulVec, Matrix.smul_mulVec, Matrix.smul_mulVec,
      Matrix.one_mulVec, hy] at m1
    rw [hu', hV] at hρ
    funext i
    have := congrFun m1 i
    simp only [Pi.smul_apply, Pi.sub_apply, Pi.neg_apply, smul_eq_mul] at this ⊢
    push_cast at this hρ
    generalize (A.map Complex.ofReal *ᵥ x) i = z at this ⊢
    have h0 : (T : ℂ) * k / 2 ≠ 0 := by simp [hT', hk']
    apply mul_left_cancel₀ h0
    have e : (T : ℂ) * (1 / 2 * k) * z = -((l - 1) * (j * (2 * (l - 1) / (T * (1 + l)) * x i)) +
      T * (c * (2 * (l - 1) / (T * (1 + l)) * x i))) := by linear_combination this
    have e2 : (T : ℂ) * k / 2 * z = (T : ℂ) * (1 / 2 * k) * z := by ring
    rw [e2, e]
    have hρ2 : ρ = -((l - 1) ^ 2 + T * c / j * (l - 1)) / (1 / 2 * (T ^ 2 * k / (2 * j)) * (1 + l)) := by
      rw [eq_div_iff (by simp [hT', hk', hj', hl'])]
      linear_combination hρ
    rw [hρ2]
    field_simp
  exact ⟨ρ, hx, hA, hρ⟩
/-- C158, the exact criterion for a satellite that is the same about all axes: small errors about the target die out
exactly if the cosine `C` of the angle between body axes and inertial axes is large enough for the gains. -/
theorem C158_round_partial {j : ℝ} (hj : 0 < j) {T e w : ℝ} (hT : 0 < T) {f : Fsw}
    (hK : GetGain (Matrix.diagonal fun _ => j) T e w f.K) {G : Matrix (Fin 3) (Fin 4) ℝ} {t m : V4} {v : Fin 4 → ℝ}
    (h : Aimed f G t m) (hfT : f.updateTime = T) (hv : ∀ i, |v i| < f.maxSpeed) {k c C : ℝ}
    (hk : k = f.K 0 (.inl 0)) (hc : c = f.K 0 (.inr 0)) (hC : C = 2 * t 3 ^ 2 - 1) :
    (Settles f G t m v (-1) (Matrix.diagonal fun _ => j) ↔
      k * j / 2 * (1 - C ^ 2) * (1 - T ^ 2 * k * C / (8 * j)) < C * (c - T * k * C / 4) ^ 2) ∧
    (C * (c - T * k * C / 4) ^ 2 < k * j / 2 * (1 - C ^ 2) * (1 - T ^ 2 * k * C / (8 * j)) →
      Leaves f G t m v (-1) (Matrix.diagonal fun _ => j)) ∧
    Leaves f G t m v 1 (Matrix.diagonal fun _ => j) := by
  have hg := C150_positive _ (fun _ => hj) T e w hT f.K hK 0
  rw [← hk, ← hc] at hg
  obtain ⟨g1, g2, g3⟩ := hg
  obtain ⟨e1, e2⟩ := gain_blocks (fun _ => hj.ne') hT.ne' hK
  have e1 : kq f = k • (1 : M3) := by
    rw [e1, hk, Matrix.smul_one_eq_diagonal]; congr 1; funext i; exact (round_gain hj.ne' hT.ne' hK i).1
  have e2 : kw f = c • (1 : M3) := by
    rw [e2, hc, Matrix.smul_one_eq_diagonal]; congr 1; funext i; exact (round_gain hj.ne' hT.ne' hK i).2
  have hJ : (Matrix.diagonal (fun _ => j) : M3).det ≠ 0 := by
    rw [Matrix.det_diagonal]; exact Finset.prod_ne_zero_iff.2 fun _ _ => hj.ne'
  have h1 : t 0 ^ 2 + t 1 ^ 2 + t 2 ^ 2 + t 3 ^ 2 = 1 := by rw [← npNorm4_sq, h.unit]; norm_num
  have hC1 : C ≤ 1 := by rw [hC]; nlinarith [sq_nonneg (t 0), sq_nonneg (t 1), sq_nonneg (t 2)]
  have hC2 : 0 ≤ 1 - C ^ 2 := by rw [hC]; nlinarith [sq_nonneg (t 0), sq_nonneg (t 1), sq_nonneg (t 2), sq_nonneg (t 3)]
  set u : ℝ := T * c / j with hu
  set V : ℝ := T ^ 2 * k / (2 * j) with hV
  have hV0 : 0 < V := by positivity
  have hu2 : u < 2 := by
    rw [hu, div_lt_iff₀ hj]; rw [lt_div_iff₀ hT] at g3; linarith
  have hVu : V < 2 * u := by
    rw [hu, hV, div_lt_iff₀ (by positivity)]
    have : 2 * (T * c / j) * (2 * j) = 4 * T * c := by field_simp; ring
    rw [this]
    nlinarith
  have hVC : V * C < 2 * u := by nlinarith
  have crit : ∀ r : ℝ, r ^ 2 = 1 - C ^ 2 →
      C * (u - V * C / 2) ^ 2 - V * r ^ 2 * (1 - V * C / 4) = T ^ 2 / j ^ 2 *
        (C * (c - T * k * C / 4) ^ 2 - k * j / 2 * (1 - C ^ 2) * (1 - T ^ 2 * k * C / (8 * j))) := by
    intro r hr
    rw [hr, hu, hV]
    field_simp
    ring
  have hTj : 0 < T ^ 2 / j ^ 2 := by positivity
  have hhalf : -((-1 : ℝ) / 2) = 1 / 2 := by norm_num
  -- the equation of the modes
  have eqn : ∀ l ρ : ℂ, (l - 1) ^ 2 + (u : ℂ) * (l - 1) + (1 / 2 : ℝ) * (V : ℂ) * ρ * (1 + l) =
      l ^ 2 - (2 - u - V / 2 * ρ) * l + (1 - u + V / 2 * ρ) := by
    intro l ρ; push_cast; ring
  have outside : C * (c - T * k * C / 4) ^ 2 ≤ k * j / 2 * (1 - C ^ 2) * (1 - T ^ 2 * k * C / (8 * j)) →
      ∃ (l : ℂ) (x y : Fin 3 → ℂ), (x ≠ 0 ∨ y ≠ 0) ∧ 1 ≤ ‖l‖ ∧
        (C * (c - T * k * C / 4) ^ 2 < k * j / 2 * (1 - C ^ 2) * (1 - T ^ 2 * k * C / (8 * j)) → 1 < ‖l‖) ∧
        (l - 1) • (((Matrix.diagonal fun _ => j : M3)).map Complex.ofReal *ᵥ y) =
          (T : ℂ) • (-((((1 / 2 : ℝ) • ((k • (1 : M3)) * axes t))).map Complex.ofReal *ᵥ x) -
            (c • (1 : M3)).map Complex.ofReal *ᵥ y) ∧
        (l - 1) • x = ((T : ℂ) / 2 * (1 + l)) • y := by
    intro hE
    obtain ⟨r, x, hx, hr, hA⟩ := axes_eigvec h.unit
    rw [← hC] at hr hA
    have hcr := crit r hr
    obtain ⟨l, hl, hl1, hl2⟩ := mode_outside hr hV0 hu2 (by
      have := mul_nonneg hTj.le (sub_nonneg.2 hE); linarith)
    have hlne : l ≠ -1 := by
      rintro rfl
      have : (u : ℂ) = 2 := by linear_combination -hl / 2
      have : u = 2 := by exact_mod_cast this
      linarith
    obtain ⟨m1, m2⟩ := round_mode (A := axes t) (k := k) (c := c) (s := 1 / 2) hj.ne' hT.ne' hlne hA
    refine ⟨l, x, _, .inl hx, hl1, fun hs => hl2 (by
      have := mul_pos hTj (sub_pos.2 hs); linarith), m1.2 (.inr ?_), m2⟩
    rw [eqn]; exact hl
  refine ⟨?_, ?_, ?_⟩
  · rw [(settles_iff h hv (Or.inr rfl) _).1, hfT, e1, e2, hhalf]
    constructor
    · intro hd
      by_contra hE
      push Not at hE
      obtain ⟨l, x, y, hne, hl, -, m1, m2⟩ := outside hE
      exact not_diesOut_of_mode l hl x y hne m1 m2 hd
    · intro hE
      apply diesOut_of_modes hJ
      intro l x y hne m1 m2
      have hTc : T * c ≠ 2 * j := by rw [lt_div_iff₀ hT] at g3; linarith
      obtain ⟨ρ, hx, hA, hρ⟩ := round_eig hj.ne' hT.ne' g1.ne' hTc hne m1 m2
      rw [eqn] at hρ
      rcases axes_eig h.unit hx hA with h2 | h2
      · subst h2
        refine mode_inside (u := u) (v := V) (C := 1) (r := 0) (by norm_num) hV0 hu2 (by linarith) ?_ ?_
        · have : 0 < (u - V * 1 / 2) ^ 2 := by apply pow_pos; linarith
          simpa using this
        · simpa using hρ
      · rw [← hC] at h2
        set r : ℝ := √(1 - C ^ 2) with hr
        have hr2 : r ^ 2 = 1 - C ^ 2 := Real.sq_sqrt hC2
        have hr2' : (r : ℂ) ^ 2 = 1 - C ^ 2 := by exact_mod_cast hr2
        have h3 : (ρ - (C + r * Complex.I)) * (ρ - (C + (-r : ℝ) * Complex.I)) = 0 := by
          push_cast
          linear_combination h2 - r ^ 2 * Complex.I_sq + hr2'
        rcases mul_eq_zero.1 h3 with h4 | h4
        · obtain rfl := sub_eq_zero.1 h4
          exact mode_inside hr2 hV0 hu2 hVC (by have := crit r hr2; have := mul_pos hTj (sub_pos.2 hE); linarith) hρ
        · obtain rfl := sub_eq_zero.1 h4
          have hr3 : (-r) ^ 2 = 1 - C ^ 2 := by rw [neg_sq]; exact hr2
          exact mode_inside hr3 hV0 hu2 hVC (by have := crit (-r) hr3; have := mul_pos hTj (sub_pos.2 hE); linarith) hρ
  · intro hE
    rw [(settles_iff h hv (Or.inr rfl) _).2, hfT, e1, e2, hhalf]
    obtain ⟨l, x, y, hne, -, hl, m1, m2⟩ := outside hE.le
    exact grows_of_mode l (hl hE) x y hne m1 m2
  · rw [(settles_iff h hv (Or.inl rfl) _).2, hfT, e1, e2]
    obtain ⟨x, hx, hA⟩ := axes_axis h.unit
    set z : ℝ := (-(2 * u - V) + √((2 * u - V) ^ 2 + 16 * V)) / 4 with hz
    have hs : √((2 * u - V) ^ 2 + 16 * V) ^ 2 = (2 * u - V) ^ 2 + 16 * V := Real.sq_sqrt (by positivity)
    have hz0 : 0 < z := by
      have : |2 * u - V| < √((2 * u - V) ^ 2 + 16 * V) := by
        rw [← Real.sqrt_sq_eq_abs]; exact Real.sqrt_lt_sqrt (by positivity) (by linarith)
      have := (abs_lt.1 this).2
      rw [hz]; linarith
    have hzeq : 2 * z ^ 2 + (2 * u - V) * z - 2 * V = 0 := by
      rw [hz]; linear_combination hs / 8
    have hlne : ((1 + z : ℝ) : ℂ) ≠ -1 := by
      intro h0
      have : (1 + z : ℝ) = -1 := by exact_mod_cast h0
      linarith
    obtain ⟨m1, m2⟩ := round_mode (A := axes t) (k := k) (c := c) (s := -(1 / 2)) (ρ := 1) hj.ne' hT.ne' hlne
      (by rw [hA, one_smul])
    refine grows_of_mode _ ?_ x _ (.inl hx) (m1.2 (.inr ?_)) m2
    · rw [Complex.norm_real, Real.norm_eq_abs, abs_of_pos (by linarith)]; linarith
    · have : (2 * z ^ 2 + (2 * u - V) * z - 2 * V : ℂ) = 0 := by exact_mod_cast hzeq
      rw [← hu, ← hV]
      push_cast
      linear_combination this / 2

/-- C158: with the same moment of inertia about all axes, small errors grow about every target that is turned by a
right angle or more from the inertial axes, whatever the gain, the sampling time and the axis. -/
theorem C158_turned_partial {j : ℝ} (hj : 0 < j) {T e w : ℝ} (hT : 0 < T) {f : Fsw}
    (hK : GetGain (Matrix.diagonal fun _ => j) T e w f.K) {G : Matrix (Fin 3) (Fin 4) ℝ} {t m : V4} {v : Fin 4 → ℝ}
    (h : Aimed f G t m) (hfT : f.updateTime = T) (hv : ∀ i, |v i| < f.maxSpeed) (ht : t 3 ^ 2 ≤ 1 / 2) {σ : ℝ}
    (hσ : σ = 1 ∨ σ = -1) : Leaves f G t m v σ (Matrix.diagonal fun _ => j) := by
  obtain ⟨-, h2, h3⟩ := C158_round_partial hj hT hK h hfT hv rfl rfl rfl
  obtain ⟨g1, g2, g3⟩ := C150_positive _ (fun _ => hj) T e w hT f.K hK 0
  rcases hσ with rfl | rfl
  · exact h3
  · apply h2
    set k := f.K 0 (.inl 0) with hk
    set c := f.K 0 (.inr 0) with hc
    obtain ⟨C, hC⟩ : ∃ C, C = 2 * t 3 ^ 2 - 1 := ⟨_, rfl⟩
    rw [← hC]
    have hC0 : C ≤ 0 := by rw [hC]; linarith
    have hC1 : -1 ≤ C := by rw [hC]; nlinarith [sq_nonneg (t 3)]
    have hc0 : 0 < c := lt_trans (by positivity) g2
    have p1 : 0 ≤ -(T * k * C / 4) := by
      have : 0 ≤ T * k * -C / 4 := by have := neg_nonneg.2 hC0; positivity
      linarith
    have p2 : 0 < 1 - T ^ 2 * k * C / (8 * j) := by
      have : 0 ≤ T ^ 2 * k * -C / (8 * j) := by have := neg_nonneg.2 hC0; positivity
      have e : T ^ 2 * k * -C / (8 * j) = -(T ^ 2 * k * C / (8 * j)) := by ring
      linarith
    have p3 : 0 < (c - T * k * C / 4) ^ 2 := by apply pow_pos; linarith
    rcases hC0.lt_or_eq with h0 | h0
    · have : C * (c - T * k * C / 4) ^ 2 < 0 := mul_neg_of_neg_of_pos h0 p3
      have : 0 ≤ k * j / 2 * (1 - C ^ 2) * (1 - T ^ 2 * k * C / (8 * j)) := by
        have : 0 ≤ 1 - C ^ 2 := by nlinarith
        positivity
      linarith
    · rw [h0]
      simp
      positivity

/-- A satellite that is the same about all axes has gains, and there are targets at all angles. -/
example : ∃ K, GetGain (Matrix.diagonal fun _ => 0.016) 0.1 0.1 0.05 K ∧
    Aimed (exAim K ![0.6, 0, 0, 0.8] ![0, 0.6, 0, 0.8]) (wheelMatrix (1/2) (1/2)) ![0.6, 0, 0, 0.8] ![0, 0.6, 0, 0.8] ∧
    Aimed (exAim K ![0.8, 0, 0, 0.6] ![0, 0.6, 0, 0.8]) (wheelMatrix (1/2) (1/2)) ![0.8, 0, 0, 0.6] ![0, 0.6, 0, 0.8] ∧
    (![0.8, 0, 0, 0.6] : V4) 3 ^ 2 ≤ 1 / 2 := by
  have hJ : (Matrix.diagonal (fun _ => 0.016) : M3).det ≠ 0 := by
    rw [Matrix.det_diagonal]; norm_num [Fin.prod_univ_three]
  obtain ⟨K, hK⟩ := (C138_unique _ hJ 0.1 0.1 0.05 (by norm_num) (by norm_num) (by norm_num)).1.exists
  exact ⟨K, hK, exAim_aimed K (npNorm_vec4 (by norm_num)) (npNorm_vec4 (by norm_num)),
    exAim_aimed K (npNorm_vec4 (by norm_num)) (npNorm_vec4 (by norm_num)), by norm_num⟩

end Adcs
