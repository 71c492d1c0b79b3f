import Verif.Props.Detumble
import Verif.Props.Tracking
import Verif.Proofs.Manager
import Mathlib.Topology.Algebra.Module.FiniteDimension

set_option autoImplicit false

/-! # C180: what desaturation does to the wheels in the long run -/

namespace Adcs

open Str Sens JDay Quat Vec Dyn Ctl Spec
open scoped Matrix

/-- The satellite rests in the commanded attitude `q₀` while `track_and_desaturate` is given the moment that
`desaturate` asks for, or a part of at least `μ₀` of it, in a field whose direction in inertial coordinates is `b`
and whose strength is any; the wheels move as the dynamics say. -/
def Spec.Unloading (c : RwController) (mc : MagController) (hmc : mc.sat = c.sat) (μ₀ : ℝ) (b : ℝ → V3) (q₀ : V4)
    (ref : Fin c.sat.rw.n → ℝ) (st : ℝ → SatState c.sat.rw.n) : Prop :=
  ∀ t, 0 ≤ t → (st t).attrs.attitude = q₀ ∧ (st t).attrs.bodyAngVel = 0 ∧
    ∃ (s : Measurements c.sat.rw.n) (β μ : ℝ) (m F : V3) (a : Fin c.sat.rw.n → ℝ) (c' : RwController)
      (d : Raw c.sat.rw.n), Measured s (st t) ∧ s.mag = β • sandwich q₀ (b t) ∧ β ≠ 0 ∧ μ₀ ≤ μ ∧ μ ≤ 1 ∧
      magMoment s.mag (mc.desaturateTorque (hmc ▸ s.whl) (hmc ▸ ref)) = .ok m ∧
      c.trackAndDesaturate s (μ • m) 0 0 q₀ = (.ok a, c') ∧
      derivative c.sat (st t) ⟨F, (μ • m) ⨯₃ s.mag⟩ a = .ok d ∧
      HasDerivAt (fun τ => (st τ).attrs.wheelVel) d.whl t

/-- At rest in the commanded attitude the body stays at rest and the wheels take up the torque of the torquers. -/
theorem still_torque {c : RwController} {mass : ℝ} {dims : V3} {ab cd : ℝ} (hb : Built c.sat mass dims ab cd)
    (hm : mass ≠ 0) (hw : UnlimitedWheels c.sat) (hav : c.objAvoidance = false) {st : SatState c.sat.rw.n}
    {s : Measurements c.sat.rw.n} (hs : Measured s st) (hrest : s.rate = 0) (hatt : npNorm s.att = 1)
    {moment F : V3} {a : Fin c.sat.rw.n → ℝ} {c' : RwController}
    (ha : c.trackAndDesaturate s moment 0 0 s.att = (.ok a, c')) {d : Raw c.sat.rw.n}
    (hd : derivative c.sat st ⟨F, moment ⨯₃ s.mag⟩ a = .ok d) :
    d.rate = 0 ∧ d.whl = a ∧ c.sat.rw.torque a = moment ⨯₃ s.mag := by
  obtain ⟨objs, hobj⟩ : ∃ objs, c.objects s = .ok objs := by
    cases h : c.objects s with
    | ok o => exact ⟨o, rfl⟩
    | error e =>
      unfold RwController.trackAndDesaturate RwController.tracking at ha
      rw [h] at ha
      simp at ha
  have he : errorQuat s.att s.att = ![1, 0, 0, 0] := conj_product_self ((isUnit4_iff _).2 hatt)
  have hv : vecPart (![1, 0, 0, 0] : V4) = 0 := by apply vec3_ext <;> simp [vecPart]
  have ht := tracking_plain hav hobj 0 0 s.att
  have z : npCross 0 (c.sat.totalMoment *ᵥ 0 + c.sat.rw.momentum s.whl) = 0 := by
    apply vec3_ext <;> simp [npCross]
  have z2 : npCross 0 0 = 0 := by apply vec3_ext <;> simp [npCross]
  rw [he, hv, sandwich_one, hrest, z, z2] at ht
  simp only [smul_zero, sub_zero, add_zero, Matrix.mulVec_zero] at ht
  unfold RwController.trackAndDesaturate at ha
  rw [ht] at ha
  simp only [zero_add, RwController.actuatorCommands] at ha
  obtain ⟨a1, h1, t1⟩ := hw.accelerations (-npCross s.mag moment)
  have haa : a1 = a := Except.ok.inj (h1.symm.trans (Prod.mk.inj ha).1)
  subst haa
  obtain ⟨d', hd', -, h3, -, h5⟩ := derivative_rate hb hm st (npCross s.mag moment) F (moment ⨯₃ s.mag) a1 t1
  obtain rfl := Except.ok.inj (hd'.symm.trans hd)
  refine ⟨?_, h3, ?_⟩
  · rw [h5, ← hs.2.1, hrest, npCross_eq_crossProduct, npCross_eq_crossProduct]
    rw [← cross_anticomm s.mag moment]
    simp
  · rw [t1, npCross_eq_crossProduct, cross_anticomm]

theorem still_product (q : V4) : product q ![0, (0 : V3) 0, (0 : V3) 1, (0 : V3) 2] = 0 := by
  apply vec4_ext <;> simp [product_0, product_1, product_2, product_3]

theorem hasDerivAt_momentum (sat : Satellite) {f : ℝ → Fin sat.rw.n → ℝ} {f' : Fin sat.rw.n → ℝ} {t : ℝ}
    (hf : HasDerivAt f f' t) : HasDerivAt (fun τ => sat.rw.momentum (f τ)) (sat.rw.torque f') t := by
  have hc := hasDerivAt_pi.1 hf
  rw [hasDerivAt_pi]
  intro k
  have := HasDerivAt.fun_sum (u := Finset.univ)
    (fun i _ => ((hc i).const_mul ((sat.rw.wheels i).axis k)).mul_const ((sat.rw.wheels i).parScalar))
  have e : (fun τ => sat.rw.momentum (f τ) k) = fun τ =>
      ∑ i, (sat.rw.wheels i).axis k * f τ i * (sat.rw.wheels i).parScalar := by
    funext τ
    simp [RWSystem.momentum, Wheel.momentum, Finset.sum_apply]
  rw [e]
  refine this.congr_deriv ?_
  simp [RWSystem.torque, Wheel.torque, Finset.sum_apply]

/-- The excess momentum of the wheels changes like that of a tumbling satellite. -/
theorem unloading_damped {c : RwController} {mc : MagController} {hmc : mc.sat = c.sat} {mass : ℝ} {dims : V3}
    {ab cd : ℝ} (hb : Built c.sat mass dims ab cd) (hm : mass ≠ 0) (hw : UnlimitedWheels c.sat)
    (hav : c.objAvoidance = false) {μ₀ : ℝ} {b : ℝ → V3} {q₀ : V4} (hq : npNorm q₀ = 1)
    {ref : Fin c.sat.rw.n → ℝ} {st : ℝ → SatState c.sat.rw.n} (h : Spec.Unloading c mc hmc μ₀ b q₀ ref st) :
    Damped (fun τ => c.sat.rw.momentum (st τ).attrs.wheelVel - c.sat.rw.momentum ref) μ₀ b (fun _ => q₀)
      (fun _ => 0) := by
  obtain ⟨satm, tq, hb1, hb2, bb, trs⟩ := mc
  dsimp only at hmc
  subst hmc
  intro t ht
  obtain ⟨hatt, hrate, s, β, μ, m, F, a, c', d, hs, hmag, hβ, hμ, hμ1, hmo, ha, hd, hder⟩ := h t ht
  refine ⟨hq, β, μ, m, hβ, hμ, hμ1, ?_, ?_, ?_⟩
  · show magMoment _ ((-kBbq) • (c.sat.rw.momentum (st t).attrs.wheelVel - c.sat.rw.momentum ref)) = _
    rw [← hmag, ← hs.2.2]; exact hmo
  · refine (hasDerivAt_const t q₀).congr_deriv ?_
    rw [still_product, smul_zero]
  · have hsa : s.att = q₀ := hs.1.trans hatt
    rw [← hsa] at ha
    obtain ⟨-, h2, h3⟩ := still_torque hb hm hw hav hs (hs.2.1.trans hrate) (by rw [hsa]; exact hq) ha hd
    refine ((hasDerivAt_momentum c.sat hder).sub_const _).congr_deriv ?_
    rw [h2, h3, hmag]
    simp

/-- The claim: desaturation brings the wheels to the speeds asked for, in every turning field. -/
def C180_claim : Prop :=
  ∀ (c : RwController) (mc : MagController) (hmc : mc.sat = c.sat) (mass : ℝ) (dims : V3) (ab cd : ℝ),
    Built c.sat mass dims ab cd → mass ≠ 0 → UnlimitedWheels c.sat → c.objAvoidance = false →
    ∀ (n : ℝ) (e₁ e₂ : V3), 0 < n → Spec.Plane e₁ e₂ →
    ∀ (q₀ : V4) (ref : Fin c.sat.rw.n → ℝ) (st : ℝ → SatState c.sat.rw.n), npNorm q₀ = 1 →
      Spec.Unloading c mc hmc 1 (Spec.turning n e₁ e₂) q₀ ref st →
      Filter.Tendsto (fun t => (st t).attrs.wheelVel) Filter.atTop (nhds ref)

/-- The body is left in peace, whatever moment the torquers have. -/
theorem C180_still {c : RwController} {mass : ℝ} {dims : V3} {ab cd : ℝ} (hb : Built c.sat mass dims ab cd)
    (hm : mass ≠ 0) (hw : UnlimitedWheels c.sat) (hav : c.objAvoidance = false) {q₀ : V4} (hq : npNorm q₀ = 1)
    {st : SatState c.sat.rw.n} (hatt : st.attrs.attitude = q₀) (hrate : st.attrs.bodyAngVel = 0)
    {s : Measurements c.sat.rw.n} (hs : Measured s st) {moment F : V3} {a : Fin c.sat.rw.n → ℝ}
    {c' : RwController} (ha : c.trackAndDesaturate s moment 0 0 q₀ = (.ok a, c')) {d : Raw c.sat.rw.n}
    (hd : derivative c.sat st ⟨F, moment ⨯₃ s.mag⟩ a = .ok d) : d.rate = 0 ∧ d.att = 0 := by
  have hsa : s.att = q₀ := hs.1.trans hatt
  rw [← hsa] at ha hq
  obtain ⟨h1, -, h3⟩ := still_torque hb hm hw hav hs (hs.2.1.trans hrate) hq ha hd
  refine ⟨h1, ?_⟩
  obtain ⟨d', hd', -, -, h4, -⟩ := derivative_rate (F := F) (T := moment ⨯₃ s.mag) hb hm st
    (-(c.sat.rw.torque a)) a (by rw [neg_neg])
  obtain rfl := Except.ok.inj (hd'.symm.trans hd)
  rw [h4, hrate, still_product, smul_zero]

/-- In a field of fixed direction the excess momentum along it stays in the wheels, that across it dies out.
Missing of the claim: the part along the field, and (with more than three wheels) the null motion. -/
theorem C180_fixed_partial {c : RwController} {mc : MagController} {hmc : mc.sat = c.sat} {mass : ℝ} {dims : V3}
    {ab cd : ℝ} (hb : Built c.sat mass dims ab cd) (hm : mass ≠ 0) (hw : UnlimitedWheels c.sat)
    (hav : c.objAvoidance = false) {μ₀ : ℝ} {b : V3} (hbn : npNorm b = 1) {q₀ : V4} (hq : npNorm q₀ = 1)
    {ref : Fin c.sat.rw.n → ℝ} {st : ℝ → SatState c.sat.rw.n}
    (h : Spec.Unloading c mc hmc μ₀ (fun _ => b) q₀ ref st) {t : ℝ} (ht : 0 ≤ t) :
    let D := fun τ => c.sat.rw.momentum (st τ).attrs.wheelVel - c.sat.rw.momentum ref
    D t ⬝ᵥ sandwich q₀ b = D 0 ⬝ᵥ sandwich q₀ b ∧
    npNorm (Spec.across (sandwich q₀ b) (D t)) ≤
      Real.exp (-(kBbq * μ₀) * t) * npNorm (Spec.across (sandwich q₀ b) (D 0)) :=
  damped_fixed hbn (unloading_damped hb hm hw hav hq h) ht

/-- In a turning field the excess momentum dies out exponentially. Missing of the claim: the null motion. -/
theorem C180_turning_partial {c : RwController} {mc : MagController} {hmc : mc.sat = c.sat} {mass : ℝ} {dims : V3}
    {ab cd : ℝ} (hb : Built c.sat mass dims ab cd) (hm : mass ≠ 0) (hw : UnlimitedWheels c.sat)
    (hav : c.objAvoidance = false) {μ₀ n : ℝ} (h0 : 0 < μ₀) (hn : 0 < n) {e₁ e₂ : V3} (he : Spec.Plane e₁ e₂)
    {q₀ : V4} (hq : npNorm q₀ = 1) {ref : Fin c.sat.rw.n → ℝ} {st : ℝ → SatState c.sat.rw.n}
    (h : Spec.Unloading c mc hmc μ₀ (Spec.turning n e₁ e₂) q₀ ref st) {t : ℝ} (ht : 0 ≤ t) :
    let D := fun τ => c.sat.rw.momentum (st τ).attrs.wheelVel - c.sat.rw.momentum ref
    npNorm (D t) ^ 2 ≤
      3 * Real.exp (-(2 / 3 * (kBbq * μ₀ * n ^ 2 / (2 * n ^ 2 + kBbq ^ 2))) * t) * npNorm (D 0) ^ 2 :=
  damped_turning h0 hn he (unloading_damped hb hm hw hav hq h) ht

/-- The momentum as a linear map. -/
noncomputable def momentumMap (s : RWSystem) : (Fin s.n → ℝ) →ₗ[ℝ] V3 where
  toFun := s.momentum
  map_add' x y := by
    funext k
    simp only [RWSystem.momentum, Wheel.momentum, Finset.sum_apply, Pi.add_apply, ← Finset.sum_add_distrib]
    exact Finset.sum_congr rfl fun i _ => by ring
  map_smul' r x := by
    funext k
    simp only [RWSystem.momentum, Wheel.momentum, Finset.sum_apply, Pi.smul_apply, smul_eq_mul, Finset.mul_sum,
      RingHom.id_apply]
    exact Finset.sum_congr rfl fun i _ => by ring

theorem tendsto_zero_of_norm {f : ℝ → V3} {γ K : ℝ} (hγ : 0 < γ)
    (h : ∀ t, 0 ≤ t → npNorm (f t) ^ 2 ≤ K * Real.exp (-γ * t)) :
    Filter.Tendsto f Filter.atTop (nhds 0) := by
  have he : Filter.Tendsto (fun t => K * Real.exp (-γ * t)) Filter.atTop (nhds 0) := by
    have h1 : Filter.Tendsto (fun t : ℝ => -γ * t) Filter.atTop Filter.atBot :=
      Filter.tendsto_id.const_mul_atTop_of_neg (by linarith)
    simpa using (Real.tendsto_exp_atBot.comp h1).const_mul K
  rw [tendsto_pi_nhds]
  intro i
  have hi : ∀ᶠ t in Filter.atTop, f t i ^ 2 ≤ K * Real.exp (-γ * t) := by
    filter_upwards [Filter.eventually_ge_atTop 0] with t ht
    refine le_trans ?_ (h t ht)
    rw [npNorm_sq_dot, npDot_eq_dotProduct, Matrix.vec3_dotProduct]
    have h0 := mul_self_nonneg (f t 0)
    have h1 := mul_self_nonneg (f t 1)
    have h2 := mul_self_nonneg (f t 2)
    fin_cases i
    · show f t 0 ^ 2 ≤ _; rw [sq]; linarith
    · show f t 1 ^ 2 ≤ _; rw [sq]; linarith
    · show f t 2 ^ 2 ≤ _; rw [sq]; linarith
  have hs : Filter.Tendsto (fun t => f t i ^ 2) Filter.atTop (nhds 0) :=
    tendsto_of_tendsto_of_tendsto_of_le_of_le' tendsto_const_nhds he
      (Filter.Eventually.of_forall fun t => sq_nonneg _) hi
  have hr := (Real.continuous_sqrt.tendsto 0).comp hs
  simp only [Real.sqrt_zero] at hr
  have ha : Filter.Tendsto (fun t => |f t i|) Filter.atTop (nhds 0) := by
    refine hr.congr fun t => ?_
    simp [Real.sqrt_sq_eq_abs]
  simpa using (tendsto_zero_iff_abs_tendsto_zero _).2 ha

/-- So that wheels without a null motion come to the speeds asked for. Missing of the claim: wheels with one. -/
theorem C180_speeds_partial {c : RwController} {mc : MagController} {hmc : mc.sat = c.sat} {mass : ℝ} {dims : V3}
    {ab cd : ℝ} (hb : Built c.sat mass dims ab cd) (hm : mass ≠ 0) (hw : UnlimitedWheels c.sat)
    (hav : c.objAvoidance = false) (hinj : Function.Injective c.sat.rw.momentum)
    {μ₀ n : ℝ} (h0 : 0 < μ₀) (hn : 0 < n) {e₁ e₂ : V3} (he : Spec.Plane e₁ e₂)
    {q₀ : V4} (hq : npNorm q₀ = 1) {ref : Fin c.sat.rw.n → ℝ} {st : ℝ → SatState c.sat.rw.n}
    (h : Spec.Unloading c mc hmc μ₀ (Spec.turning n e₁ e₂) q₀ ref st) :
    Filter.Tendsto (fun t => (st t).attrs.wheelVel) Filter.atTop (nhds ref) := by
  have hk := kBbq_pos
  have hD : Filter.Tendsto (fun τ => c.sat.rw.momentum (st τ).attrs.wheelVel - c.sat.rw.momentum ref)
      Filter.atTop (nhds 0) := by
    refine tendsto_zero_of_norm (γ := 2 / 3 * (kBbq * μ₀ * n ^ 2 / (2 * n ^ 2 + kBbq ^ 2)))
      (K := 3 * npNorm (c.sat.rw.momentum (st 0).attrs.wheelVel - c.sat.rw.momentum ref) ^ 2) (by positivity) ?_
    intro t ht
    refine (C180_turning_partial hb hm hw hav h0 hn he hq h ht).trans (le_of_eq ?_)
    ring
  obtain ⟨g, hg⟩ := LinearMap.exists_leftInverse_of_injective (momentumMap c.sat.rw)
    (LinearMap.ker_eq_bot.2 hinj)
  have hgc : Continuous g := LinearMap.continuous_of_finiteDimensional g
  have h1 := (hgc.tendsto 0).comp hD
  rw [map_zero] at h1
  have h2 : (fun τ => g (c.sat.rw.momentum (st τ).attrs.wheelVel - c.sat.rw.momentum ref)) =
      fun τ => (st τ).attrs.wheelVel - ref := by
    funext τ
    have h3 : ∀ x, g (c.sat.rw.momentum x) = x := fun x => LinearMap.congr_fun hg x
    rw [map_sub, h3, h3]
  have h4 : Filter.Tendsto (fun τ => (st τ).attrs.wheelVel - ref) Filter.atTop (nhds 0) := by
    rw [← h2]; exact h1
  simpa using h4.add_const ref

/-- Controllers for any satellite. -/
theorem exCtl (sat : Satellite) (h3 : sat.nMt = 3) :
    ∃ (c : RwController) (mc : MagController), c.sat = sat ∧ mc.sat = c.sat ∧ c.objAvoidance = false ∧
      ∀ s, ∃ objs, c.objects s = .ok objs :=
  ⟨⟨sat, exClock, some fun _ _ => .ok ![1, 0, 0], false, Trigger.init 1 0.3, 2 * 1 ^ 2, 2 * 1 * 1,
        sat.instruments.map fun i => setGains i Real.pi (2 * 1 ^ 2 * 1)⟩,
    ⟨sat, fun i => sat.mt (i.cast h3.symm), sat.totalMoment *ᵥ bbq,
      npNorm (sat.totalMoment *ᵥ bbq) • Quat.sandwichOpp ecl ![0, 0, 1], false, fun _ => Trigger.init 1 0.3⟩,
    rfl, rfl, rfl, fun _ => ⟨_, rfl⟩⟩

/-- A state at rest with any wheel speeds. -/
theorem exRest (n : ℕ) (whl : Fin n → ℝ) : ∃ st : SatState n, st.attrs.attitude = ![1, 0, 0, 0] ∧
    st.attrs.bodyAngVel = 0 ∧ st.attrs.wheelVel = whl := by
  set a : Raw n := { exRaw n with rate := 0, att := ![1, 0, 0, 0], whl := whl } with ha
  have hpos : a.pos 0 ^ 2 + a.pos 1 ^ 2 = 6800000 ^ 2 := by simp [ha, exRaw]
  obtain ⟨st, hst, -, -, -⟩ := mkState_equator a exClock (by simp [ha, exRaw]) (by rw [hpos]; norm_num)
    (by
      rw [hpos, Real.sqrt_sq (by norm_num)]
      have := wgsE2_lt; have := wgsE2_pos
      unfold Fr.wgsA; nlinarith)
  obtain ⟨hcons, harr, -⟩ := C80_new hst
  exact ⟨st, by rw [hcons.attitude, harr], by rw [hcons.bodyAngVel, harr], by rw [hcons.wheelVel, harr]⟩

/-- Motions with given wheel speeds exist if the speeds change by the accelerations for the torque of the
torquers. -/
theorem unloading_of {c : RwController} {mc : MagController} (hmc : mc.sat = c.sat)
    (hav : c.objAvoidance = false) (hobjs : ∀ s, ∃ objs, c.objects s = .ok objs)
    (hb : Built c.sat 2 ![0.1, 0.1, 0.2] 0.8 2.2) (hw : UnlimitedWheels c.sat) (whl : ℝ → Fin c.sat.rw.n → ℝ)
    (ref : Fin c.sat.rw.n → ℝ) (b : ℝ → V3) (hbn : ∀ t, npNorm (b t) = 1)
    (h : ∀ t, 0 ≤ t → ∀ m, magMoment (b t) ((-kBbq) • (c.sat.rw.momentum (whl t) - c.sat.rw.momentum ref)) = .ok m →
      ∀ a, c.sat.rw.accelerations (m ⨯₃ b t) = .ok a → c.sat.rw.torque a = m ⨯₃ b t → HasDerivAt whl a t) :
    ∃ st : ℝ → SatState c.sat.rw.n, (∀ t, (st t).attrs.wheelVel = whl t) ∧
      Spec.Unloading c mc hmc 1 b ![1, 0, 0, 0] ref st := by
  choose st h1 h2 h4 using fun t => exRest c.sat.rw.n (whl t)
  refine ⟨st, h4, ?_⟩
  obtain ⟨satm, tq, hb1, hb2, bb, trs⟩ := mc
  dsimp only at hmc
  subst hmc
  intro t ht
  set s : Measurements c.sat.rw.n := ⟨(st t).attrs.position, (st t).attrs.velocity, (st t).attrs.attitude,
    (st t).attrs.bodyAngVel, (st t).attrs.wheelVel, b t, 0⟩ with hsdef
  have hms : Measured s (st t) := ⟨rfl, rfl, rfl⟩
  have hmag : s.mag = b t := rfl
  obtain ⟨objs, hobj⟩ := hobjs s
  have hbne : b t ≠ 0 := by
    intro h0
    have := unit3_dot (hbn t)
    rw [h0] at this; simp at this
  obtain ⟨m, hm, -, -⟩ := C65_moment (b t) ((-kBbq) • (c.sat.rw.momentum (whl t) - c.sat.rw.momentum ref)) hbne
  have hatt : s.att = ![1, 0, 0, 0] := hms.1.trans (h1 t)
  have hrest : s.rate = 0 := hms.2.1.trans (h2 t)
  have he : errorQuat s.att ![1, 0, 0, 0] = ![1, 0, 0, 0] := by
    rw [hatt]; exact conj_product_self (by simp [IsUnit4])
  have hv : vecPart (![1, 0, 0, 0] : V4) = 0 := by apply vec3_ext <;> simp [vecPart]
  have hlaw := tracking_plain hav hobj 0 0 ![1, 0, 0, 0]
  have z : npCross 0 (c.sat.totalMoment *ᵥ 0 + c.sat.rw.momentum s.whl) = 0 := by
    apply vec3_ext <;> simp [npCross]
  have z2 : npCross 0 0 = 0 := by apply vec3_ext <;> simp [npCross]
  rw [he, hv, sandwich_one, hrest, z, z2] at hlaw
  simp only [smul_zero, sub_zero, add_zero, Matrix.mulVec_zero] at hlaw
  obtain ⟨a, ha, hta⟩ := hw.accelerations (m ⨯₃ b t)
  obtain ⟨d, hd, -, hwh, -⟩ := derivative_rate (F := 0) (T := m ⨯₃ b t) hb (by norm_num) (st t)
    (-(c.sat.rw.torque a)) a (by rw [neg_neg])
  have htr : c.trackAndDesaturate s ((1 : ℝ) • m) 0 0 ![1, 0, 0, 0] =
      (.ok a, { c with trigger := (c.trigger.sign ((![1, 0, 0, 0] : V4) 0)).2 }) := by
    unfold RwController.trackAndDesaturate
    rw [hlaw]
    simp only [zero_add, RwController.actuatorCommands, one_smul]
    rw [npCross_eq_crossProduct, cross_anticomm, hmag, ha]
  refine ⟨h1 t, h2 t, s, 1, 1, m, 0, a, _, d, hms, ?_, one_ne_zero, le_rfl, le_rfl, ?_, htr, ?_, ?_⟩
  · rw [hmag, one_smul, sandwich_one]
  · show magMoment (b t) ((-kBbq) • (c.sat.rw.momentum s.whl - c.sat.rw.momentum ref)) = _
    rw [hms.2.2, h4]
    exact hm
  · rw [one_smul, hmag]; exact hd
  · rw [hwh]
    have hfun : (fun τ => (st τ).attrs.wheelVel) = whl := by funext τ; exact h4 τ
    rw [hfun]
    exact h t ht m hm a ha hta

theorem rwInit_par {n : ℕ} {ax : Fin n → V3} {par orth : Fin n → ℝ} {maxT : ℝ} {lim : Bool} {s : RWSystem}
    (h : RWSystem.init (mkWheels ax par orth) maxT lim = .ok s) (hp : ∀ i, par i ≠ 0) (i : Fin s.n) :
    (s.wheels i).parScalar ≠ 0 := by
  obtain rfl := rwInit_eq h
  exact hp i

theorem xy_plane : Spec.Plane ![1, 0, 0] ![0, 1, 0] := by
  refine ⟨?_, ?_, ?_⟩
  · rw [npNorm_eq_one, Fin.sum_univ_three]; norm_num
  · rw [npNorm_eq_one, Fin.sum_univ_three]; norm_num
  · simp

/-- Wheels on a pyramid that run against each other are left as they are. -/
theorem C180_speeds_fails : ¬ C180_claim := by
  intro H
  obtain ⟨sat, h3, -, hb, hrw⟩ := exSat4_built
  obtain ⟨c, mc, rfl, hmc, hav, hobjs⟩ := exCtl sat h3
  obtain ⟨s4, hs4, hn, hnull⟩ := C41_null_motion (Real.pi / 4) 0 (by positivity) (by linarith [Real.pi_pos]) 1e-5
    (by norm_num) (fun _ => 2e-6) 0.002 false
  obtain rfl : s4 = c.sat.rw := Except.ok.inj (hs4.symm.trans hrw)
  have hw : UnlimitedWheels c.sat := ⟨4, _, _, _, 0.002, fun _ => by norm_num, hrw⟩
  set x : Fin c.sat.rw.n → ℝ := fun i => ((100 : ℝ) • ![-1, 1, -1, 1]) (Fin.cast hn i) with hx
  have hmom : c.sat.rw.momentum x = c.sat.rw.momentum 0 := by
    have := ((hnull ((100 : ℝ) • ![-1, 1, -1, 1])).2 0).2 ⟨100, rfl⟩
    rw [zero_add] at this
    exact this
  obtain ⟨st, hwh, hun⟩ := unloading_of hmc hav hobjs hb hw (fun _ => x) 0
    (Spec.turning 1 ![1, 0, 0] ![0, 1, 0]) (fun t => (turning_frame xy_plane 1 t).1) (by
      intro t _ m hm a ha _
      have hbne : Spec.turning 1 ![1, 0, 0] ![0, 1, 0] t ≠ 0 := by
        intro h0
        have := unit3_dot (turning_frame xy_plane 1 t).1
        rw [h0] at this; simp at this
      simp only [hmom, sub_self, smul_zero] at hm
      rw [magMoment_ok hbne] at hm
      have hm0 : m = 0 := by
        rw [← Except.ok.inj hm]
        apply vec3_ext <;> simp [npCross]
      rw [hm0, LinearMap.map_zero₂] at ha
      obtain ⟨a0, ha0, -, hmin⟩ := C39_allocation _ _ _ (fun _ => by norm_num) 0.002 c.sat.rw hrw 0
      obtain rfl : a0 = a := Except.ok.inj (ha0.symm.trans ha)
      have hz := hmin 0 (by simp)
      have ha00 : a0 = 0 := by
        funext i
        have hnn : ∀ j ∈ Finset.univ, 0 ≤ ((c.sat.rw.wheels j).parScalar * a0 j) ^ 2 := fun j _ => sq_nonneg _
        have h0 := (Finset.sum_eq_zero_iff_of_nonneg hnn).1
          (le_antisymm (hz.trans (by simp)) (Finset.sum_nonneg hnn)) i (Finset.mem_univ i)
        have hpar := rwInit_par hrw (fun _ => by norm_num) i
        simpa [hpar] using h0
      rw [ha00]
      exact hasDerivAt_const t x)
  have hlim := H c mc hmc _ _ _ _ hb (by norm_num) hw hav 1 ![1, 0, 0] ![0, 1, 0] one_pos xy_plane ![1, 0, 0, 0] 0 st
    (npNorm_vec4 (by norm_num)) hun
  have hc : (fun t => (st t).attrs.wheelVel) = fun _ => x := by funext t; exact hwh t
  rw [hc] at hlim
  have h0 := tendsto_nhds_unique hlim tendsto_const_nhds
  have h1 := congrFun h0 (Fin.cast hn.symm 0)
  simp [hx] at h1

/-- Three wheels along the axes have no null motion. -/
theorem axes_momentum {s : RWSystem}
    (h : RWSystem.init (mkWheels exAxes (fun _ => 1e-5) (fun _ => 2e-6)) 0.002 false = .ok s) :
    ∃ hn : s.n = 3, ∀ x, s.momentum x = fun i => 1e-5 * x (Fin.cast hn.symm i) := by
  obtain rfl := rwInit_eq h
  refine ⟨rfl, fun x => ?_⟩
  funext k
  simp only [RWSystem.momentum, Wheel.momentum, mkWheels, Finset.sum_apply]
  rw [Fin.sum_univ_three]
  fin_cases k <;> simp [exAxes, Wheel.init, Pi.single_apply] <;> ring

/-- The hypotheses are met: three wheels, of which the third is slowed down while the field turns across it. -/
example : ∃ (c : RwController) (mc : MagController) (hmc : mc.sat = c.sat) (st : ℝ → SatState c.sat.rw.n),
    Built c.sat 2 ![0.1, 0.1, 0.2] 0.8 2.2 ∧ UnlimitedWheels c.sat ∧ c.objAvoidance = false ∧
    Function.Injective c.sat.rw.momentum ∧ Spec.Plane ![1, 0, 0] ![0, 1, 0] ∧
    Spec.Unloading c mc hmc 1 (Spec.turning (2 * Real.pi / 5560.8) ![1, 0, 0] ![0, 1, 0]) ![1, 0, 0, 0] 0 st ∧
    (st 0).attrs.wheelVel ≠ 0 := by
  obtain ⟨sat, hb, -, ⟨h3, -⟩, -, -, hrw⟩ := exSat3 false []
  obtain ⟨c, mc, rfl, hmc, hav, hobjs⟩ := exCtl sat h3
  have hw : UnlimitedWheels c.sat := ⟨3, _, _, _, 0.002, fun _ => by norm_num, hrw⟩
  obtain ⟨hn, hmom⟩ := axes_momentum hrw
  have hinj : Function.Injective c.sat.rw.momentum := by
    intro x y hxy
    rw [hmom, hmom] at hxy
    funext i
    have := congrFun hxy (Fin.cast hn i)
    norm_num at this
    exact this
  set x : ℝ → Fin c.sat.rw.n → ℝ := fun t i => Real.exp (-kBbq * t) * (![0, 0, 100] : V3) (Fin.cast hn i) with hx
  obtain ⟨st, hwh, hun⟩ := unloading_of hmc hav hobjs hb hw x 0
    (Spec.turning (2 * Real.pi / 5560.8) ![1, 0, 0] ![0, 1, 0]) (fun t => (turning_frame xy_plane _ t).1) (by
      intro t _ m hm a _ hta
      set b := Spec.turning (2 * Real.pi / 5560.8) ![1, 0, 0] ![0, 1, 0] t with hbd
      have hbne : b ≠ 0 := by
        intro h0
        have := unit3_dot (turning_frame xy_plane (2 * Real.pi / 5560.8) t).1
        rw [← hbd, h0] at this; simp at this
      obtain ⟨m', hm', -, hm2⟩ := C65_moment b ((-kBbq) • (c.sat.rw.momentum (x t) - c.sat.rw.momentum 0)) hbne
      obtain rfl : m' = m := Except.ok.inj (hm'.symm.trans hm)
      have hb2 : b 2 = 0 := by simp [hbd, Spec.turning]
      have hT : (-kBbq) • (c.sat.rw.momentum (x t) - c.sat.rw.momentum 0) =
          fun i => 1e-5 * ((Real.exp (-kBbq * t) * -kBbq) * (![0, 0, 100] : V3) i) := by
        rw [hmom, hmom]
        funext i
        simp [hx]
        ring
      have hdot : b ⬝ᵥ ((-kBbq) • (c.sat.rw.momentum (x t) - c.sat.rw.momentum 0)) = 0 := by
        rw [hT, Matrix.vec3_dotProduct, hb2]; simp
      rw [hm2, hdot, zero_div, zero_smul, sub_zero, hT] at hta
      have ha : a = fun i => (Real.exp (-kBbq * t) * -kBbq) * (![0, 0, 100] : V3) (Fin.cast hn i) := by
        funext i
        have h1 : c.sat.rw.torque a = c.sat.rw.momentum a := rfl
        rw [h1, hmom] at hta
        have := congrFun hta (Fin.cast hn i)
        exact mul_left_cancel₀ (by norm_num) this
      rw [ha, hasDerivAt_pi]
      intro i
      have he : HasDerivAt (fun τ => Real.exp (-kBbq * τ)) (Real.exp (-kBbq * t) * -kBbq) t := by
        simpa using ((hasDerivAt_id t).const_mul (-kBbq)).exp
      exact he.mul_const _)
  refine ⟨c, mc, hmc, st, hb, hw, hav, hinj, xy_plane, hun, ?_⟩
  rw [hwh]
  intro h0
  have := congrFun h0 (Fin.cast hn.symm 2)
  simp [hx] at this

end Adcs
