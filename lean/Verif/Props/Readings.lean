import Verif.Proofs.Readings
import Verif.Props.Mismatch

set_option autoImplicit false

/-! # C211: tracking with readings that are not exact -/

namespace Adcs

open Str Ctl Sens JDay Quat Vec Dyn
open scoped Matrix

/-- Readings of a state that are off by at most `η`: the quaternion, the rate (rad/s) and the speed of each wheel (rad/s). -/
def Spec.ReadWithin {n : ℕ} (η : ℝ) (s : Measurements n) (st : SatState n) : Prop :=
  npNorm (s.att - st.attrs.attitude) ≤ η ∧ npNorm (s.rate - st.attrs.bodyAngVel) ≤ η ∧
    ∀ i, |s.whl i - st.attrs.wheelVel i| ≤ η

/-- One instant of the closed loop of the controller `c` and its satellite, as in `Spec.Instant`, but with readings that
are off by at most `η`; nothing is said about how the errors of different instants are related. The disturbing torques
accelerate by at most `δ`, and the wheels carry a momentum of at most `H`. -/
def Spec.ReadInstant (c : RwController) (qc : V4) (δ η H : ℝ) (tr tr' : Trigger) (st : SatState c.sat.rw.n)
    (d : Raw c.sat.rw.n) : Prop :=
  ∃ (s : Measurements c.sat.rw.n) (objs : List V3) (law : V3) (c' : RwController) (a : Fin c.sat.rw.n → ℝ) (F T : V3),
    Spec.ReadWithin η s st ∧ npNorm (c.sat.rw.momentum st.attrs.wheelVel) ≤ H ∧
    ({ c with trigger := tr } : RwController).objects s = .ok objs ∧
    (c.objAvoidance = false ∨ Clear c.instruments objs) ∧
    ({ c with trigger := tr } : RwController).tracking s 0 0 qc = (.ok law, c') ∧ c'.trigger = tr' ∧
    c.actuatorCommands law = .ok a ∧ npNorm (c.sat.invTotMoment *ᵥ T) ≤ δ ∧ derivative c.sat st ⟨F, T⟩ a = .ok d

/-- Runs of this loop: time, memory, state, number of switches. -/
inductive Spec.ReadRun (c : RwController) (qc : V4) (δ η H : ℝ) (tr0 : Trigger) (st0 : SatState c.sat.rw.n) :
    ℝ → Trigger → SatState c.sat.rw.n → ℕ → Prop
  | start : ReadRun c qc δ η H tr0 st0 0 tr0 st0 0
  | flow {t : ℝ} {tr : Trigger} {n : ℕ} (st : ℝ → SatState c.sat.rw.n) (T : ℝ) (hT : 0 ≤ T) :
      ReadRun c qc δ η H tr0 st0 t tr (st 0) n →
      ContinuousOn (fun τ => (st τ).attrs.attitude) (Set.Icc 0 T) →
      ContinuousOn (fun τ => (st τ).attrs.bodyAngVel) (Set.Icc 0 T) →
      (∀ τ ∈ Set.Ico 0 T, ∃ d, Spec.ReadInstant c qc δ η H tr tr (st τ) d ∧
        HasDerivAt (fun τ => (st τ).attrs.attitude) d.att τ ∧ HasDerivAt (fun τ => (st τ).attrs.bodyAngVel) d.rate τ) →
      ReadRun c qc δ η H tr0 st0 (t + T) tr (st T) n
  | switch {t : ℝ} {tr tr' : Trigger} {n : ℕ} {st : SatState c.sat.rw.n} {d : Raw c.sat.rw.n} :
      ReadRun c qc δ η H tr0 st0 t tr st n → Spec.ReadInstant c qc δ η H tr tr' st d → tr' ≠ tr →
      ReadRun c qc δ η H tr0 st0 t tr' st (n + 1)

/-- What the command of one set of readings does. -/
theorem read_deriv {c : RwController} {mass : ℝ} {dims : V3} {ab cd : ℝ} (hb : Built c.sat mass dims ab cd)
    (hm : mass ≠ 0) (hw : UnlimitedWheels c.sat) {qc : V4} {tr : Trigger} {st : SatState c.sat.rw.n} {d : Raw c.sat.rw.n}
    {s : Measurements c.sat.rw.n} {objs : List V3} {law : V3} {c' : RwController} {a : Fin c.sat.rw.n → ℝ} {F T : V3}
    (hobj : ({ c with trigger := tr } : RwController).objects s = .ok objs)
    (hcl : c.objAvoidance = false ∨ Clear c.instruments objs)
    (ht : ({ c with trigger := tr } : RwController).tracking s 0 0 qc = (.ok law, c'))
    (ha : c.actuatorCommands law = .ok a) (hd : derivative c.sat st ⟨F, T⟩ a = .ok d) :
    c'.trigger = tr.step (errorQuat s.att qc 0) ∧
      d.att = (0.5 : ℝ) • product st.attrs.attitude (pureQ st.attrs.bodyAngVel) ∧
      d.rate = (-((tr.step (errorQuat s.att qc 0)).memory * c.alpha) • vecPart (errorQuat s.att qc) - c.gamma • s.rate) +
        (c.sat.invTotMoment *ᵥ (npCross s.rate (c.sat.totalMoment *ᵥ s.rate + c.sat.rw.momentum s.whl)
          - npCross st.attrs.bodyAngVel (c.sat.totalMoment *ᵥ st.attrs.bodyAngVel
            + c.sat.rw.momentum st.attrs.wheelVel)) + c.sat.invTotMoment *ᵥ T) := by
  rw [tracking_clear hobj hcl,
    tracking_plain (c := { c with trigger := tr, objAvoidance := false }) rfl hobj] at ht
  obtain ⟨e1, e2⟩ := Prod.ext_iff.1 ht
  simp only at e1 e2
  have e1 := Except.ok.inj e1
  obtain ⟨a', ha', hta⟩ := hw.accelerations (-law)
  have : a' = a := Except.ok.inj (ha'.symm.trans ha)
  subst this
  have hmem : (tr.sign (errorQuat s.att qc 0)).1 = (tr.step (errorQuat s.att qc 0)).memory := rfl
  have hm' : c.sat.mass ≠ 0 := by rw [hb.mass_eq.1]; exact hm
  simp only [derivative, npVDiv, if_neg hm'] at hd
  have hd := (Except.ok.inj hd).symm
  refine ⟨by rw [← e2]; rfl, by rw [hd]; rfl, ?_⟩
  have z : ∀ q : V4, sandwich q 0 = 0 := fun q => by rw [sandwich_eq_dcm, Matrix.mulVec_zero]
  have z2 : ∀ v : V3, npCross v 0 = 0 := fun v => by rw [npCross_eq_crossProduct, LinearMap.map_zero]
  rw [hmem, z, z2, add_zero, sub_zero, sub_zero] at e1
  rw [hd]
  show c.sat.invTotMoment *ᵥ (T - c.sat.rw.torque a' - npCross st.attrs.bodyAngVel (c.sat.rw.momentum st.attrs.wheelVel
    + c.sat.totalMoment *ᵥ st.attrs.bodyAngVel)) = _
  rw [hta, ← e1, sub_neg_eq_add]
  rw [add_comm (c.sat.rw.momentum st.attrs.wheelVel)]
  rw [neg_mul]
  obtain ⟨p, hp⟩ : ∃ p, p = -((tr.step (errorQuat s.att qc 0)).memory * c.alpha) • vecPart (errorQuat s.att qc)
    - c.gamma • s.rate := ⟨_, rfl⟩
  rw [← hp, ← hb.cancel p]
  simp only [Matrix.mulVec_add, Matrix.mulVec_sub, hb.cancel]
  abel

/-- What happens at an instant, in terms of the readings. -/
theorem read_instant {c : RwController} {mass : ℝ} {dims : V3} {ab cd : ℝ} (hb : Built c.sat mass dims ab cd)
    (hm : mass ≠ 0) (hw : UnlimitedWheels c.sat) {qc : V4} {δ η H : ℝ} {tr tr' : Trigger}
    {st : SatState c.sat.rw.n} {d : Raw c.sat.rw.n} (h : Spec.ReadInstant c qc δ η H tr tr' st d) :
    ∃ (s : Measurements c.sat.rw.n) (x : V3), Spec.ReadWithin η s st ∧
      npNorm (c.sat.rw.momentum st.attrs.wheelVel) ≤ H ∧ tr' = tr.step (errorQuat s.att qc 0) ∧
      d.att = (0.5 : ℝ) • product st.attrs.attitude (pureQ st.attrs.bodyAngVel) ∧ npNorm x ≤ δ ∧
      d.rate = (-(tr'.memory * c.alpha) • vecPart (errorQuat s.att qc) - c.gamma • s.rate) +
        (c.sat.invTotMoment *ᵥ (npCross s.rate (c.sat.totalMoment *ᵥ s.rate + c.sat.rw.momentum s.whl)
          - npCross st.attrs.bodyAngVel (c.sat.totalMoment *ᵥ st.attrs.bodyAngVel
            + c.sat.rw.momentum st.attrs.wheelVel)) + x) := by
  obtain ⟨s, objs, law, c', a, F, T, hs, hH, hobj, hcl, ht, htr, ha, hT, hd⟩ := h
  obtain ⟨h1, h2, h3⟩ := read_deriv hb hm hw hobj hcl ht ha hd
  rw [← h1, htr] at h3
  exact ⟨s, _, hs, hH, htr.symm.trans h1, h2, hT, h3⟩

/-- A controller that can find the objects around it has an instant in every state, for all readings. -/
theorem read_instant_exists (c : RwController) {mass : ℝ} {dims : V3} {ab cd : ℝ} (hb : Built c.sat mass dims ab cd)
    (hm : mass ≠ 0) (hw : UnlimitedWheels c.sat) (hav : c.objAvoidance = false)
    (s0 : Measurements c.sat.rw.n) (objs0 : List V3) (hobj : c.objects s0 = .ok objs0) (qc : V4) (tr : Trigger)
    (st : SatState c.sat.rw.n) (q : V4) (w : V3) (v : Fin c.sat.rw.n → ℝ) {η H : ℝ}
    (h1 : npNorm (q - st.attrs.attitude) ≤ η) (h2 : npNorm (w - st.attrs.bodyAngVel) ≤ η)
    (h3 : ∀ i, |v i - st.attrs.wheelVel i| ≤ η) (hH : npNorm (c.sat.rw.momentum st.attrs.wheelVel) ≤ H) :
    ∃ d, Spec.ReadInstant c qc 0 η H tr (tr.step (errorQuat q qc 0)) st d ∧
      d.att = (0.5 : ℝ) • product st.attrs.attitude (pureQ st.attrs.bodyAngVel) ∧
      d.rate = (-((tr.step (errorQuat q qc 0)).memory * c.alpha) • vecPart (errorQuat q qc) - c.gamma • w) +
        c.sat.invTotMoment *ᵥ (npCross w (c.sat.totalMoment *ᵥ w + c.sat.rw.momentum v)
          - npCross st.attrs.bodyAngVel (c.sat.totalMoment *ᵥ st.attrs.bodyAngVel
            + c.sat.rw.momentum st.attrs.wheelVel)) := by
  set s : Measurements c.sat.rw.n := { s0 with att := q, rate := w, whl := v }
  obtain ⟨objs, ho⟩ : ∃ objs, c.objects s = .ok objs := by
    unfold RwController.objects at hobj ⊢
    split at hobj
    · cases hobj
    · next f hf =>
      split at hobj
      · cases hobj
      · next sun hsun => exact ⟨_, by rw [show s.pos = s0.pos from rfl, hsun]⟩
  have ht := tracking_plain (c := { c with trigger := tr }) hav ho 0 0 qc
  obtain ⟨a, ha, -⟩ := hw.accelerations
    (-(npCross s.rate (c.sat.totalMoment *ᵥ s.rate + c.sat.rw.momentum s.whl) +
        c.sat.totalMoment *ᵥ ((-(tr.sign (errorQuat s.att qc 0)).1 * c.alpha) • vecPart (errorQuat s.att qc)
          - c.gamma • (s.rate - sandwich (errorQuat s.att qc) 0)
          - (npCross s.rate (sandwich (errorQuat s.att qc) 0) + sandwich (errorQuat s.att qc) 0))))
  have hm' : c.sat.mass ≠ 0 := by rw [hb.mass_eq.1]; exact hm
  obtain ⟨d, hd⟩ : ∃ d, derivative c.sat st ⟨0, 0⟩ a = .ok d :=
    ⟨_, by simp only [derivative, npVDiv, if_neg hm']; rfl⟩
  have hn : npNorm (c.sat.invTotMoment *ᵥ (0 : V3)) ≤ 0 := by rw [Matrix.mulVec_zero]; simp [npNorm]
  obtain ⟨g1, g2, g3⟩ := read_deriv (tr := tr) hb hm hw ho (.inl hav) ht ha hd
  refine ⟨d, ⟨s, objs, _, _, a, 0, 0, ⟨h1, h2, h3⟩, hH, ho, .inl hav, ht, g1, ha, hn, hd⟩, g2, ?_⟩
  rw [g3, Matrix.mulVec_zero, add_zero]

/-- The acceleration as that of exact readings, an error that is small where the rate is, and one that is bounded. -/
theorem read_accel {c : RwController} {mass : ℝ} {dims : V3} {ab cd : ℝ} (hb : Built c.sat mass dims ab cd)
    (hm : mass ≠ 0) (hw : UnlimitedWheels c.sat) (ha : 0 < c.alpha) (hg : 0 < c.gamma) {j k C : ℝ} (hj0 : 0 ≤ j) (hk0 : 0 ≤ k)
    (hj : ∀ x, npNorm (c.sat.totalMoment *ᵥ x) ≤ j * npNorm x) (hk : ∀ x, npNorm (c.sat.invTotMoment *ᵥ x) ≤ k * npNorm x)
    (hC0 : 0 ≤ C) (hC : ∀ (a b : Fin c.sat.rw.n → ℝ) (η : ℝ), (∀ i, |a i - b i| ≤ η) →
      npNorm (c.sat.rw.momentum a - c.sat.rw.momentum b) ≤ C * η)
    {qc : V4} (hqc : npNorm qc = 1) {δ η H : ℝ} (hη : η ≤ 1) {tr tr' : Trigger} (hmem : tr'.memory = 1 ∨ tr'.memory = -1)
    {st : SatState c.sat.rw.n} {d : Raw c.sat.rw.n} (h : Spec.ReadInstant c qc δ η H tr tr' st d) :
    (∃ y, |y - errorQuat st.attrs.attitude qc 0| ≤ η ∧ tr' = tr.step y) ∧
    d.att = (0.5 : ℝ) • product st.attrs.attitude (pureQ st.attrs.bodyAngVel) ∧
    ∃ r x : V3, npNorm r ≤ k * (2 * j + C) * η * npNorm st.attrs.bodyAngVel ∧
      npNorm x ≤ δ + (k * (j + H + C) + c.alpha + c.gamma) * η ∧
      d.rate = -(tr'.memory * c.alpha) • vecPart (errorQuat st.attrs.attitude qc) - c.gamma • st.attrs.bodyAngVel + (r + x) := by
  obtain ⟨s, x, ⟨h1, h2, h3⟩, h4, h5, h6, h7, h8⟩ := read_instant hb hm hw h
  obtain ⟨n1, n2⟩ := errorQuat_near (q := st.attrs.attitude) (q' := s.att) hqc
  refine ⟨⟨_, n1.trans h1, h5⟩, h6, ?_⟩
  obtain ⟨w, hwd⟩ : ∃ w, w = st.attrs.bodyAngVel := ⟨_, rfl⟩
  obtain ⟨e, he⟩ : ∃ e, e = s.rate - w := ⟨_, rfl⟩
  obtain ⟨p, hp⟩ : ∃ p, p = c.sat.rw.momentum st.attrs.wheelVel := ⟨_, rfl⟩
  obtain ⟨g, hgd⟩ : ∃ g, g = c.sat.rw.momentum s.whl - p := ⟨_, rfl⟩
  have es : s.rate = w + e := by rw [he]; abel
  have eg : c.sat.rw.momentum s.whl = p + g := by rw [hgd]; abel
  have he' : npNorm e ≤ η := by rw [he, hwd]; exact h2
  have hg' : npNorm g ≤ C * η := by rw [hgd, hp]; exact hC _ _ _ h3
  rw [← hp] at h4 h8
  rw [← hwd, es, eg, gyro_split, Matrix.mulVec_add] at h8
  obtain ⟨g1, g2⟩ := gyro_sizes (w := w) hj0 hk0 hj hk hη hC0 he' hg' h4
  rw [← hwd]
  refine ⟨_, -(tr'.memory * c.alpha) • (vecPart (errorQuat s.att qc) - vecPart (errorQuat st.attrs.attitude qc))
    - c.gamma • e + c.sat.invTotMoment *ᵥ npCross e (c.sat.totalMoment *ᵥ e + p + g) + x, g1, ?_, ?_⟩
  · have f1 : npNorm (-(tr'.memory * c.alpha) • (vecPart (errorQuat s.att qc) - vecPart (errorQuat st.attrs.attitude qc)))
        ≤ c.alpha * η := by
      rw [npNorm_smul]
      have : |-(tr'.memory * c.alpha)| = c.alpha := by
        rcases hmem with h | h <;> rw [h] <;> simp [abs_of_pos ha]
      rw [this]
      exact mul_le_mul_of_nonneg_left (n2.trans h1) ha.le
    have f2 : npNorm (c.gamma • e) ≤ c.gamma * η := by
      rw [npNorm_smul, abs_of_pos hg]
      exact mul_le_mul_of_nonneg_left he' hg.le
    have f3 := npNorm_sub3 (-(tr'.memory * c.alpha) • (vecPart (errorQuat s.att qc)
      - vecPart (errorQuat st.attrs.attitude qc))) (c.gamma • e)
    refine (npNorm_add3 _ _).trans ((add_le_add (npNorm_add3 _ _) le_rfl).trans ?_)
    linarith
  · rw [h8]
    simp only [smul_sub, smul_add]
    abel

/-- For every controller, every bound on the rate at the beginning, on the disturbances and on the momentum of the wheels
there is a tolerance such that readings that are off by less, in whatever way from instant to instant, lead the satellite
to the commanded attitude: rate and distance from the command fall off exponentially down to a floor that is proportional
to the disturbances and the errors. If the floor is not too high the sign switches finitely often. -/
theorem C211_converges (c : RwController) (ha : 0 < c.alpha) (hg : 0 < c.gamma) {mass : ℝ} {dims : V3} {ab cd : ℝ}
    (hb : Built c.sat mass dims ab cd) (hm : mass ≠ 0) (hw : UnlimitedWheels c.sat) {h : ℝ} (h0 : 0 < h) (h1 : h < 1)
    (M Δ H : ℝ) : ∃ η0 κ C : ℝ, 0 < η0 ∧ 0 < κ ∧ 0 ≤ C ∧
      ∀ (qc : V4), npNorm qc = 1 → ∀ (δ η : ℝ), 0 ≤ δ → δ ≤ Δ → 0 ≤ η → η ≤ η0 →
      ∀ (tr0 tr : Trigger) (st0 st : SatState c.sat.rw.n) (t : ℝ) (n : ℕ),
      tr0.halfWidth = h → (tr0.memory = 1 ∨ tr0.memory = -1) → npNorm st0.attrs.attitude = 1 →
      npNorm st0.attrs.bodyAngVel ≤ M → Spec.ReadRun c qc δ η H tr0 st0 t tr st n →
      0 ≤ t ∧ (tr.memory = 1 ∨ tr.memory = -1) ∧ tr.halfWidth = h ∧ npNorm st.attrs.attitude = 1 ∧
      st.attrs.bodyAngVel ⬝ᵥ st.attrs.bodyAngVel / 2
          + c.alpha * npNorm (st.attrs.attitude - tr.memory • qc) ^ 2 ≤
        3 * Real.exp (-κ * t) * (st0.attrs.bodyAngVel ⬝ᵥ st0.attrs.bodyAngVel / 2
          + c.alpha * npNorm (st0.attrs.attitude - tr0.memory • qc) ^ 2) + C * (δ + η) ^ 2 ∧
      (C * (δ + η) ^ 2 ≤ c.alpha → c.alpha * min h (1 / 2) * n ≤ 3 / 2 * (st0.attrs.bodyAngVel ⬝ᵥ st0.attrs.bodyAngVel / 2
          + c.alpha * npNorm (st0.attrs.attitude - tr0.memory • qc) ^ 2) + C * (δ + η) ^ 2) := by
  obtain ⟨j, hj0, hj⟩ := mulVec_euclid c.sat.totalMoment
  obtain ⟨ki, hk0, hki⟩ := mulVec_euclid c.sat.invTotMoment
  obtain ⟨Cw, hC0, hCw⟩ := momentum_near c.sat.rw
  obtain ⟨c1, hc1⟩ : ∃ c1, c1 = ki * (j + |H| + Cw) + c.alpha + c.gamma := ⟨_, rfl⟩
  obtain ⟨c2, hc2⟩ : ∃ c2, c2 = ki * (2 * j + Cw) := ⟨_, rfl⟩
  have hc10 : 0 ≤ c1 := by rw [hc1]; positivity
  have hc20 : 0 ≤ c2 := by rw [hc2]; positivity
  have hh2 : 0 < h / 2 := by linarith
  obtain ⟨eps, k, he, hk, r1, r2, r3, r4, r5⟩ := read_consts (h := h / 2) (h2 := (1 + h) / 2) ha hg hh2 (by linarith)
    (by linarith) M (|Δ| + c1)
  obtain ⟨m, hmdef⟩ : ∃ m, m = 3 / 2 * (M ^ 2 / 2 + 4 * c.alpha) + 1
    + 4 * (1 / c.gamma + eps / c.alpha) * (|Δ| + c1) ^ 2 / k := ⟨_, rfl⟩
  rw [← hmdef] at r5
  obtain ⟨A, hA⟩ : ∃ A, A = 2 * (1 / c.gamma + eps / c.alpha) * (4 * c2 ^ 2) + 1 := ⟨_, rfl⟩
  have hA0 : 0 < A := by rw [hA]; positivity
  obtain ⟨ρ, hρ, hρ2⟩ : ∃ ρ > 0, ρ ^ 2 * A ≤ k / 2 := by
    refine ⟨Real.sqrt (k / 2 / A), Real.sqrt_pos.2 (by positivity), ?_⟩
    rw [Real.sq_sqrt (by positivity), div_mul_cancel₀ _ hA0.ne']
  refine ⟨min (min 1 ρ) (min (h / 2) ((1 - h) / 2)), k / 2, 8 * (1 / c.gamma + eps / c.alpha) / k * (1 + c1) ^ 2,
    lt_min (lt_min one_pos hρ) (lt_min hh2 (by linarith)), by positivity, by positivity, ?_⟩
  intro qc hqc δ η hδ hδΔ hη hη0 tr0 tr st0 st t n hh0 hmem0 hu0 hM hrun
  have t1 : η ≤ 1 := hη0.trans ((min_le_left _ _).trans (min_le_left _ _))
  have t2 : η ≤ ρ := hη0.trans ((min_le_left _ _).trans (min_le_right _ _))
  have t3 : η ≤ h / 2 := hη0.trans ((min_le_right _ _).trans (min_le_left _ _))
  have t4 : η ≤ (1 - h) / 2 := hη0.trans ((min_le_right _ _).trans (min_le_right _ _))
  obtain ⟨δ', hδ'⟩ : ∃ δ', δ' = δ + c1 * η := ⟨_, rfl⟩
  have hδ'0 : 0 ≤ δ' := by rw [hδ']; positivity
  have hδ'Δ : δ' ≤ |Δ| + c1 := by
    rw [hδ']
    exact add_le_add (hδΔ.trans (le_abs_self _)) (mul_le_of_le_one_right hc10 t1)
  obtain ⟨G, hG⟩ : ∃ G, G = 4 * (1 / c.gamma + eps / c.alpha) * δ' ^ 2 / k := ⟨_, rfl⟩
  have hG0 : 0 ≤ G := by rw [hG]; positivity
  have hGm : 3 / 2 * (M ^ 2 / 2 + 4 * c.alpha) + 1 + G ≤ m := by
    rw [hG, hmdef]; gcongr
  have hGC : 2 * G ≤ 8 * (1 / c.gamma + eps / c.alpha) / k * (1 + c1) ^ 2 * (δ + η) ^ 2 := by
    have e1 : δ' ^ 2 ≤ ((1 + c1) * (δ + η)) ^ 2 := by
      refine pow_le_pow_left₀ hδ'0 ?_ 2
      rw [hδ']
      have := mul_nonneg hc10 hδ
      linarith
    have e2 : 2 * G = 8 * (1 / c.gamma + eps / c.alpha) / k * δ' ^ 2 := by rw [hG]; ring
    rw [e2, mul_assoc, ← mul_pow]
    exact mul_le_mul_of_nonneg_left e1 (by positivity)
  -- the beginning
  have hb0 := (strict_between ha he r1 hmem0 (errorQuat_unit ((isUnit4_iff _).2 hu0) ((isUnit4_iff _).2 hqc))
    st0.attrs.bodyAngVel)
  have hl0 : lyap c.alpha tr0.memory (errorQuat st0.attrs.attitude qc 0) st0.attrs.bodyAngVel ≤
      M ^ 2 / 2 + 4 * c.alpha := by
    have e1 : st0.attrs.bodyAngVel ⬝ᵥ st0.attrs.bodyAngVel ≤ M ^ 2 := by
      rw [dot_self3]; exact pow_le_pow_left₀ (npNorm_nonneg _) hM 2
    have hu := errorQuat_unit ((isUnit4_iff _).2 hu0) ((isUnit4_iff _).2 hqc)
    have hs2 : tr0.memory ^ 2 = 1 := by rcases hmem0 with h | h <;> rw [h] <;> norm_num
    have e2 : -1 ≤ tr0.memory * errorQuat st0.attrs.attitude qc 0 := by
      have h4 := dot_self_nonneg3 (vecPart (errorQuat st0.attrs.attitude qc))
      rw [vecPart_unit hu] at h4
      have : (tr0.memory * errorQuat st0.attrs.attitude qc 0) ^ 2 ≤ 1 := by rw [mul_pow, hs2]; linarith
      exact (abs_le.1 ((sq_le_one_iff_abs_le_one _).1 this)).1
    have e3 : c.alpha * (1 - tr0.memory * errorQuat st0.attrs.attitude qc 0) ≤ c.alpha * 2 :=
      mul_le_mul_of_nonneg_left (by linarith) ha.le
    unfold lyap
    linarith
  have hlpos : 0 ≤ lyap c.alpha tr0.memory (errorQuat st0.attrs.attitude qc 0) st0.attrs.bodyAngVel :=
    (C69_definite c.alpha tr0.memory ha hmem0 st0.attrs.attitude qc hu0 hqc st0.attrs.bodyAngVel).1
  obtain ⟨V0, hV0⟩ : ∃ V0, V0 = strict c.alpha eps tr0.memory (errorQuat st0.attrs.attitude qc) st0.attrs.bodyAngVel :=
    ⟨_, rfl⟩
  rw [← hV0] at hb0
  have hV0pos : 0 ≤ V0 := by linarith [hb0.1]
  have hV0m : V0 + G < m := by linarith [hb0.2]
  have accel : ∀ {tr tr' : Trigger} {st : SatState c.sat.rw.n} {d : Raw c.sat.rw.n},
      (tr'.memory = 1 ∨ tr'.memory = -1) → Spec.ReadInstant c qc δ η H tr tr' st d → _ := fun hmem hi =>
    read_accel hb hm hw ha hg hj0 hk0 hj hki hC0 hCw hqc t1 hmem hi
  have key : 0 ≤ t ∧ (tr.memory = 1 ∨ tr.memory = -1) ∧ tr.halfWidth = h ∧ npNorm st.attrs.attitude = 1 ∧
      strict c.alpha eps tr.memory (errorQuat st.attrs.attitude qc) st.attrs.bodyAngVel ≤
        V0 * Real.exp (-(k / 2) * t) + G ∧
      (2 * G ≤ c.alpha → max (strict c.alpha eps tr.memory (errorQuat st.attrs.attitude qc) st.attrs.bodyAngVel) G
        + c.alpha * min h (1 / 2) * n ≤ max V0 G) := by
    induction hrun with
    | start => exact ⟨le_rfl, hmem0, hh0, hu0, by simp [← hV0, hG0], fun _ => by simp [← hV0]⟩
    | @flow t tr n st T hT _ hcq hcw hstep ih =>
      obtain ⟨i0, i1, i2, i3, i4, i5⟩ := ih
      have hq : ∀ τ ∈ Set.Ico 0 T, HasDerivAt (fun τ => (st τ).attrs.attitude)
          ((0.5 : ℝ) • product (st τ).attrs.attitude (pureQ (st τ).attrs.bodyAngVel)) τ := by
        intro τ hτ
        obtain ⟨d, hi, hdq, -⟩ := hstep τ hτ
        rw [← (accel i1 hi).2.1]
        exact hdq
      have hwd : ∀ τ ∈ Set.Ico 0 T, ∃ r x : V3, npNorm x ≤ δ' ∧
          (strict c.alpha eps tr.memory (errorQuat (st τ).attrs.attitude qc) (st τ).attrs.bodyAngVel ≤ m →
            npNorm r ^ 2 ≤ ρ ^ 2 * (4 * c2 ^ 2) *
              strict c.alpha eps tr.memory (errorQuat (st τ).attrs.attitude qc) (st τ).attrs.bodyAngVel) ∧
          HasDerivAt (fun τ => (st τ).attrs.bodyAngVel)
            (-(tr.memory * c.alpha) • vecPart (errorQuat (st τ).attrs.attitude qc) - c.gamma • (st τ).attrs.bodyAngVel
              + (r + x)) τ := by
        intro τ hτ
        obtain ⟨d, hi, -, hdw⟩ := hstep τ hτ
        obtain ⟨-, -, r, x, hr, hx, hd⟩ := accel i1 hi
        have hu : npNorm (st τ).attrs.attitude = 1 :=
          (norm_flow hτ.1 (hcq.mono (Set.Icc_subset_Icc_right hτ.2.le)) fun σ hσ => hq σ ⟨hσ.1, hσ.2.trans hτ.2⟩).trans i3
        refine ⟨r, x, hx.trans ?_, fun _ => ?_, hd ▸ hdw⟩
        · rw [hδ', hc1]
          have : ki * (j + H + Cw) + c.alpha + c.gamma ≤ ki * (j + |H| + Cw) + c.alpha + c.gamma := by
            have := mul_le_mul_of_nonneg_left (by linarith [le_abs_self H] : j + H + Cw ≤ j + |H| + Cw) hk0
            linarith
          have := mul_le_mul_of_nonneg_right this hη
          linarith
        · rw [← hc2] at hr
          have hb1 := (strict_between ha he r1 i1 (errorQuat_unit ((isUnit4_iff _).2 hu) ((isUnit4_iff _).2 hqc))
            (st τ).attrs.bodyAngVel).1
          have hx1 : 0 ≤ 2 * c.alpha * (1 - tr.memory * errorQuat (st τ).attrs.attitude qc 0) := by
            have := quat_dist i1 hu hqc
            have h5 := sq_nonneg (npNorm ((st τ).attrs.attitude - tr.memory • qc))
            have : 0 ≤ 1 - tr.memory * errorQuat (st τ).attrs.attitude qc 0 := by linarith
            positivity
          unfold lyap at hb1
          rw [dot_self3] at hb1
          obtain ⟨V, hV⟩ : ∃ V, V = strict c.alpha eps tr.memory (errorQuat (st τ).attrs.attitude qc)
            (st τ).attrs.bodyAngVel := ⟨_, rfl⟩
          rw [← hV] at hb1 ⊢
          have hw4 : npNorm (st τ).attrs.bodyAngVel ^ 2 ≤ 4 * V := by linarith
          have h6 : npNorm r ≤ c2 * ρ * npNorm (st τ).attrs.bodyAngVel :=
            hr.trans (mul_le_mul_of_nonneg_right (mul_le_mul_of_nonneg_left t2 hc20) (npNorm_nonneg _))
          have h7 := pow_le_pow_left₀ (npNorm_nonneg _) h6 2
          have h8 := mul_le_mul_of_nonneg_left hw4 (sq_nonneg (c2 * ρ))
          rw [mul_pow (c2 * ρ)] at h7
          have h9 : (c2 * ρ) ^ 2 * (4 * V) = ρ ^ 2 * (4 * c2 ^ 2) * V := by ring
          linarith
      have hxs : ∀ τ ∈ Set.Ico 0 T, -((1 + h) / 2) ≤ tr.memory * errorQuat (st τ).attrs.attitude qc 0 := by
        intro τ hτ
        obtain ⟨d, hi, -, -⟩ := hstep τ hτ
        obtain ⟨⟨y, hy, hst⟩, -⟩ := accel i1 hi
        by_contra hlt
        rw [not_le] at hlt
        have hc : y * tr.memory ≤ -tr.halfWidth := by
          rw [i2]
          have := abs_le.1 hy
          rcases i1 with h | h <;> rw [h] at hlt ⊢ <;> linarith
        exact trigger_switches i1 (i2 ▸ h0) hc hst.symm
      have hθ : 2 * (1 / c.gamma + eps / c.alpha) * (ρ ^ 2 * (4 * c2 ^ 2)) ≤ k / 2 := by
        have e : ρ ^ 2 * A = 2 * (1 / c.gamma + eps / c.alpha) * (ρ ^ 2 * (4 * c2 ^ 2)) + ρ ^ 2 := by rw [hA]; ring
        linarith [sq_nonneg ρ]
      have hexp := exp_le_one_of (half_pos hk) i0
      have hμ : V0 * Real.exp (-(k / 2) * t) ≤ V0 := mul_le_of_le_one_right hV0pos hexp
      have hflow := mis_flow (δ := δ') (m := m) ha hg he hk r1 r2 r3 r4 hθ hqc i1 hT i3 hcq hcw hq hwd hxs
        (μ := V0 * Real.exp (-(k / 2) * t)) (mul_nonneg hV0pos (Real.exp_pos _).le)
        (by rw [← hG]; linarith) (by rw [← hG]; exact i4)
      rw [← hG] at hflow
      refine ⟨by linarith, i1, i2, (norm_flow hT hcq hq).trans i3, hflow.trans (le_of_eq ?_), fun hGa => ?_⟩
      · rw [mul_assoc, ← Real.exp_add]
        congr 3
        ring
      · have i5 := i5 hGa
        obtain ⟨V1, hV1⟩ : ∃ V1, V1 = strict c.alpha eps tr.memory (errorQuat (st 0).attrs.attitude qc)
          (st 0).attrs.bodyAngVel := ⟨_, rfl⟩
        rw [← hV1] at i4 i5
        have hm1 := le_max_left V1 G
        have hm2 := le_max_right V1 G
        have hflow := mis_flow (δ := δ') (m := m) ha hg he hk r1 r2 r3 r4 hθ hqc i1 hT i3 hcq hcw hq hwd hxs
          (μ := max V1 G - G) (by linarith) (by
            rw [← hG]
            have : max V1 G ≤ V0 + G := max_le (by linarith) (by linarith)
            linarith) (by rw [← hG, ← hV1]; linarith)
        rw [← hG] at hflow
        have h5 := mul_le_of_le_one_right (by linarith : 0 ≤ max V1 G - G) (exp_le_one_of (half_pos hk) hT)
        have : max (strict c.alpha eps tr.memory (errorQuat (st T).attrs.attitude qc) (st T).attrs.bodyAngVel) G ≤ max V1 G :=
          max_le (by linarith) hm2
        linarith
    | @switch t tr tr' n st d _ hi hne ih =>
      obtain ⟨i0, i1, i2, i3, i4, i5⟩ := ih
      obtain ⟨s, x, ⟨q1, -, -⟩, -, hst, -⟩ := read_instant hb hm hw hi
      have hy := (errorQuat_near (q := st.attrs.attitude) (q' := s.att) hqc).1.trans q1
      obtain ⟨j1, j2, j3⟩ := trigger_switch i1 (i2 ▸ h0) (x := errorQuat s.att qc 0) (hst ▸ hne)
      rw [← hst] at j1 j2
      have i1' : tr'.memory = 1 ∨ tr'.memory = -1 := by rw [j1]; rcases i1 with h | h <;> rw [h] <;> simp
      have hμ : V0 * Real.exp (-(k / 2) * t) ≤ V0 := mul_le_of_le_one_right hV0pos (exp_le_one_of (half_pos hk) i0)
      have j3' : errorQuat st.attrs.attitude qc 0 * tr.memory ≤ -(h / 2) := by
        rw [i2] at j3
        have := abs_le.1 hy
        rcases i1 with h | h <;> rw [h] at j3 ⊢ <;> linarith
      have hu := errorQuat_unit ((isUnit4_iff _).2 i3) ((isUnit4_iff _).2 hqc)
      have hsw := mis_switch ha he r1 hh2 r5 i1 hu (w := st.attrs.bodyAngVel) (by linarith) j3'
      rw [← j1] at hsw
      have hah : 0 < c.alpha * h := by positivity
      refine ⟨i0, i1', j2.trans i2, i3, by linarith, fun hGa => ?_⟩
      have i5 := i5 hGa
      have hb1 := (strict_between ha he r1 i1 hu st.attrs.bodyAngVel).1
      obtain ⟨V, hV⟩ : ∃ V, V = strict c.alpha eps tr.memory (errorQuat st.attrs.attitude qc) st.attrs.bodyAngVel := ⟨_, rfl⟩
      rw [← hV] at hb1 hsw i5
      unfold lyap at hb1
      have h5 := dot_self_nonneg3 st.attrs.bodyAngVel
      have h6 : c.alpha * (tr.memory * errorQuat st.attrs.attitude qc 0) ≤ 0 :=
        mul_nonpos_of_nonneg_of_nonpos ha.le (by linarith)
      have hVa : c.alpha ≤ V := by linarith
      have h7 : c.alpha * min h (1 / 2) ≤ c.alpha * h := mul_le_mul_of_nonneg_left (min_le_left _ _) ha.le
      have h8 : c.alpha * min h (1 / 2) ≤ c.alpha * (1 / 2) := mul_le_mul_of_nonneg_left (min_le_right _ _) ha.le
      have h9 : max (strict c.alpha eps tr'.memory (errorQuat st.attrs.attitude qc) st.attrs.bodyAngVel) G ≤
          V - c.alpha * min h (1 / 2) := max_le (by linarith) (by linarith)
      have h10 := le_max_left V G
      push_cast
      linarith
  obtain ⟨k0, k1, k2, k3, k4, k5⟩ := key
  refine ⟨k0, k1, k2, k3, ?_⟩
  rw [energy_lyap k1 k3 hqc, energy_lyap hmem0 hu0 hqc]
  have b2 := (strict_between ha he r1 k1 (errorQuat_unit ((isUnit4_iff _).2 k3) ((isUnit4_iff _).2 hqc)) st.attrs.bodyAngVel).1
  have b3 := (C69_definite c.alpha tr.memory ha k1 st.attrs.attitude qc k3 hqc st.attrs.bodyAngVel).1
  constructor
  · have b4 := mul_le_mul_of_nonneg_right hb0.2 (Real.exp_pos (-(k / 2) * t)).le
    linarith
  · intro hCa
    have k5 := k5 (by linarith)
    have h5 : max V0 G ≤ V0 + G := max_le (by linarith) (by linarith)
    have h6 := le_max_right (strict c.alpha eps tr.memory (errorQuat st.attrs.attitude qc) st.attrs.bodyAngVel) G
    linarith [hb0.2]

/-! ## Runs exist -/

/-- The closed loop with a gyro that reads `b` too much, for wheels of momentum `p`, as a field. -/
noncomputable def biasField (I K : M3) (alpha gamma : ℝ) (qc : V4) (b p : V3) (sgn : ℝ) (x : V4 × V3) : V4 × V3 :=
  ((0.5 : ℝ) • product x.1 (pureQ x.2),
    (-(sgn * alpha) • vecPart (errorQuat x.1 qc) - gamma • (x.2 + b)) +
      K *ᵥ (npCross (x.2 + b) (I *ᵥ (x.2 + b) + p) - npCross x.2 (I *ᵥ x.2 + p)))

theorem biasField_contDiff (I K : M3) (alpha gamma : ℝ) (qc : V4) (b p : V3) (sgn : ℝ) :
    ContDiff ℝ 1 (biasField I K alpha gamma qc b p sgn) := by
  have h := loopField_contDiff alpha gamma sgn qc
  have hs : ContDiff ℝ 1 fun x : V4 × V3 => x.2 + b := contDiff_snd.add contDiff_const
  refine ContDiff.prodMk h.fst ?_
  refine ContDiff.add ?_ (mulVec_contDiff _ (ContDiff.sub
    (npCross_contDiff hs ((mulVec_contDiff _ hs).add contDiff_const))
    (npCross_contDiff contDiff_snd ((mulVec_contDiff _ contDiff_snd).add contDiff_const))))
  have e : (fun x : V4 × V3 => -(sgn * alpha) • vecPart (errorQuat x.1 qc) - gamma • (x.2 + b)) =
      fun x => (loopField alpha gamma sgn qc x).2 - gamma • b := by
    funext x; simp only [loopField, smul_add]; abel
  rw [e]
  exact h.snd.sub contDiff_const

/-- The runs of `C211_exists`, with the wheels left as they are. -/
theorem readRun_exists (c : RwController) (ha : 0 < c.alpha) (hg : 0 < c.gamma) {mass : ℝ} {dims : V3} {ab cd : ℝ}
    (hb : Built c.sat mass dims ab cd) (hm : mass ≠ 0) (hw : UnlimitedWheels c.sat) (hav : c.objAvoidance = false)
    (s0 : Measurements c.sat.rw.n) (objs0 : List V3) (hobj : c.objects s0 = .ok objs0) {h : ℝ} (h0 : 0 < h) (h1 : h < 1)
    (M H : ℝ) : ∃ η0 > 0, ∀ (η : ℝ) (b : V3), η ≤ η0 → npNorm b ≤ η → ∀ (qc : V4), npNorm qc = 1 →
      ∀ (tr0 : Trigger) (st0 : SatState c.sat.rw.n), tr0.halfWidth = h →
      (tr0.memory = 1 ∨ tr0.memory = -1) → npNorm st0.attrs.attitude = 1 → npNorm st0.attrs.bodyAngVel ≤ M →
      npNorm (c.sat.rw.momentum st0.attrs.wheelVel) ≤ H →
      ∀ T, 0 ≤ T → ∃ tr st n, Spec.ReadRun c qc 0 η H tr0 st0 T tr st n ∧
        st.attrs.wheelVel = st0.attrs.wheelVel := by
  obtain ⟨η1, κ, C, hη1, hκ, hC, hall⟩ := C211_converges c ha hg hb hm hw h0 h1 M 0 H
  obtain ⟨ρ, hρ, hρ2⟩ : ∃ ρ > 0, ρ ^ 2 * (C + 1) ≤ c.alpha := by
    refine ⟨Real.sqrt (c.alpha / (C + 1)), Real.sqrt_pos.2 (by positivity), ?_⟩
    rw [Real.sq_sqrt (by positivity), div_mul_cancel₀ _ (by positivity)]
  refine ⟨min η1 ρ, lt_min hη1 hρ, fun η b hη hbη qc hqc tr0 st0 hh hm0 hu hM hH T hT => ?_⟩
  have hηpos : 0 ≤ η := (npNorm_nonneg b).trans hbη
  have hCa : C * (0 + η) ^ 2 ≤ c.alpha := by
    have e1 : η ^ 2 ≤ ρ ^ 2 := pow_le_pow_left₀ hηpos (hη.trans (min_le_right _ _)) 2
    have e2 := mul_le_mul_of_nonneg_left e1 hC
    rw [zero_add]
    linarith [sq_nonneg ρ]
  obtain ⟨E, hE⟩ : ∃ E, E = st0.attrs.bodyAngVel ⬝ᵥ st0.attrs.bodyAngVel / 2
    + c.alpha * npNorm (st0.attrs.attitude - tr0.memory • qc) ^ 2 := ⟨_, rfl⟩
  have hE0 : 0 ≤ E := by
    rw [hE]
    have := dot_self_nonneg3 st0.attrs.bodyAngVel
    positivity
  set R := Real.sqrt (6 * E + 2 * c.alpha)
  have hmin : 0 < c.alpha * min h (1 / 2) := mul_pos ha (lt_min h0 (by norm_num))
  obtain ⟨N, hN⟩ := exists_nat_gt ((3 / 2 * E + c.alpha) / (c.alpha * min h (1 / 2)))
  refine switched_exists
    (Run := fun t tr st n => Spec.ReadRun c qc 0 η H tr0 st0 t tr st n ∧ st.attrs.wheelVel = st0.attrs.wheelVel)
    (qc := qc) (N := N)
    (field := biasField c.sat.totalMoment c.sat.invTotMoment c.alpha c.gamma qc b (c.sat.rw.momentum st0.attrs.wheelVel))
    (K := Metric.closedBall 0 1 ×ˢ Metric.closedBall 0 R)
    (fun sgn => biasField_contDiff _ _ _ _ _ _ _ _) (tr0 := tr0) (st0 := st0) (T := T) ?_ ?_
    ((isCompact_closedBall _ _).prod (isCompact_closedBall _ _)) ?_ ⟨.start, rfl⟩ hT
  · rintro t tr st n y T ⟨hrun, hwv⟩ h0 hT hy hh
    have e0 : withMotion st (y 0) = st := by rw [h0]; rfl
    refine ⟨.flow (fun τ => withMotion st (y τ)) T hT (e0.symm ▸ hrun)
      (fun τ hτ => (hy τ hτ).continuousAt.fst.continuousWithinAt)
      (fun τ hτ => (hy τ hτ).continuousAt.snd.continuousWithinAt) fun τ hτ => ?_, hwv⟩
    obtain ⟨d, hi, hd1, hd2⟩ := read_instant_exists c hb hm hw hav s0 objs0 hobj qc tr (withMotion st (y τ)) (y τ).1
      ((y τ).2 + b) st.attrs.wheelVel (η := η) (H := H)
      (by rw [show (withMotion st (y τ)).attrs.attitude = (y τ).1 from rfl, sub_self]; simpa [npNorm] using hηpos)
      (by rw [show (withMotion st (y τ)).attrs.bodyAngVel = (y τ).2 from rfl, add_sub_cancel_left]; exact hbη)
      (fun i => by rw [show (withMotion st (y τ)).attrs.wheelVel = st.attrs.wheelVel from rfl, sub_self, abs_zero]; exact hηpos)
      (by rw [show (withMotion st (y τ)).attrs.wheelVel = st.attrs.wheelVel from rfl, hwv]; exact hH)
    have hst : tr.step (errorQuat (y τ).1 qc 0) = tr := step_hold (hh τ hτ)
    rw [hst] at hi hd2
    have hd' := hy τ ⟨hτ.1, hτ.2.le⟩
    have e : biasField c.sat.totalMoment c.sat.invTotMoment c.alpha c.gamma qc b
        (c.sat.rw.momentum st0.attrs.wheelVel) tr.memory (y τ) = (d.att, d.rate) := by
      rw [hd1, hd2, ← hwv]; rfl
    rw [e] at hd'
    exact ⟨d, hi, hd'.fst, hd'.snd⟩
  · rintro t tr st n ⟨hrun, hwv⟩ hne
    obtain ⟨d, hi, -⟩ := read_instant_exists c hb hm hw hav s0 objs0 hobj qc tr st st.attrs.attitude
      st.attrs.bodyAngVel st.attrs.wheelVel (η := η) (H := H)
      (by rw [sub_self]; simpa [npNorm] using hηpos) (by rw [sub_self]; simpa [npNorm] using hηpos)
      (fun i => by rw [sub_self, abs_zero]; exact hηpos) (by rw [hwv]; exact hH)
    exact ⟨.switch hrun hi hne, hwv⟩
  · rintro t tr st n ⟨hrun, -⟩
    obtain ⟨j0, j1, j2, j3, j4, j5⟩ := hall qc hqc 0 η le_rfl le_rfl hηpos (hη.trans (min_le_left _ _)) tr0 tr st0 st t n hh
      hm0 hu hM hrun
    rw [← hE] at j4 j5
    refine ⟨j2 ▸ h0, j1, ?_, ?_, ?_⟩
    · have h2 : (n : ℝ) ≤ (3 / 2 * E + c.alpha) / (c.alpha * min h (1 / 2)) := by
        rw [le_div_iff₀ hmin]; linarith [j5 hCa]
      exact_mod_cast (h2.trans_lt hN).le
    · rw [mem_closedBall_zero_iff]
      refine (pi_norm_le_iff_of_nonneg zero_le_one).2 fun i => ?_
      rw [Real.norm_eq_abs, ← j3]
      exact abs_le_npNorm _ i
    · rw [mem_closedBall_zero_iff]
      refine (pi_norm_le_iff_of_nonneg (Real.sqrt_nonneg _)).2 fun i => ?_
      rw [Real.norm_eq_abs]
      refine (abs_le_npNorm _ i).trans (Real.le_sqrt_of_sq_le ?_)
      have hx := mul_le_of_le_one_right hE0 (exp_le_one_of hκ j0)
      have h2 : 0 ≤ c.alpha * npNorm (st.attrs.attitude - tr.memory • qc) ^ 2 := by positivity
      rw [← dot_self3]
      simp only at j4 ⊢
      linarith

/-- Within the tolerance the runs do not die out: for every constant error of the gyro and from every state there is one
of every duration. -/
theorem C211_exists (c : RwController) (ha : 0 < c.alpha) (hg : 0 < c.gamma) {mass : ℝ} {dims : V3} {ab cd : ℝ}
    (hb : Built c.sat mass dims ab cd) (hm : mass ≠ 0) (hw : UnlimitedWheels c.sat) (hav : c.objAvoidance = false)
    (s0 : Measurements c.sat.rw.n) (objs0 : List V3) (hobj : c.objects s0 = .ok objs0) {h : ℝ} (h0 : 0 < h) (h1 : h < 1)
    (M H : ℝ) : ∃ η0 > 0, ∀ (η : ℝ) (b : V3), η ≤ η0 → npNorm b ≤ η → ∀ (qc : V4), npNorm qc = 1 →
      ∀ (tr0 : Trigger) (st0 : SatState c.sat.rw.n), tr0.halfWidth = h →
      (tr0.memory = 1 ∨ tr0.memory = -1) → npNorm st0.attrs.attitude = 1 → npNorm st0.attrs.bodyAngVel ≤ M →
      npNorm (c.sat.rw.momentum st0.attrs.wheelVel) ≤ H →
      ∀ T, 0 ≤ T → ∃ tr st n, Spec.ReadRun c qc 0 η H tr0 st0 T tr st n := by
  obtain ⟨η0, hη0, h⟩ := readRun_exists c ha hg hb hm hw hav s0 objs0 hobj h0 h1 M H
  refine ⟨η0, hη0, fun η b hη hbη qc hqc tr0 st0 hh hm0 hu hM hH T hT => ?_⟩
  obtain ⟨tr, st, n, hr, -⟩ := h η b hη hbη qc hqc tr0 st0 hh hm0 hu hM hH T hT
  exact ⟨tr, st, n, hr⟩

/-! ## The floor is really there -/

/-- A gyro that reads `b` too much, along a principal axis of the satellite, makes it rest beside the command: the
satellite at rest with wheels that stand still, turned away from the command so that the vector part of the error is
`gamma / alpha` times `b`, stays there for ever. -/
theorem C211_floor (c : RwController) (ha : 0 < c.alpha) (hg : 0 < c.gamma) {mass : ℝ} {dims : V3} {ab cd : ℝ}
    (hb : Built c.sat mass dims ab cd) (hm : mass ≠ 0) (hw : UnlimitedWheels c.sat) (hav : c.objAvoidance = false)
    (s0 : Measurements c.sat.rw.n) (objs0 : List V3) (hobj : c.objects s0 = .ok objs0) (tr : Trigger)
    (hh : 0 < tr.halfWidth) (hm0 : tr.memory = 1 ∨ tr.memory = -1) {b : V3} {l : ℝ} (hbI : c.sat.totalMoment *ᵥ b = l • b)
    (hsmall : c.gamma / c.alpha * npNorm b ≤ 1) (qc : V4) (hqc : npNorm qc = 1) (st0 : SatState c.sat.rw.n) :
    ∃ st : SatState c.sat.rw.n, npNorm st.attrs.attitude = 1 ∧ st.attrs.bodyAngVel = 0 ∧ st.attrs.wheelVel = 0 ∧
      npNorm (vecPart (errorQuat st.attrs.attitude qc)) = c.gamma / c.alpha * npNorm b ∧
      ∀ t, 0 ≤ t → Spec.ReadRun c qc 0 (npNorm b) 0 tr st t tr st 0 := by
  have hs2 : tr.memory ^ 2 = 1 := by rcases hm0 with h | h <;> rw [h] <;> norm_num
  obtain ⟨f, hf⟩ : ∃ f, f = c.gamma / c.alpha := ⟨_, rfl⟩
  have hf0 : 0 < f := by rw [hf]; positivity
  rw [← hf] at hsmall
  obtain ⟨x, hx0, hx⟩ : ∃ x : ℝ, 0 ≤ x ∧ x ^ 2 = 1 - (f * npNorm b) ^ 2 := by
    refine ⟨Real.sqrt (1 - (f * npNorm b) ^ 2), Real.sqrt_nonneg _, Real.sq_sqrt ?_⟩
    have := pow_le_one₀ (n := 2) (mul_nonneg hf0.le (npNorm_nonneg b)) hsmall
    linarith
  obtain ⟨e, he⟩ : ∃ e : V4, e = ![tr.memory * x, -(tr.memory * f) * b 0, -(tr.memory * f) * b 1, -(tr.memory * f) * b 2] :=
    ⟨_, rfl⟩
  have hbsq := npNorm3_sq b
  have heu : IsUnit4 e := by
    unfold IsUnit4
    rw [he]
    simp only [Matrix.cons_val_zero, Matrix.cons_val_one, Matrix.cons_val]
    linear_combination (x ^ 2 + f ^ 2 * (b 0 ^ 2 + b 1 ^ 2 + b 2 ^ 2)) * hs2 + hx - f ^ 2 * hbsq
  have hqcu := (isUnit4_iff _).2 hqc
  obtain ⟨st, hst⟩ : ∃ st : SatState c.sat.rw.n, st = { withMotion st0 (product qc e, 0) with
    attrs := { (withMotion st0 (product qc e, 0)).attrs with wheelVel := 0 } } := ⟨_, rfl⟩
  have a1 : st.attrs.attitude = product qc e := by rw [hst]; rfl
  have a2 : st.attrs.bodyAngVel = 0 := by rw [hst]; rfl
  have a3 : st.attrs.wheelVel = 0 := by rw [hst]
  have herr : errorQuat st.attrs.attitude qc = e := by
    rw [a1]
    unfold IsUnit4 at hqcu
    funext i
    fin_cases i
    all_goals simp only [errorQuat, product_0, product_1, product_2, product_3, conjugate_0, conjugate_1,
      conjugate_2, conjugate_3, Fin.zero_eta, Fin.mk_one, Fin.reduceFinMk]
    · linear_combination (e 0) * hqcu
    · linear_combination (e 1) * hqcu
    · linear_combination (e 2) * hqcu
    · linear_combination (e 3) * hqcu
  have hvec : vecPart e = -(tr.memory * f) • b := by
    rw [he]; funext i; fin_cases i <;> simp [vecPart]
  have hp0 : c.sat.rw.momentum st.attrs.wheelVel = 0 := by
    rw [a3]; funext k
    simp [RWSystem.momentum, Wheel.momentum]
  have hbx : npCross b (c.sat.totalMoment *ᵥ b + 0) = 0 := by
    rw [add_zero, hbI]
    funext i; fin_cases i <;> simp [npCross_0, npCross_1, npCross_2] <;> ring
  refine ⟨st, ?_, a2, a3, ?_, fun t ht => ?_⟩
  · rw [a1]; exact (isUnit4_iff _).1 (isUnit4_product hqcu heu)
  · rw [herr, hvec, npNorm_smul, ← hf]
    have : |-(tr.memory * f)| = f := by rcases hm0 with h | h <;> rw [h] <;> simp [abs_of_pos hf0]
    rw [this]
  · have z0 : npNorm (0 : V3) = 0 := by simp [npNorm]
    obtain ⟨d, hi, hd1, hd2⟩ := read_instant_exists c hb hm hw hav s0 objs0 hobj qc tr st st.attrs.attitude b
      st.attrs.wheelVel (η := npNorm b) (H := 0) (by rw [sub_self]; simpa [npNorm] using npNorm_nonneg b)
      (by rw [a2, sub_zero]) (fun i => by rw [sub_self, abs_zero]; exact npNorm_nonneg _) (by rw [hp0, z0])
    have hhold : tr.step (errorQuat st.attrs.attitude qc 0) = tr := by
      refine step_hold ?_
      rw [herr, he]
      simp only [Matrix.cons_val_zero]
      have : tr.memory * x * tr.memory = x := by linear_combination x * hs2
      rw [this]; linarith
    rw [hhold] at hi hd2
    have hd1' : d.att = 0 := by
      rw [hd1, a2]
      funext i; fin_cases i <;> simp [pureQ, product_0, product_1, product_2, product_3]
    have hd2' : d.rate = 0 := by
      rw [hd2, herr, hvec, hp0, hbx, a2]
      have e1 : npCross 0 (c.sat.totalMoment *ᵥ 0 + 0) = (0 : V3) := by
        funext i; fin_cases i <;> simp [npCross_0, npCross_1, npCross_2]
      rw [e1, sub_zero, Matrix.mulVec_zero, add_zero, smul_smul]
      have e2 : -(tr.memory * c.alpha) * -(tr.memory * f) = c.gamma := by
        rw [hf]; field_simp; linear_combination hs2
      rw [e2, sub_self]
    have := Spec.ReadRun.flow (c := c) (qc := qc) (δ := 0) (η := npNorm b) (H := 0) (tr0 := tr) (st0 := st) (fun _ => st) t ht
      .start continuousOn_const continuousOn_const fun τ _ =>
        ⟨d, hi, hd1' ▸ hasDerivAt_const τ _, hd2' ▸ hasDerivAt_const τ _⟩
    rwa [zero_add] at this

/-- The hypotheses are met by a controller of the constructor, whose half width is 0.3, with wheels that turn at 100 rad/s
and a gyro with a constant error: from a tumble of 0.37 rad/s there are runs for every duration. -/
example : ∃ (c : RwController) (η H : ℝ) (st0 : SatState c.sat.rw.n), 0 < η ∧ c.trigger.halfWidth = 0.3 ∧
    st0.attrs.bodyAngVel = ![0.1, 0.2, 0.3] ∧ (st0.attrs.wheelVel = fun _ => 100) ∧
    ∀ T, 0 ≤ T → ∃ tr st n, Spec.ReadRun c ![0, 1, 0, 0] 0 η H c.trigger st0 T tr st n := by
  obtain ⟨model, c, st, s, objs, hc, hb, hw, hav, hs, hobj, hn, hrate, -, -, -, hwh⟩ := exLoop ![0.1, 0.2, 0.3] 0 []
  obtain ⟨ha, hal, hga, hhw, hmem, -⟩ := C69_gains model 1 1 c hc
  obtain ⟨η, hη, h⟩ := C211_exists { c with objAvoidance := false } ha (by rw [hga]; norm_num) hb (by norm_num) hw rfl s
    objs hobj (h := 0.3) (by norm_num) (by norm_num) 1 (npNorm (c.sat.rw.momentum st.attrs.wheelVel))
  refine ⟨{ c with objAvoidance := false }, η, npNorm (c.sat.rw.momentum st.attrs.wheelVel), st, hη, hhw, by rw [← hs.2.1, hrate], by rw [← hs.2.2, hwh], ?_⟩
  refine h η ![η, 0, 0] le_rfl (le_of_eq ?_) ![0, 1, 0, 0] (npNorm_vec4 (by norm_num)) c.trigger st hhw (.inl hmem)
    (by rw [← hs.1, hn]) ?_ le_rfl
  · simp [npNorm, Fin.sum_univ_three, Real.sqrt_sq hη.le]
  · rw [← hs.2.1, hrate]
    refine abs_le_of_sq_le_sq' ?_ zero_le_one |>.2
    rw [npNorm3_sq]
    norm_num

/-- The hypotheses of `C211_floor` are met by a controller of the constructor and an error of 0.01 rad/s: the satellite
rests 0.01 (in the vector part of the error, about 1.1 degrees) beside the command. -/
example : ∃ (c : RwController) (st : SatState c.sat.rw.n), c.trigger.halfWidth = 0.3 ∧ npNorm st.attrs.attitude = 1 ∧
    st.attrs.bodyAngVel = 0 ∧ npNorm (vecPart (errorQuat st.attrs.attitude ![0, 1, 0, 0])) = 0.01 ∧
    ∀ t, 0 ≤ t → Spec.ReadRun c ![0, 1, 0, 0] 0 0.01 0 c.trigger st t c.trigger st 0 := by
  obtain ⟨sat, hb, hpd, -, hI, hins, hrw⟩ := exSat3 false []
  set a : Raw sat.rw.n := exRaw sat.rw.n with ha
  have hpos : a.pos 0 ^ 2 + a.pos 1 ^ 2 = 6800000 ^ 2 := by simp [ha, exRaw]
  obtain ⟨st, -⟩ := mkState_equator a exClock (by simp [ha, exRaw]) (by rw [hpos]; norm_num)
    (by
      rw [hpos, Real.sqrt_sq (by norm_num)]
      have := wgsE2_lt; have := wgsE2_pos
      unfold Fr.wgsA; nlinarith)
  have hn : npNorm (![0.01, 0, 0] : V3) = 0.01 := by
    rw [npNorm, Fin.sum_univ_three]
    have e : (![0.01, 0, 0] : V3) 0 ^ 2 + (![0.01, 0, 0] : V3) 1 ^ 2 + (![0.01, 0, 0] : V3) 2 ^ 2 = 0.01 ^ 2 := by norm_num
    rw [e, Real.sqrt_sq (by norm_num)]
  obtain ⟨st', h1, h2, -, h4, h5⟩ := C211_floor
    ⟨sat, exClock, some fun _ _ => .ok ![1, 0, 0], false, Trigger.init 1 0.3, 2 * 1 ^ 2, 2 * 1 * 1,
        sat.instruments.map fun i => setGains i Real.pi (2 * 1 ^ 2 * 1)⟩ (by norm_num) (by norm_num) hb (by norm_num)
    ⟨3, exAxes, fun _ => 1e-5, fun _ => 2e-6, 0.002, fun _ => by norm_num, hrw⟩ rfl
    ⟨st.attrs.position, st.attrs.velocity, st.attrs.attitude, st.attrs.bodyAngVel, st.attrs.wheelVel, 0, 0⟩
    [sandwich st.attrs.attitude ![1, 0, 0], -normalizeV st.attrs.position] rfl (Trigger.init 1 0.3)
    (by norm_num [Trigger.init]) (.inl (by norm_num [Trigger.init, npSign])) (b := ![0.01, 0, 0]) (l := 0.012514)
    (by
      rw [show _ = sat.totalMoment from rfl, hI]
      funext i; fin_cases i <;> simp [Matrix.mulVec_diagonal])
    (by rw [hn]; norm_num) ![0, 1, 0, 0] (npNorm_vec4 (by norm_num)) st
  rw [hn] at h4 h5
  exact ⟨_, st', rfl, h1, h2, by rw [h4]; norm_num, h5⟩

end Adcs
