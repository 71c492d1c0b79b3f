import Verif.Props.KeepOut
import Mathlib.Analysis.SpecialFunctions.Log.NegMulLog
import Mathlib.Topology.Order.IntermediateValue
import Mathlib.Analysis.Complex.ExponentialBounds

/-!
# C183: where the avoidance law leaves the satellite standing

The comments in `allowable_zone` want a random push when the straight turn to the command runs into the object. The test
for that case, `z is np.zeros(3)`, is never true.
-/

set_option autoImplicit false

namespace Adcs

open Str Ctl Sens JDay Quat Vec Dyn Set Filter
open scoped Matrix

/-- A motion of the closed loop for all times, without disturbing torques, to a fixed commanded attitude; the hysteretic
sign does not switch. -/
structure Spec.Slewing (c : RwController) (sun earth : V3) (st : ℝ → SatState c.sat.rw.n) (qc : V4) : Prop where
  unitQ : npNorm (st 0).attrs.attitude = 1
  unitC : npNorm qc = 1
  avoid : c.objAvoidance = true
  law : ∀ t, 0 ≤ t → ∃ (clock : JClock) (s : Measurements c.sat.rw.n) (f : JClock → V3 → Py V3) (law : V3)
    (c' : RwController) (a : Fin c.sat.rw.n → ℝ) (F : V3) (d : Raw c.sat.rw.n),
    Measured s (st t) ∧ c.sunVector = some f ∧ f clock s.pos = .ok sun ∧ normalizeV s.pos = -earth ∧
    ({ c with clock := clock } : RwController).tracking s 0 0 qc = (.ok law, c') ∧ c'.trigger = c.trigger ∧
    c.actuatorCommands law = .ok a ∧ derivative c.sat (st t) ⟨F, 0⟩ a = .ok d ∧
    HasDerivAt (fun t => (st t).attrs.attitude) d.att t ∧ HasDerivAt (fun t => (st t).attrs.bodyAngVel) d.rate t

/-- The claim: with instruments that mind the sun only, every motion that starts outside the forbidden regions comes to a
commanded attitude outside them. -/
def C183_claim : Prop :=
  ∀ (model : CtlModel) (damping natFreq : ℝ) (c : RwController), 0 < damping → 0 < natFreq →
    RwController.init model damping natFreq = .ok c →
    (∀ i ∈ model.sat.instruments, FromConstructor i ∧ 2 ≤ i.nBounds ∧ 1 ∉ i.objIds ∧
      ∀ k : Fin i.nBounds, k.1 ∈ i.objIds → Real.cos (i.bounds k) ≠ 0) →
    ∀ (mass : ℝ) (dims : V3) (ab cd : ℝ), Built c.sat mass dims ab cd → mass ≠ 0 → UnlimitedWheels c.sat →
    ∀ (sun earth : V3), npNorm sun = 1 → npNorm earth = 1 →
    ∀ (st : ℝ → SatState c.sat.rw.n) (qc : V4), Spec.Slewing c sun earth st qc →
    Spec.Allowed c.instruments ([sun, earth].map (sandwich (st 0).attrs.attitude)) →
    Spec.Allowed c.instruments ([sun, earth].map (sandwich qc)) →
    Tendsto (fun t => vecPart (errorQuat (st t).attrs.attitude qc)) atTop (nhds 0)

/-- What one pass gives when the axis of the error is at right angles to boresight and object: no push. -/
theorem zoneStep_planar {i : Instrument} {s : ℝ} {dq dw : V3} {j : ℕ} {o : V3} (hj : j < i.nBounds)
    (hm : j ∈ i.objIds) (h0 : 0 < margin i ⟨j, hj⟩ o) (h2 : margin i ⟨j, hj⟩ o < i.sigma ⟨j, hj⟩)
    (hp : npCross dq (npCross i.boresight o) = 0) (z : Zone) :
    zoneStep i s dq dw j o z = .ok ⟨z.c - i.gains ⟨j, hj⟩ * Real.log (margin i ⟨j, hj⟩ o),
        z.axis + (i.gains ⟨j, hj⟩ * i.sign ⟨j, hj⟩ / margin i ⟨j, hj⟩ o) • npCross i.boresight o, z.nudge⟩ := by
  unfold zoneStep
  rw [dif_pos hj]
  have e : 0.5 * i.sign ⟨j, hj⟩ * (npDot i.boresight o - i.cosPsi ⟨j, hj⟩) = margin i ⟨j, hj⟩ o := rfl
  simp only [Instrument.caresAbout, dif_pos hj, if_pos hm, e, h2, decide_true, if_neg (not_le.2 h0), npLog, if_pos h0,
    npDiv, if_neg h0.ne', hp, smul_zero, normalize_zero, sub_zero, ite_self]

/-- The closed loop exists whenever the law is defined. -/
theorem avoid_exists {c : RwController} {mass : ℝ} {dims : V3} {ab cd : ℝ} (hb : Built c.sat mass dims ab cd) (hm : mass ≠ 0)
    (hw : UnlimitedWheels c.sat) (hav : c.objAvoidance = true) (st : SatState c.sat.rw.n) (s : Measurements c.sat.rw.n)
    {objs : List V3} (hobj : c.objects s = .ok objs) (wc wcd : V3) (qc : V4) {v : V3} {c2 : RwController}
    (hz : c.allowableZone (errorQuat s.att qc) (s.rate - sandwich (errorQuat s.att qc) wc) objs = (.ok v, c2)) (F N : V3) :
    ∃ law a d, c.tracking s wc wcd qc = (.ok law, c2) ∧ c.actuatorCommands law = .ok a ∧
      derivative c.sat st ⟨F, N⟩ a = .ok d := by
  have ht : ∃ law, c.tracking s wc wcd qc = (.ok law, c2) := by
    unfold RwController.tracking
    simp only [hobj, hav, if_true, hz]
    exact ⟨_, rfl⟩
  obtain ⟨law, ht⟩ := ht
  obtain ⟨a, ha, hta⟩ := hw.accelerations (-law)
  obtain ⟨d, hd, -⟩ := derivative_rate hb hm st law F N a hta
  exact ⟨law, a, d, ht, ha, hd⟩

/-- There is an angle at which attraction and repulsion are in balance. -/
theorem balance {β : ℝ} (h0 : 0 < β) (h1 : β ≤ Real.pi / 3) :
    ∃ φ, Real.pi / 2 + β < φ ∧ φ < Real.pi ∧
      (Real.cos β - Real.sin φ) / 2 * (1 - Real.log ((Real.cos β - Real.sin φ) / 2)) * Real.sin (φ / 2) =
        0.5 * (1 - Real.cos (φ / 2)) * -Real.cos φ := by
  have hpi := Real.pi_pos
  set ψ : ℝ → ℝ := fun φ => (Real.cos β - Real.sin φ) / 2 with hψ
  set f : ℝ → ℝ := fun φ => (ψ φ + Real.negMulLog (ψ φ)) * Real.sin (φ / 2) - 0.5 * (1 - Real.cos (φ / 2)) * -Real.cos φ with hf
  have hψc : Continuous ψ := by fun_prop
  have hfc : Continuous f := by
    have := Real.continuous_negMulLog.comp hψc
    simp only [Function.comp_def] at this
    fun_prop
  have hc : 1 / 2 ≤ Real.cos β := by
    rw [← Real.cos_pi_div_three]
    exact Real.cos_le_cos_of_nonneg_of_le_pi h0.le (by linarith) h1
  have hs0 : Real.sin (Real.pi / 2 + β) = Real.cos β := by rw [add_comm, Real.sin_add_pi_div_two]
  have hc0 : Real.cos (Real.pi / 2 + β) = -Real.sin β := by rw [add_comm, Real.cos_add_pi_div_two]
  have hf0 : f (Real.pi / 2 + β) < 0 := by
    have e1 : ψ (Real.pi / 2 + β) = 0 := by simp only [hψ, hs0]; ring
    have hsb : 0 < Real.sin β := Real.sin_pos_of_pos_of_lt_pi h0 (by linarith)
    have hcc : Real.cos ((Real.pi / 2 + β) / 2) < 1 := by
      rw [← Real.cos_zero]
      exact Real.cos_lt_cos_of_nonneg_of_le_pi le_rfl (by linarith) (by linarith)
    simp only [hf, e1, Real.negMulLog_zero, add_zero, zero_mul, hc0]
    nlinarith
  have hf1 : 0 < f Real.pi := by
    have e1 : ψ Real.pi = Real.cos β / 2 := by simp only [hψ, Real.sin_pi]; ring
    have hb1 := Real.cos_le_one β
    set p := Real.cos β / 2 with hp
    have p0 : 1 / 4 ≤ p := by linarith
    have p1 : p ≤ 1 / 2 := by linarith
    have hlog : Real.log p ≤ 4 * p - 1 - 2 * Real.log 2 := by
      have := Real.log_le_sub_one_of_pos (show 0 < 4 * p by linarith)
      rw [Real.log_mul (by norm_num) (by linarith), show (4:ℝ) = 2 ^ 2 by norm_num, Real.log_pow] at this
      push_cast at this
      linarith
    have h2 := Real.log_two_gt_d9
    simp only [hf, e1, Real.sin_pi_div_two, Real.cos_pi_div_two, Real.cos_pi, Real.negMulLog]
    nlinarith [mul_nonneg (sub_nonneg.2 p0) (sub_nonneg.2 p1)]
  obtain ⟨φ, hφ, hφ0⟩ := intermediate_value_Icc (show Real.pi / 2 + β ≤ Real.pi by linarith) hfc.continuousOn
    ⟨hf0.le, hf1.le⟩
  refine ⟨φ, lt_of_le_of_ne hφ.1 ?_, lt_of_le_of_ne hφ.2 ?_, ?_⟩
  · rintro rfl; rw [hφ0] at hf0; exact lt_irrefl _ hf0
  · rintro rfl; rw [hφ0] at hf1; exact lt_irrefl _ hf1
  · simp only [hf, Real.negMulLog] at hφ0
    linear_combination hφ0

/-- Every controller has a place in front of the sun where the satellite rests for ever: for every instrument that must not
come within 60 degrees or less of the sun, every plane through its boresight, every mounting, gain and first wheel speed.
The sun stands a right angle away from the commanded direction of the boresight. -/
theorem C183_stuck (model : CtlModel) (damping natFreq : ℝ) (c : RwController)
    (hc : RwController.init model damping natFreq = .ok c) {mass : ℝ} {dims : V3} {ab cd : ℝ}
    (hb : Built c.sat mass dims ab cd) (hm : mass ≠ 0) (hw : UnlimitedWheels c.sat)
    {b n : V3} (hbu : npNorm b = 1) (hnu : npNorm n = 1) (hbn : n ⬝ᵥ b = 0)
    {bounds : Fin 2 → ℝ} {forbidden : Fin 2 → Bool} {stop : ℝ} {g : Fin 2 → ℝ} (hforb : forbidden 0 = true)
    (hd0 : 0 < bounds 0) (hd1 : bounds 0 ≤ 60)
    (hins : model.sat.instruments = [Instrument.mk' b 2 bounds forbidden [0] stop g])
    (hsun : model.sunVector = some fun _ _ => .ok (npCross n b)) (earth : V3) (hearth : npNorm earth = 1)
    (st0 : SatState c.sat.rw.n) :
    ∃ st : SatState c.sat.rw.n, Spec.Slewing c (npCross n b) earth (fun _ => st) ![1, 0, 0, 0] ∧
      Spec.Allowed c.instruments ([npCross n b, earth].map (sandwich st.attrs.attitude)) ∧
      Spec.Allowed c.instruments ([npCross n b, earth].map (sandwich ![1, 0, 0, 0])) ∧
      st.attrs.wheelVel = st0.attrs.wheelVel ∧ vecPart (errorQuat st.attrs.attitude ![1, 0, 0, 0]) ≠ 0 := by
  have hpi := Real.pi_pos
  have hnat : natFreq ≠ 0 ∧ c.sat = model.sat ∧ c.sunVector = model.sunVector ∧ c.objAvoidance = true ∧
      c.trigger = Trigger.init 1 0.3 ∧ c.alpha = 2 * natFreq ^ 2 ∧
      c.instruments = model.sat.instruments.map fun i => setGains i Real.pi (2 * natFreq ^ 2) := by
    unfold RwController.init at hc
    split at hc
    · cases hc
    simp only at hc
    split_ifs at hc with hd
    obtain rfl := Except.ok.inj hc
    exact ⟨fun h => hd (by rw [h, mul_zero]), rfl, rfl, rfl, rfl, rfl, by simp only [mul_one]⟩
  obtain ⟨hn0, -, hcs, hav, htr, hal, hci⟩ := hnat
  rw [hins, List.map_singleton] at hci
  rw [hsun] at hcs
  set i := setGains (Instrument.mk' b 2 bounds forbidden [0] stop g) Real.pi (2 * natFreq ^ 2) with hi
  set β := npRadians (bounds 0) with hβ
  have hβ0 : 0 < β := by rw [hβ, npRadians]; positivity
  have hβ1 : β ≤ Real.pi / 3 := by
    rw [hβ, npRadians]
    have := mul_le_mul_of_nonneg_right hd1 hpi.le
    linarith
  obtain ⟨φ, h1, h2, hbal⟩ := balance hβ0 hβ1
  have hcosβ : 0 < Real.cos β := Real.cos_pos_of_mem_Ioo ⟨by linarith, by linarith⟩
  -- geometry
  have hb3 : b 0 ^ 2 + b 1 ^ 2 + b 2 ^ 2 = 1 := (isUnit3_iff b).2 hbu
  have hn3 : n 0 ^ 2 + n 1 ^ 2 + n 2 ^ 2 = 1 := (isUnit3_iff n).2 hnu
  have hbn' : n 0 * b 0 + n 1 * b 1 + n 2 * b 2 = 0 := by rw [← Matrix.vec3_dotProduct]; exact hbn
  have hnn : npCross n (npCross n b) = -b := by
    ext k
    fin_cases k
    · simp [npCross_0, npCross_1, npCross_2]; linear_combination n 0 * hbn' - b 0 * hn3
    · simp [npCross_0, npCross_1, npCross_2]; linear_combination n 1 * hbn' - b 1 * hn3
    · simp [npCross_0, npCross_1, npCross_2]; linear_combination n 2 * hbn' - b 2 * hn3
  have hbb : npCross b (npCross n b) = n := by
    ext k
    fin_cases k
    · simp [npCross_0, npCross_1, npCross_2]; linear_combination n 0 * hb3 - b 0 * hbn'
    · simp [npCross_0, npCross_1, npCross_2]; linear_combination n 1 * hb3 - b 1 * hbn'
    · simp [npCross_0, npCross_1, npCross_2]; linear_combination n 2 * hb3 - b 2 * hbn'
  have hbe : b ⬝ᵥ npCross n b = 0 := by
    rw [npCross_eq_crossProduct, dot_cross_self]
  have hq : sandwich (axisangleToQuat n φ) (npCross n b) = Real.sin φ • b + Real.cos φ • npCross n b := by
    rw [C10_axisangle_passive n φ hnu, Spec.rodrigues, Real.cos_neg, Real.sin_neg, ← npCross_eq_crossProduct, hnn,
      npCross_eq_crossProduct, dot_self_cross, mul_zero, zero_smul, add_zero, neg_smul, smul_neg, neg_neg, add_comm]
  have hcross : npCross b (sandwich (axisangleToQuat n φ) (npCross n b)) = Real.cos φ • n := by
    rw [hq, npCross_eq_crossProduct, map_add, map_smul, map_smul, cross_self, smul_zero, zero_add,
      ← npCross_eq_crossProduct, hbb]
  have hmar : ∀ (hj : 0 < i.nBounds) (o : V3), margin i ⟨0, hj⟩ o = (Real.cos β - b ⬝ᵥ o) / 2 := by
    intro hj o
    simp only [hi, margin, setGains, Instrument.mk', npDot3, Matrix.vec3_dotProduct]
    change 0.5 * (if forbidden 0 = true then -1 else 1) * (_ - Real.cos β) = _
    rw [if_pos hforb]
    ring
  have hsig : ∀ (hj : 0 < i.nBounds), i.sigma ⟨0, hj⟩ = Real.cos β := by
    intro hj
    exact ((setGains_region ⟨_, _, _, _, _, _, _, rfl⟩ (2 * natFreq ^ 2) (⟨0, hj⟩ : Fin 2)).1).trans (abs_of_pos hcosβ)
  have hsinφ : Real.sin φ < Real.cos β := by
    rw [← Real.cos_sub_pi_div_two]
    exact Real.cos_lt_cos_of_nonneg_of_le_pi hβ0.le (by linarith) (by linarith)
  have hsin0 : 0 < Real.sin φ := Real.sin_pos_of_pos_of_lt_pi (by linarith) h2
  have hψ : 0 < (Real.cos β - Real.sin φ) / 2 := by linarith
  have hbo : b ⬝ᵥ sandwich (axisangleToQuat n φ) (npCross n b) = Real.sin φ := by
    rw [hq, dotProduct_add, dotProduct_smul, dotProduct_smul, hbe, Matrix.vec3_dotProduct]
    simp only [smul_eq_mul]
    linear_combination Real.sin φ * hb3
  set q := axisangleToQuat n φ with hqd
  have herr : errorQuat q ![1, 0, 0, 0] = q := by
    unfold errorQuat
    ext k
    fin_cases k <;>
      simp [product_0, product_1, product_2, product_3, conjugate_0, conjugate_1, conjugate_2, conjugate_3]
  have hvec : vecPart q = Real.sin (φ / 2) • n := by
    ext k
    fin_cases k <;> simp [hqd, vecPart, axisangleToQuat]
  have hshalf : 0 < Real.sin (φ / 2) := Real.sin_pos_of_pos_of_lt_pi (by linarith) (by linarith)
  have hchalf : 0 ≤ Real.cos (φ / 2) := Real.cos_nonneg_of_mem_Icc ⟨by linarith, by linarith⟩
  have hsign : (Trigger.init 1 0.3).sign (q 0) = (1, Trigger.init 1 0.3) := by
    have hm : (Trigger.init 1 0.3).memory = 1 := by simp [Trigger.init, npSign]
    have hh : (Trigger.init 1 0.3).halfWidth = 0.3 := rfl
    have hs : (Trigger.init 1 0.3).step (q 0) = Trigger.init 1 0.3 := by
      unfold Trigger.step
      rw [if_neg]
      rw [hm, hh, mul_one, not_le]
      change -0.3 < Real.cos (φ / 2)
      norm_num at *; linarith
    exact Prod.ext ((congrArg Trigger.memory hs).trans hm) hs
  have hallow : ∀ p : V4, 0 < (Real.cos β - b ⬝ᵥ sandwich p (npCross n b)) / 2 →
      Spec.Allowed c.instruments ([npCross n b, earth].map (sandwich p)) := by
    intro p hp i' hi' j o ho hj hjm
    rw [hci] at hi'
    obtain rfl := List.mem_singleton.1 hi'
    obtain rfl : j = 0 := List.mem_singleton.1 hjm
    obtain rfl : sandwich p (npCross n b) = o := by simpa using ho
    rw [hmar]
    exact hp
  set st : SatState c.sat.rw.n := withMotion st0 (q, 0) with hst
  refine ⟨st, ⟨C10_axisangle_unit n φ hnu, npNorm_vec4 (by norm_num), hav, fun t _ => ?_⟩, ?_, ?_, rfl, ?_⟩
  · set s : Measurements c.sat.rw.n := ⟨-earth, 0, q, 0, st0.attrs.wheelVel, 0, 0⟩ with hs
    have hnorm : normalizeV s.pos = -earth := by
      have h1 : npNorm (-earth) = 1 := by rw [← neg_one_smul ℝ, npNorm_smul, hearth]; norm_num
      simp only [hs, normalizeV, h1, one_ne_zero, if_false, div_one]
    have hobj : c.objects s = .ok [sandwich q (npCross n b), earth] := by
      have : -normalizeV s.pos = earth := by rw [hnorm, neg_neg]
      simp only [RwController.objects, hcs, this]
      rfl
    have hz : c.allowableZone (errorQuat s.att ![1, 0, 0, 0])
        (s.rate - sandwich (errorQuat s.att ![1, 0, 0, 0]) 0) [sandwich q (npCross n b), earth] = (.ok 0, c) := by
      have h0 : 0 < i.nBounds := show 0 < 2 by norm_num
      have hm0 : margin i ⟨0, h0⟩ (sandwich q (npCross n b)) = (Real.cos β - Real.sin φ) / 2 := by rw [hmar, hbo]
      have hpl : npCross (vecPart q) (npCross i.boresight (sandwich q (npCross n b))) = 0 := by
        change npCross _ (npCross b _) = 0
        rw [hcross, hvec, npCross_eq_crossProduct, map_smul, LinearMap.map_smul₂, cross_self, smul_zero, smul_zero]
      have hstep := zoneStep_planar (i := i) (s := 1) (dq := vecPart q) (dw := (0 : V3) - sandwich q 0) h0
        (List.mem_singleton.2 rfl) (by rw [hm0]; exact hψ) (by rw [hm0, hsig]; linarith) hpl ⟨c.alpha, 0, 0⟩
      have hzo : zoneObjects i 1 (vecPart q) ((0 : V3) - sandwich q 0) 0 [sandwich q (npCross n b), earth] ⟨c.alpha, 0, 0⟩ =
          .ok ⟨c.alpha - i.gains ⟨0, h0⟩ * Real.log (margin i ⟨0, h0⟩ (sandwich q (npCross n b))),
            0 + (i.gains ⟨0, h0⟩ * i.sign ⟨0, h0⟩ / margin i ⟨0, h0⟩ (sandwich q (npCross n b))) •
              npCross i.boresight (sandwich q (npCross n b)), 0⟩ := by
        rw [zoneObjects, hstep]
        simp only [zoneObjects, zero_add]
        rw [zoneStep_outside (show 1 < i.nBounds from Nat.one_lt_two) (.inl (by
          intro h; exact absurd (List.mem_singleton.1 h) one_ne_zero))]
      unfold RwController.allowableZone
      simp only [hs, herr, htr, hsign, hci, zoneInstruments, hzo]
      refine Prod.ext (congrArg Except.ok ?_) (by simp only [← hci, ← htr])
      have hk : i.gains ⟨0, h0⟩ = c.alpha := hal.symm
      have hsg : i.sign ⟨0, h0⟩ = -1 := if_pos hforb
      have hq0 : q 0 = Real.cos (φ / 2) := rfl
      rw [hm0, hk, hsg, hq0, hvec, show i.boresight = b from rfl, hcross, zero_add, add_zero, smul_smul, smul_smul,
        smul_smul, ← add_smul]
      set p := (Real.cos β - Real.sin φ) / 2 with hp
      have : -1 * (c.alpha - c.alpha * Real.log p) * Real.sin (φ / 2) +
          0.5 * (1 - 1 * Real.cos (φ / 2)) * (c.alpha * -1 / p * Real.cos φ) = 0 := by
        field_simp
        linear_combination (-c.alpha) * hbal
      rw [← mul_assoc] at this
      first | rw [this, zero_smul] | (rw [mul_assoc] at this; rw [this, zero_smul])
    obtain ⟨law, a, d, k1, k2, k3⟩ := avoid_exists hb hm hw hav st s hobj 0 0 ![1, 0, 0, 0] hz 0 0
    obtain ⟨e1, v, c2, e2, e3⟩ := avoid_rate hb hm hw hav (s := s) (st := st) ⟨rfl, rfl, rfl⟩ hobj k1 k2 k3
    rw [hz] at e2
    obtain rfl : 0 = v := Except.ok.inj (Prod.mk.inj e2).1
    have hz0 : sandwich (errorQuat s.att ![1, 0, 0, 0]) (0 : V3) = 0 := by rw [sandwich_eq_dcm, Matrix.mulVec_zero]
    have d1 : d.att = 0 := by
      rw [e1]
      have : pureQ s.rate = 0 := by ext k; fin_cases k <;> simp [pureQ, hs]
      rw [this]
      ext k
      fin_cases k <;> simp [product_0, product_1, product_2, product_3]
    have d2 : d.rate = 0 := by
      rw [e3, hz0]
      simp [hs, npCross_eq_crossProduct]
    refine ⟨c.clock, s, _, law, c, a, 0, d, ⟨rfl, rfl, rfl⟩, hcs, rfl, hnorm, k1, rfl, k2, k3, ?_, ?_⟩
    · rw [d1]; exact hasDerivAt_const _ _
    · rw [d2]; exact hasDerivAt_const _ _
  · exact hallow q (by rw [hbo]; exact hψ)
  · refine hallow _ ?_
    rw [sandwich_one, hbe]; linarith
  · change vecPart (errorQuat q ![1, 0, 0, 0]) ≠ 0
    rw [herr, hvec]
    intro h0
    have := congrArg npNorm h0
    rw [npNorm_smul, hnu, npNorm_eq_zero.2 rfl, mul_one, abs_of_pos hshalf] at this
    linarith

/-- A concrete satellite that rests in front of the sun; it meets the hypotheses of `C183_stuck` and, at rest, of
`C183_rest_partial`. -/
theorem exStuck : ∃ (model : CtlModel) (c : RwController) (st : SatState c.sat.rw.n), RwController.init model 1 1 = .ok c ∧
    model.sat.instruments = [exAverse ![1, 0, 0] 0] ∧ Built c.sat 2 ![0.1, 0.1, 0.2] 0.8 2.2 ∧ UnlimitedWheels c.sat ∧
    Spec.Slewing c ![0, 1, 0] ![-1, 0, 0] (fun _ => st) ![1, 0, 0, 0] ∧
    Spec.Allowed c.instruments ([![0, 1, 0], ![-1, 0, 0]].map (sandwich st.attrs.attitude)) ∧
    Spec.Allowed c.instruments ([![0, 1, 0], ![-1, 0, 0]].map (sandwich ![1, 0, 0, 0])) ∧
    vecPart (errorQuat st.attrs.attitude ![1, 0, 0, 0]) ≠ 0 := by
  obtain ⟨sat, hb, hpd, ⟨h3, -⟩, hI, hins, hrw⟩ := exSat3 false [exAverse ![1, 0, 0] 0]
  have hcr : npCross ![0, 0, 1] ![1, 0, 0] = (![0, 1, 0] : V3) := by
    ext k; fin_cases k <;> simp [npCross_0, npCross_1, npCross_2]
  set model : CtlModel := ⟨sat, some exClock, some fun _ _ => .ok (npCross ![0, 0, 1] ![1, 0, 0])⟩ with hmodel
  obtain ⟨c, hc, hcs⟩ : ∃ c : RwController, RwController.init model 1 1 = .ok c ∧ c.sat = sat := by
    unfold RwController.init
    simp only [hmodel]
    rw [if_neg (by norm_num)]
    exact ⟨_, rfl, rfl⟩
  obtain rfl := hcs
  have hpos : (exRaw c.sat.rw.n).pos 0 ^ 2 + (exRaw c.sat.rw.n).pos 1 ^ 2 = 6800000 ^ 2 := by simp [exRaw]
  obtain ⟨st0, hst, -, -, -⟩ := mkState_equator (exRaw c.sat.rw.n) exClock (by simp [exRaw]) (by rw [hpos]; norm_num)
    (by
      rw [hpos, Real.sqrt_sq (by norm_num)]
      have := wgsE2_lt; have := wgsE2_pos
      unfold Fr.wgsA; nlinarith)
  have hw : UnlimitedWheels c.sat := ⟨3, exAxes, fun _ => 1e-5, fun _ => 2e-6, 0.002, fun _ => by norm_num, hrw⟩
  obtain ⟨st, hs, ha, hcmd, -, hne⟩ := C183_stuck model 1 1 c hc hb (by norm_num) hw (b := ![1, 0, 0]) (n := ![0, 0, 1])
    (npNorm_vec3 (by norm_num)) (npNorm_vec3 (by norm_num)) (by rw [Matrix.vec3_dotProduct]; simp) rfl (by norm_num) (by norm_num)
    hins rfl ![-1, 0, 0] (npNorm_vec3 (by norm_num)) st0
  rw [hcr] at hs ha hcmd
  exact ⟨model, c, st, hc, hins, hb, hw, hs, ha, hcmd, hne⟩

/-- The claim fails. -/
theorem C183_reaches_fails : ¬ C183_claim := by
  intro hk
  obtain ⟨model, c, st, hc, hins, hb, hw, hs, ha, hcmd, hne⟩ := exStuck
  have hlim := hk model 1 1 c one_pos one_pos hc (by
      intro i hi
      rw [hins] at hi
      obtain rfl := List.mem_singleton.1 hi
      obtain ⟨h1, h2, h3⟩ := exAverse_from ![1, 0, 0] 0
      exact ⟨h1, h2, fun h => absurd (List.mem_singleton.1 h) one_ne_zero, h3⟩)
    2 _ _ _ hb (by norm_num) hw _ ![-1, 0, 0] (npNorm_vec3 (by norm_num)) (npNorm_vec3 (by norm_num)) _ _ hs ha hcmd
  exact hne (tendsto_nhds_unique tendsto_const_nhds hlim)

/-! ## Where else the satellite can rest -/

/-- When the law asks for nothing. -/
theorem rest_law {c : RwController} {i : Instrument} (hci : c.instruments = [i]) (hα : 0 < c.alpha) (hg : Guarded i)
    (hσ : ∀ k, i.sigma k ≤ 1) (hn : 2 ≤ i.nBounds) (h1 : 1 ∉ i.objIds) {delQ : V4} (hu : npNorm delQ = 1) {dw o o' : V3}
    (hs : (c.trigger.sign (delQ 0)).1 = 1) (ha : Spec.Allowed [i] [o]) {c' : RwController}
    (h : c.allowableZone delQ dw [o, o'] = (.ok 0, c')) :
    vecPart delQ = 0 ∨ ∃ h0 : 0 < i.nBounds, 0 ∈ i.objIds ∧ margin i ⟨0, h0⟩ o < i.sigma ⟨0, h0⟩ ∧
      ∃ κ, 0 < κ ∧ vecPart delQ = (κ * i.sign ⟨0, h0⟩) • npCross i.boresight o := by
  rw [zone_first (by rw [hci]; intro k hk; obtain rfl := List.mem_singleton.1 hk; exact ⟨hn, h1⟩)] at h
  unfold RwController.allowableZone at h
  have h0 : 0 < i.nBounds := by omega
  simp only [hci, zoneInstruments, zoneObjects, hs] at h
  by_cases hout : 0 ∉ i.objIds ∨ i.sigma ⟨0, h0⟩ ≤ margin i ⟨0, h0⟩ o
  · rw [zoneStep_outside h0 hout] at h
    left
    have := Except.ok.inj (Prod.mk.inj h).1
    rw [smul_zero, add_zero, add_zero] at this
    exact (smul_eq_zero.1 this).resolve_left (by nlinarith)
  · push Not at hout
    obtain ⟨hm, hlt⟩ := hout
    have hpos := ha i List.mem_cons_self 0 o rfl h0 hm
    have hk := (hg ⟨0, h0⟩ hm).2
    set ψ := margin i ⟨0, h0⟩ o with hψ
    set perp := npCross i.boresight o with hperp
    have hstep : ∃ p : ℝ, zoneStep i 1 (vecPart delQ) dw 0 o ⟨c.alpha, 0, 0⟩ =
        .ok ⟨c.alpha - i.gains ⟨0, h0⟩ * Real.log ψ, 0 + (i.gains ⟨0, h0⟩ * i.sign ⟨0, h0⟩ / ψ) • perp,
          p • normalizeV ((1 : ℝ) • npCross (vecPart delQ) perp)⟩ := by
      unfold zoneStep
      rw [dif_pos h0]
      have e : 0.5 * i.sign ⟨0, h0⟩ * (npDot i.boresight o - i.cosPsi ⟨0, h0⟩) = ψ := rfl
      simp only [Instrument.caresAbout, dif_pos h0, if_pos hm, e, hlt, decide_true, if_neg (not_le.2 hpos), npLog, if_pos hpos,
        npDiv, if_neg hpos.ne']
      split_ifs
      · exact ⟨_, by rw [zero_sub, ← neg_smul]⟩
      · exact ⟨_, by rw [zero_sub, ← neg_smul]⟩
      · exact ⟨0, by rw [zero_smul]⟩
    obtain ⟨p, hstep⟩ := hstep
    rw [hstep] at h
    have hlaw := Except.ok.inj (Prod.mk.inj h).1
    rw [zero_add, one_smul] at hlaw
    set dq := vecPart delQ with hdq
    set v := normalizeV (npCross dq perp) with hv
    have hvr : ∃ r : ℝ, v = r • npCross dq perp := by
      by_cases hz : npCross dq perp = 0
      · exact ⟨0, by rw [hv, hz, normalize_zero, smul_zero]⟩
      · exact ⟨_, normalize_eq hz⟩
    have hvd : v ⬝ᵥ dq = 0 ∧ v ⬝ᵥ perp = 0 := by
      obtain ⟨r, hr⟩ := hvr
      constructor
      · rw [hr, smul_dotProduct, npCross_eq_crossProduct, dotProduct_comm, dot_self_cross, smul_zero]
      · rw [hr, smul_dotProduct, npCross_eq_crossProduct, dotProduct_comm, dot_cross_self, smul_zero]
    have hpv : p • v = 0 := by
      have := congrArg (fun x => v ⬝ᵥ x) hlaw
      simp only [dotProduct_add, dotProduct_smul, hvd.1, hvd.2, smul_zero, zero_add, dotProduct_zero] at this
      rcases smul_eq_zero.1 this with h | h
      · rw [h, zero_smul]
      · rw [dotProduct_self_eq_zero.1 h, smul_zero]
    rw [hpv, add_zero] at hlaw
    have hlog : Real.log ψ ≤ 0 := Real.log_nonpos hpos.le (hlt.le.trans (hσ _))
    set C := c.alpha - i.gains ⟨0, h0⟩ * Real.log ψ with hC
    have hCpos : 0 < C := by nlinarith
    have hu4 : delQ 0 ^ 2 + delQ 1 ^ 2 + delQ 2 ^ 2 + delQ 3 ^ 2 = 1 := (isUnit4_iff delQ).2 hu
    by_cases hx : delQ 0 = 1
    · left
      rw [hx] at hu4
      have a1 : delQ 1 = 0 := by nlinarith [sq_nonneg (delQ 1), sq_nonneg (delQ 2), sq_nonneg (delQ 3)]
      have a2 : delQ 2 = 0 := by nlinarith [sq_nonneg (delQ 1), sq_nonneg (delQ 2), sq_nonneg (delQ 3)]
      have a3 : delQ 3 = 0 := by nlinarith [sq_nonneg (delQ 1), sq_nonneg (delQ 2), sq_nonneg (delQ 3)]
      rw [hdq]
      ext k
      fin_cases k
      · exact a1
      · exact a2
      · exact a3
    · right
      have hx1 : delQ 0 < 1 := lt_of_le_of_ne
        (by nlinarith [sq_nonneg (delQ 1), sq_nonneg (delQ 2), sq_nonneg (delQ 3)]) hx
      refine ⟨h0, hm, hlt, 0.5 * (1 - delQ 0) * i.gains ⟨0, h0⟩ / ψ / C, ?_, ?_⟩
      · have : 0 < 1 - delQ 0 := by linarith
        positivity
      · have e : C • dq = (0.5 * (1 - 1 * delQ 0) * (i.gains ⟨0, h0⟩ * i.sign ⟨0, h0⟩ / ψ)) • perp := by
          rw [smul_smul] at hlaw
          rw [← sub_eq_zero, ← neg_eq_zero, ← hlaw]
          module
        calc dq = C⁻¹ • (C • dq) := by rw [smul_smul, inv_mul_cancel₀ hCpos.ne', one_smul]
          _ = _ := by rw [e, smul_smul]; congr 1; field_simp

/-- Where the satellite can rest, for one instrument: at the command, or where the axis of the direct turn to the command
is at right angles to boresight and sun and the turn starts by reducing the margin (a positive multiple of boresight x sun
for a bound to keep within, a negative one for a bound to keep outside). Missing: that every other motion comes to the
command. -/
theorem C183_rest_partial (model : CtlModel) (damping natFreq : ℝ) (c : RwController)
    (hc : RwController.init model damping natFreq = .ok c) {mass : ℝ} {dims : V3} {ab cd : ℝ}
    (hb : Built c.sat mass dims ab cd) (hm : mass ≠ 0) (hw : UnlimitedWheels c.sat) {i : Instrument} (hfrom : FromConstructor i)
    (hn : 2 ≤ i.nBounds) (h1 : 1 ∉ i.objIds) (hcos : ∀ k : Fin i.nBounds, k.1 ∈ i.objIds → Real.cos (i.bounds k) ≠ 0)
    (hins : model.sat.instruments = [i]) {sun earth : V3} {st : ℝ → SatState c.sat.rw.n} {qc q : V4}
    (hs : Spec.Slewing c sun earth st qc) (ha : Spec.Allowed c.instruments [sandwich q sun])
    (hrest : ∀ t, 0 ≤ t → (st t).attrs.attitude = q ∧ (st t).attrs.bodyAngVel = 0) :
    vecPart (errorQuat q qc) = 0 ∨ ∃ h0 : 0 < i.nBounds, 0 ∈ i.objIds ∧
      ∃ κ, 0 < κ ∧ vecPart (errorQuat q qc) = (κ * i.sign ⟨0, h0⟩) • npCross i.boresight (sandwich q sun) := by
  have hnat : natFreq ≠ 0 ∧ c.alpha = 2 * natFreq ^ 2 ∧ c.trigger = Trigger.init 1 0.3 ∧
      c.instruments = [setGains i Real.pi (2 * natFreq ^ 2)] := by
    unfold RwController.init at hc
    split at hc
    · cases hc
    simp only at hc
    split_ifs at hc with hd
    obtain rfl := Except.ok.inj hc
    exact ⟨fun h => hd (by rw [h, mul_zero]), rfl, rfl, by simp only [mul_one, hins, List.map_singleton]⟩
  obtain ⟨hn0, hal, htr, hci⟩ := hnat
  obtain ⟨clock, s, f, law, c', a, F, d, hms, hf, hfs, hpos, ht, ht', hact, hd, hda, hdr⟩ := hs.law 1 zero_le_one
  obtain ⟨r1, r2⟩ := hrest 1 zero_le_one
  have hobj : ({ c with clock := clock } : RwController).objects s = .ok [sandwich s.att sun, -normalizeV s.pos] := by
    simp only [RwController.objects, hf, hfs]
  obtain ⟨-, v, c2, e2, e3⟩ := avoid_rate (c := { c with clock := clock }) hb hm hw hs.avoid hms hobj ht hact hd
  have hrate : d.rate = 0 := by
    refine hdr.unique ((hasDerivAt_const (1:ℝ) (0 : V3)).congr_of_eventuallyEq ?_)
    filter_upwards [lt_mem_nhds (zero_lt_one' ℝ)] with t ht
    exact (hrest t ht.le).2
  have hz : ∀ e : V4, sandwich e (0 : V3) = 0 := fun e => by rw [sandwich_eq_dcm, Matrix.mulVec_zero]
  simp only [hrate, hms.2.1, r2, hz, hms.1, r1] at e3
  have hv : v = 0 := by
    simpa [npCross_eq_crossProduct] using e3.symm
  obtain ⟨law2, a2, d2, k1, -⟩ := avoid_exists (c := { c with clock := clock }) hb hm hw hs.avoid (st 1) s hobj 0 0 qc e2 0 0
  have hcc : c' = c2 := (Prod.mk.inj (ht.symm.trans k1)).2
  rw [hms.1, r1, hv] at e2
  have hc2 : c2.trigger = (c.trigger.sign (errorQuat q qc 0)).2 := by
    have := congrArg (fun x => x.2.trigger) e2
    simp only at this
    rw [← this]
    unfold RwController.allowableZone
    simp only
    split <;> rfl
  have hsign : (c.trigger.sign (errorQuat q qc 0)).1 = 1 := by
    change (c.trigger.sign (errorQuat q qc 0)).2.memory = 1
    rw [← hc2, ← hcc, ht', htr]
    simp [Trigger.init, npSign]
  have hu : npNorm (errorQuat q qc) = 1 := by
    have h0 := hs.unitQ
    rw [(hrest 0 le_rfl).1] at h0
    exact (isUnit4_iff _).1 (errorQuat_unit ((isUnit4_iff _).2 h0) ((isUnit4_iff _).2 hs.unitC))
  have hg : Guarded (setGains i Real.pi (2 * natFreq ^ 2)) := by
    intro k hk
    refine ⟨?_, ?_⟩
    · rw [(setGains_region hfrom (2 * natFreq ^ 2) k).1]
      exact abs_pos.2 (hcos k hk)
    · change 0 < 2 * natFreq ^ 2
      positivity
  rcases rest_law (c := { c with clock := clock }) hci (by change 0 < c.alpha; rw [hal]; positivity) hg
    (fun k => by rw [(setGains_region hfrom (2 * natFreq ^ 2) k).1]; exact Real.abs_cos_le_one _) hn h1 hu hsign
    (by rw [← hci]; exact ha) e2 with h | ⟨h0, h2, -, h3⟩
  · exact .inl h
  · exact .inr ⟨h0, h2, h3⟩

end Adcs
