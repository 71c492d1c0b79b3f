import Verif.Proofs.ExampleSat
import Verif.Model.Controller
import Verif.Props.Trigger

set_option autoImplicit false

/-! # Lemmas about the tracking law -/

namespace Adcs

open Str Ctl Sens JDay Quat Vec Dyn
open scoped Matrix

/-- Wheels without a torque limit, with non-zero inertias, made by the constructor. -/
def UnlimitedWheels (sat : Satellite) : Prop :=
  ∃ (n : ℕ) (ax : Fin n → V3) (par orth : Fin n → ℝ) (maxT : ℝ), (∀ i, par i ≠ 0) ∧
    RWSystem.init (mkWheels ax par orth) maxT false = .ok sat.rw

theorem UnlimitedWheels.accelerations {sat : Satellite} (h : UnlimitedWheels sat) (cmd : V3) :
    ∃ a, sat.rw.accelerations cmd = .ok a ∧ sat.rw.torque a = cmd := by
  obtain ⟨n, ax, par, orth, maxT, hp, hrw⟩ := h
  obtain ⟨a, h1, h2, -⟩ := C39_allocation ax par orth hp maxT _ hrw cmd
  exact ⟨a, h1, h2⟩

theorem Built.inverse' {sat : Satellite} {mass : ℝ} {dims : V3} {ab cd : ℝ} (h : Built sat mass dims ab cd) :
    sat.invTotMoment * sat.totalMoment = 1 := mul_eq_one_comm.1 h.inverse

theorem Built.cancel {sat : Satellite} {mass : ℝ} {dims : V3} {ab cd : ℝ} (h : Built sat mass dims ab cd)
    (v : V3) : sat.invTotMoment *ᵥ (sat.totalMoment *ᵥ v) = v := by
  rw [Matrix.mulVec_mulVec, h.inverse', Matrix.one_mulVec]

/-- The angular acceleration for wheel accelerations that realise the negative of `law` and this torque of
the environment. -/
theorem derivative_rate {sat : Satellite} {mass : ℝ} {dims : V3} {ab cd : ℝ} (hb : Built sat mass dims ab cd)
    (hm : mass ≠ 0) (st : SatState sat.rw.n) (law F T : V3) (a : Fin sat.rw.n → ℝ)
    (ha : sat.rw.torque a = -law) :
    ∃ d, derivative sat st ⟨F, T⟩ a = .ok d ∧ d.pos = st.attrs.velocity ∧ d.whl = a ∧
      d.att = (0.5 : ℝ) • product st.attrs.attitude
        ![0, st.attrs.bodyAngVel 0, st.attrs.bodyAngVel 1, st.attrs.bodyAngVel 2] ∧
      d.rate = sat.invTotMoment *ᵥ (T + law - npCross st.attrs.bodyAngVel
        (sat.totalMoment *ᵥ st.attrs.bodyAngVel + sat.rw.momentum st.attrs.wheelVel)) := by
  have hm' : sat.mass ≠ 0 := by rw [hb.mass_eq.1]; exact hm
  refine ⟨_, by simp only [derivative, npVDiv, if_neg hm']; rfl, rfl, rfl, rfl, ?_⟩
  simp only [ha, sub_neg_eq_add]
  rw [add_comm (sat.rw.momentum _)]

/-- What `tracking` returns without avoidance. -/
theorem tracking_plain {c : RwController} (hav : c.objAvoidance = false) {s : Measurements c.sat.rw.n}
    {objs : List V3} (hobj : c.objects s = .ok objs) (wc wcd : V3) (qc : V4) :
    c.tracking s wc wcd qc =
      (.ok (npCross s.rate (c.sat.totalMoment *ᵥ s.rate + c.sat.rw.momentum s.whl) +
        c.sat.totalMoment *ᵥ ((-(c.trigger.sign (errorQuat s.att qc 0)).1 * c.alpha) • vecPart (errorQuat s.att qc)
          - c.gamma • (s.rate - sandwich (errorQuat s.att qc) wc)
          - (npCross s.rate (sandwich (errorQuat s.att qc) wc) + sandwich (errorQuat s.att qc) wcd))),
       { c with trigger := (c.trigger.sign (errorQuat s.att qc 0)).2 }) := by
  unfold RwController.tracking
  rw [hobj]
  simp only [hav, Bool.false_eq_true, if_false]
  congr 2
  simp only [Matrix.mulVec_sub, Matrix.mulVec_smul, Matrix.mulVec_add, neg_smul]
  abel

/-! ## Derivatives of quaternion expressions -/

theorem hasDerivAt_product {a b : ℝ → V4} {a' b' : V4} {t : ℝ} (ha : HasDerivAt a a' t)
    (hb : HasDerivAt b b' t) :
    HasDerivAt (fun τ => product (a τ) (b τ)) (product a' (b t) + product (a t) b') t := by
  rw [hasDerivAt_pi]
  have ka := hasDerivAt_pi.1 ha
  have kb := hasDerivAt_pi.1 hb
  intro i
  fin_cases i
  · have e : (fun τ => product (a τ) (b τ) 0) = fun τ => a τ 0 * b τ 0 - a τ 1 * b τ 1 - a τ 2 * b τ 2 - a τ 3 * b τ 3 := by
      funext τ; rw [product_0]
    change HasDerivAt (fun τ => product (a τ) (b τ) 0) ((product a' (b t) + product (a t) b') 0) t
    rw [e]
    refine (((((ka 0).fun_mul (kb 0)).fun_sub ((ka 1).fun_mul (kb 1))).fun_sub ((ka 2).fun_mul (kb 2))).fun_sub
      ((ka 3).fun_mul (kb 3))).congr_deriv ?_
    rw [Pi.add_apply, product_0, product_0]; ring
  · have e : (fun τ => product (a τ) (b τ) 1) = fun τ => a τ 0 * b τ 1 + a τ 1 * b τ 0 + a τ 2 * b τ 3 - a τ 3 * b τ 2 := by
      funext τ; rw [product_1]
    change HasDerivAt (fun τ => product (a τ) (b τ) 1) ((product a' (b t) + product (a t) b') 1) t
    rw [e]
    refine (((((ka 0).fun_mul (kb 1)).fun_add ((ka 1).fun_mul (kb 0))).fun_add ((ka 2).fun_mul (kb 3))).fun_sub
      ((ka 3).fun_mul (kb 2))).congr_deriv ?_
    rw [Pi.add_apply, product_1, product_1]; ring
  · have e : (fun τ => product (a τ) (b τ) 2) = fun τ => a τ 0 * b τ 2 + a τ 2 * b τ 0 + a τ 3 * b τ 1 - a τ 1 * b τ 3 := by
      funext τ; rw [product_2]; ring
    change HasDerivAt (fun τ => product (a τ) (b τ) 2) ((product a' (b t) + product (a t) b') 2) t
    rw [e]
    refine (((((ka 0).fun_mul (kb 2)).fun_add ((ka 2).fun_mul (kb 0))).fun_add ((ka 3).fun_mul (kb 1))).fun_sub
      ((ka 1).fun_mul (kb 3))).congr_deriv ?_
    rw [Pi.add_apply, product_2, product_2]; ring
  · have e : (fun τ => product (a τ) (b τ) 3) = fun τ => a τ 0 * b τ 3 + a τ 3 * b τ 0 + a τ 1 * b τ 2 - a τ 2 * b τ 1 := by
      funext τ; rw [product_3]; ring
    change HasDerivAt (fun τ => product (a τ) (b τ) 3) ((product a' (b t) + product (a t) b') 3) t
    rw [e]
    refine (((((ka 0).fun_mul (kb 3)).fun_add ((ka 3).fun_mul (kb 0))).fun_add ((ka 1).fun_mul (kb 2))).fun_sub
      ((ka 2).fun_mul (kb 1))).congr_deriv ?_
    rw [Pi.add_apply, product_3, product_3]; ring

theorem hasDerivAt_conjugate {a : ℝ → V4} {a' : V4} {t : ℝ} (ha : HasDerivAt a a' t) :
    HasDerivAt (fun τ => conjugate (a τ)) (conjugate a') t := by
  rw [hasDerivAt_pi]
  have ka := hasDerivAt_pi.1 ha
  intro i
  fin_cases i
  · exact ka 0
  · exact (ka 1).fun_neg
  · exact (ka 2).fun_neg
  · exact (ka 3).fun_neg

theorem hasDerivAt_pure {w : ℝ → V3} {w' : V3} {t : ℝ} (hw : HasDerivAt w w' t) :
    HasDerivAt (fun τ => (![0, w τ 0, w τ 1, w τ 2] : V4)) ![0, w' 0, w' 1, w' 2] t := by
  rw [hasDerivAt_pi]
  have k := hasDerivAt_pi.1 hw
  intro i
  fin_cases i
  · exact hasDerivAt_const t 0
  · exact k 0
  · exact k 1
  · exact k 2

theorem hasDerivAt_vecPart {a : ℝ → V4} {a' : V4} {t : ℝ} (ha : HasDerivAt a a' t) :
    HasDerivAt (fun τ => vecPart (a τ)) (vecPart a') t := by
  rw [hasDerivAt_pi]
  have k := hasDerivAt_pi.1 ha
  intro i
  fin_cases i
  · exact k 1
  · exact k 2
  · exact k 3

/-- Derivative of the coordinates of a moving vector in a frame whose quaternion moves. -/
theorem hasDerivAt_sandwich2 {q : ℝ → V4} {q' : V4} {w : ℝ → V3} {w' : V3} {t : ℝ} (hq : HasDerivAt q q' t)
    (hw : HasDerivAt w w' t) :
    HasDerivAt (fun τ => sandwich (q τ) (w τ))
      (vecPart (product (conjugate q') (product ![0, w t 0, w t 1, w t 2] (q t)) +
        product (conjugate (q t)) (product ![0, w' 0, w' 1, w' 2] (q t) + product ![0, w t 0, w t 1, w t 2] q'))) t :=
  hasDerivAt_vecPart (hasDerivAt_product (hasDerivAt_conjugate hq)
    (hasDerivAt_product (hasDerivAt_pure hw) hq))

/-- A frame that turns with the angular velocity `u` in its own coordinates. -/
theorem sandwich_kinematics (q : V4) (u w w' : V3) :
    vecPart (product (conjugate ((0.5 : ℝ) • product q ![0, u 0, u 1, u 2])) (product ![0, w 0, w 1, w 2] q) +
        product (conjugate q) (product ![0, w' 0, w' 1, w' 2] q +
          product ![0, w 0, w 1, w 2] ((0.5 : ℝ) • product q ![0, u 0, u 1, u 2]))) =
      sandwich q w' - npCross u (sandwich q w) := by
  apply vec3_ext <;>
    simp only [vecPart_0, vecPart_1, vecPart_2, Pi.add_apply, Pi.sub_apply, Pi.smul_apply, smul_eq_mul, product_0,
      product_1, product_2, product_3, conjugate_0, conjugate_1, conjugate_2, conjugate_3, npCross_0, npCross_1,
      npCross_2, sandwich_0, sandwich_1, sandwich_2, Matrix.cons_val_zero, Matrix.cons_val_one, cons4_2, cons4_3] <;>
    ring

/-- Motion of the attitude error when both the body and the reference turn. -/
theorem error_kinematics {q r : ℝ → V4} {w u : V3} {t : ℝ} (hr : npNorm (r t) = 1) (hq : npNorm (q t) = 1)
    (hdq : HasDerivAt q ((0.5 : ℝ) • product (q t) ![0, w 0, w 1, w 2]) t)
    (hdr : HasDerivAt r ((0.5 : ℝ) • product (r t) ![0, u 0, u 1, u 2]) t) :
    HasDerivAt (fun τ => errorQuat (q τ) (r τ))
      ((0.5 : ℝ) • product (errorQuat (q t) (r t))
        ![0, (w - sandwich (errorQuat (q t) (r t)) u) 0, (w - sandwich (errorQuat (q t) (r t)) u) 1,
          (w - sandwich (errorQuat (q t) (r t)) u) 2]) t := by
  have h1 : IsUnit4 (r t) := (isUnit4_iff _).2 hr
  have h2 : IsUnit4 (q t) := (isUnit4_iff _).2 hq
  have h3 : IsUnit4 (errorQuat (q t) (r t)) := errorQuat_unit h2 h1
  have hd := hasDerivAt_product (hasDerivAt_conjugate hdr) hdq
  refine hd.congr_deriv ?_
  set e := errorQuat (q t) (r t) with he
  have hprod : product (conjugate (r t)) (q t) = e := rfl
  have hc : conjugate ((0.5 : ℝ) • product (r t) ![0, u 0, u 1, u 2]) =
      (-0.5 : ℝ) • product ![0, u 0, u 1, u 2] (conjugate (r t)) := by
    apply vec4_ext <;>
      simp only [Pi.smul_apply, smul_eq_mul, product_0,
      product_1, product_2, product_3, conjugate_0, conjugate_1, conjugate_2, conjugate_3,
      Matrix.cons_val_zero, Matrix.cons_val_one, cons4_2, cons4_3] <;> ring
  have hs : ∀ (k : ℝ) (a b : V4), product (k • a) b = k • product a b :=
    fun k a b => (C04_product_bilinear a b 0 k).2.2.1
  have hs2 : ∀ (k : ℝ) (a b : V4), product a (k • b) = k • product a b :=
    fun k a b => (C04_product_bilinear a b 0 k).2.2.2
  rw [hc, hs, hs2, product_assoc, hprod, ← product_assoc, hprod]
  -- `u e = e (sandwich e u)`
  have hue : product ![0, u 0, u 1, u 2] e =
      product e ![0, sandwich e u 0, sandwich e u 1, sandwich e u 2] := by
    have : product (conjugate e) (product ![0, u 0, u 1, u 2] e) =
        ![0, sandwich e u 0, sandwich e u 1, sandwich e u 2] := by
      apply vec4_ext
      · simp only [product_0,
          product_1, product_2, product_3, conjugate_0, conjugate_1, conjugate_2, conjugate_3,
          Matrix.cons_val_zero, Matrix.cons_val_one, cons4_2, cons4_3]; ring
      · rfl
      · rfl
      · rfl
    rw [← this, ← product_assoc, product_conj_self h3, one_product]
  rw [hue]
  apply vec4_ext <;>
    simp only [Pi.add_apply, Pi.sub_apply, Pi.smul_apply, smul_eq_mul, product_0, product_1, product_2, product_3,
      Matrix.cons_val_zero, Matrix.cons_val_one, cons4_2, cons4_3] <;> ring

end Adcs
