import Verif.Proofs.KeepOut
import Verif.Proofs.FilterCycle
import Verif.Props.Convergence
import Verif.Props.Detumble

set_option autoImplicit false

/-! # C182: the avoidance law keeps instruments out of their forbidden regions -/

namespace Adcs

open Str Ctl Sens JDay Quat Vec Dyn Set Filter
open scoped Matrix Topology

/-- The sign which the controller uses. -/
noncomputable def usedSign (tr : Trigger) (q qc : V4) : ℝ := (tr.sign (errorQuat q qc 0)).1

/-- A motion of the body up to the time `T` under the avoidance law: attitude `q`, rate `w`, commanded attitude `qc`,
memory `tr` of the controller, rate error `dw` as measured; `O` are the directions of the objects in inertial
coordinates. What the law commands is added to other angular accelerations, which are bounded. The derivatives are those
from the right, so that the law may jump; the sign of the controller is constant for a while before every instant. -/
structure Spec.Evading (c : RwController) (O : List V3) (T : ℝ) (q qc : ℝ → V4) (w dw : ℝ → V3) (tr : ℝ → Trigger) : Prop where
  contQ : ContinuousOn q (Icc 0 T)
  contW : ContinuousOn w (Icc 0 T)
  contC : ContinuousOn qc (Icc 0 T)
  unitQ : npNorm (q 0) = 1
  unitC : ∀ t ∈ Icc 0 T, npNorm (qc t) = 1
  turns : ∀ t ∈ Ico 0 T, HasDerivWithinAt q ((0.5 : ℝ) • product (q t) (pureQ (w t))) (Ici t) t
  command : ∃ R, ∀ t ∈ Ico 0 T, ∃ r, HasDerivWithinAt qc r (Ici t) t ∧ npNorm r ≤ R
  law : ∃ P, ∀ t ∈ Ico 0 T, ∃ u p c', ({ c with trigger := tr t } : RwController).allowableZone
    (errorQuat (q t) (qc t)) (dw t) (O.map (sandwich (q t))) = (.ok u, c') ∧ HasDerivWithinAt w (u + p) (Ici t) t ∧ npNorm p ≤ P
  sign : ∀ t ∈ Ioc 0 T, ∃ a ∈ Ico 0 t, ∃ m : ℝ, |m| ≤ 1 ∧ ∀ τ ∈ Ico a t, usedSign (tr τ) (q τ) (qc τ) = m

theorem abs_dot_le4 (x y : V4) : |x ⬝ᵥ y| ≤ npNorm x * npNorm y := by
  have h : (x ⬝ᵥ y) ^ 2 ≤ (npNorm x * npNorm y) ^ 2 := by
    rw [mul_pow, npNorm_sq, npNorm_sq, dotProduct]
    exact Finset.sum_mul_sq_le_sq_mul_sq _ _ _
  exact abs_le_of_sq_le_sq h (mul_nonneg (npNorm_nonneg _) (npNorm_nonneg _))

theorem error_dot (q qc : V4) : errorQuat q qc 0 = q ⬝ᵥ qc := by
  simp only [errorQuat, product_0, conjugate_0, conjugate_1, conjugate_2, conjugate_3, dotProduct, Fin.sum_univ_four]
  ring

theorem norm_right {q : ℝ → V4} {w : ℝ → V3} {T : ℝ} (hc : ContinuousOn q (Icc 0 T))
    (hq : ∀ t ∈ Ico 0 T, HasDerivWithinAt q ((0.5 : ℝ) • product (q t) (pureQ (w t))) (Ici t) t) (h0 : npNorm (q 0) = 1) :
    ∀ t ∈ Icc 0 T, npNorm (q t) = 1 := by
  intro t ht
  have e : ∀ p : V4, p 0 * p 0 + p 1 * p 1 + p 2 * p 2 + p 3 * p 3 = npNorm p ^ 2 := by
    intro p; rw [npNorm4_sq]; ring
  have k := fun i => (continuousOn_pi.1 hc) i
  have hcont : ContinuousOn (fun τ => q τ 0 * q τ 0 + q τ 1 * q τ 1 + q τ 2 * q τ 2 + q τ 3 * q τ 3) (Icc 0 T) :=
    ((((k 0).mul (k 0)).add ((k 1).mul (k 1))).add ((k 2).mul (k 2))).add ((k 3).mul (k 3))
  have h := constant_of_has_deriv_right_zero hcont (fun τ hτ => by
    have d := hasDerivWithinAt_pi.1 (hq τ hτ)
    refine ((((d 0).fun_mul (d 0)).fun_add ((d 1).fun_mul (d 1))).fun_add ((d 2).fun_mul (d 2))).fun_add
      ((d 3).fun_mul (d 3)) |>.congr_deriv ?_
    simp only [Pi.smul_apply, smul_eq_mul, product_0, product_1, product_2, product_3, pureQ, Matrix.cons_val_zero,
      Matrix.cons_val_one, cons4_2, cons4_3]
    ring) t ht
  simp only [e] at h
  rw [h0] at h
  have : (npNorm (q t) - 1) * (npNorm (q t) + 1) = 0 := by linarith
  rcases mul_eq_zero.1 this with h' | h'
  · linarith
  · linarith [npNorm_nonneg (q t)]

theorem norm_sandwich {q : V4} (hq : npNorm q = 1) (o : V3) : npNorm (sandwich q o) = npNorm o :=
  (C06_sandwich_preserves q hq o o).2.1

theorem barTerm_cont {i : Instrument} {j : ℕ} {o : ℝ → V3} {S : Set ℝ}
    (ho : ContinuousOn o S) (hp : ∀ t ∈ S, ∀ hj : j < i.nBounds, j ∈ i.objIds → 0 < margin i ⟨j, hj⟩ (o t)) :
    ContinuousOn (fun τ => barTerm i j (o τ)) S := by
  by_cases hj : j < i.nBounds
  swap
  · simp only [barTerm, dif_neg hj]; exact continuousOn_const
  by_cases hm : j ∈ i.objIds
  swap
  · simp only [barTerm, dif_pos hj, if_neg hm]; exact continuousOn_const
  simp only [barTerm, dif_pos hj, if_pos hm]
  have hc : ContinuousOn (fun τ => margin i ⟨j, hj⟩ (o τ)) S := by
    have e : (fun τ => margin i ⟨j, hj⟩ (o τ)) = (fun x : V3 => margin i ⟨j, hj⟩ x) ∘ o := rfl
    rw [e]
    exact (continuous_iff_continuousAt.2 fun x => margin_cont _ continuousAt_id).comp_continuousOn ho
  exact continuousOn_const.mul (hc.log fun t ht => (hp t ht hj hm).ne')

theorem barFrom_cont (i : Instrument) (S : Set ℝ) (O : List (ℝ → V3)) (hO : ∀ o ∈ O, ContinuousOn o S) (j : ℕ)
    (hp : ∀ t ∈ S, ∀ (k : ℕ) (o : V3), (O.map (· t))[k]? = some o → ∀ hj : j + k < i.nBounds, j + k ∈ i.objIds →
      0 < margin i ⟨j + k, hj⟩ o) :
    ContinuousOn (fun τ => barFrom i j (O.map (· τ))) S := by
  induction O generalizing j with
  | nil => simp only [List.map_nil, barFrom]; exact continuousOn_const
  | cons o l ih =>
    simp only [List.map_cons, barFrom]
    refine (barTerm_cont (hO o List.mem_cons_self) fun t ht => hp t ht 0 (o t) rfl).add
      (ih (fun o' h' => hO o' (List.mem_cons_of_mem _ h')) (j + 1) ?_)
    intro t ht k o' hk hjk hmem
    have := hp t ht (k + 1) o' (by simpa using hk)
    simp only [show j + (k + 1) = j + 1 + k by omega] at this
    exact this hjk hmem

theorem bar_cont (S : Set ℝ) (O : List (ℝ → V3)) (hO : ∀ o ∈ O, ContinuousOn o S) (ins : List Instrument)
    (hp : ∀ t ∈ S, Spec.Allowed ins (O.map (· t))) : ContinuousOn (fun τ => bar (O.map (· τ)) ins) S := by
  induction ins with
  | nil => simp only [bar]; exact continuousOn_const
  | cons i l ih =>
    simp only [bar]
    refine (barFrom_cont i S O hO 0 ?_).add (ih fun t ht k hk => hp t ht k (List.mem_cons_of_mem _ hk))
    intro t ht k o hk
    simp only [zero_add]
    exact hp t ht i List.mem_cons_self k o hk

theorem sandwich_contOn {q : ℝ → V4} {S : Set ℝ} (hq : ContinuousOn q S) (o : V3) :
    ContinuousOn (fun τ => sandwich (q τ) o) S := by
  have : Continuous fun p : V4 => sandwich p o := by
    refine continuous_pi fun m => ?_
    fin_cases m
    · simp only [Fin.zero_eta, sandwich_0]; fun_prop
    · simp only [Fin.mk_one, sandwich_1]; fun_prop
    · change Continuous (fun p : V4 => sandwich p o 2)
      simp only [sandwich_2]; fun_prop
  exact this.comp_continuousOn hq

/-- The numbers in the estimate of the energy. -/
theorem evade_ineq {E' Y x δ M K P X C0 zc dqw aw rt nw pw x' m : ℝ} (hδ : 0 < δ) (hx : δ ≤ x) (hx2 : x ≤ 2) (hY : 0 ≤ Y)
    (hm : |m| ≤ 1) (hz : |zc| ≤ Y + C0) (hdq : |dqw| ≤ M) (hC0 : 0 ≤ C0)
    (hax : |rt - 0.5 * aw| ≤ K * M) (hn : |nw| ≤ K * M) (hp : |pw| ≤ P * M) (hX : |x'| ≤ X)
    (hE : E' = -m * zc * dqw + 0.5 * x * aw + nw + pw + (x' * Y - x * rt)) :
    E' ≤ (M + X) * Y + (C0 * M + 3 * K * M + P * M) := by
  have h1 : -m * zc * dqw ≤ (Y + C0) * M := by
    have : |-m * zc * dqw| ≤ 1 * (Y + C0) * M := by
      rw [abs_mul, abs_mul, abs_neg]
      exact mul_le_mul (mul_le_mul hm hz (abs_nonneg _) zero_le_one) hdq (abs_nonneg _) (by positivity)
    linarith [le_abs_self (-m * zc * dqw)]
  have h2 : 0.5 * x * aw - x * rt ≤ 2 * (K * M) := by
    have e : 0.5 * x * aw - x * rt = -(x * (rt - 0.5 * aw)) := by ring
    have : |x * (rt - 0.5 * aw)| ≤ 2 * (K * M) := by
      rw [abs_mul, abs_of_pos (hδ.trans_le hx)]
      exact mul_le_mul hx2 hax (abs_nonneg _) (by norm_num)
    rw [e]; linarith [neg_abs_le (x * (rt - 0.5 * aw))]
  have h3 : x' * Y ≤ X * Y := mul_le_mul_of_nonneg_right ((le_abs_self _).trans hX) hY
  rw [hE]
  linarith [le_abs_self nw, le_abs_self pw]

/-- Before an instant at which the attitude is not the commanded one, the margins stay away from zero. -/
theorem keep_near {c : RwController} {O : List V3} {T : ℝ} {q qc : ℝ → V4} {w dw : ℝ → V3} {tr : ℝ → Trigger}
    (hO : ∀ o ∈ O, npNorm o = 1) (hg : ∀ i ∈ c.instruments, Guarded i) (hn : ∀ i ∈ c.instruments, O.length ≤ i.nBounds)
    (h : Spec.Evading c O T q qc w dw tr) {a b m δ : ℝ} (ha : 0 ≤ a) (hb : b ≤ T) (hm : |m| ≤ 1) (hδ : 0 < δ)
    (hs : ∀ t ∈ Ico a b, usedSign (tr t) (q t) (qc t) = m)
    (hA : ∀ t ∈ Ico a b, Spec.Allowed c.instruments (O.map (sandwich (q t))))
    (hx : ∀ t ∈ Ico a b, δ ≤ 1 - m * errorQuat (q t) (qc t) 0) :
    ∃ ε > 0, ∀ t ∈ Ico a b, ∀ i ∈ c.instruments, ∀ (j : ℕ) (o : V3), O[j]? = some o → ∀ hj : j < i.nBounds,
      j ∈ i.objIds → ε ≤ margin i ⟨j, hj⟩ (sandwich (q t) o) := by
  obtain ⟨K, hKc⟩ := instruments_close O.length c.instruments hg hn
  obtain ⟨R, hR⟩ := h.command
  obtain ⟨P, hP⟩ := h.law
  have hunit := norm_right h.contQ h.turns h.unitQ
  -- a bound of the rates
  obtain ⟨M, hM⟩ : ∃ M, ∀ t ∈ Icc 0 T, npNorm (w t) ≤ M := by
    obtain ⟨M, hM⟩ := (isCompact_Icc (a := (0:ℝ)) (b := T)).exists_bound_of_continuousOn
      (npNorm_continuous.comp_continuousOn h.contW)
    exact ⟨M, fun t ht => (le_abs_self _).trans (hM t ht)⟩
  by_cases hab : a < b
  swap
  · exact ⟨1, one_pos, fun t ht => absurd (ht.1.trans_lt ht.2) hab⟩
  have hsub : ∀ t ∈ Ico a b, t ∈ Ico 0 T := fun t ht => ⟨ha.trans ht.1, ht.2.trans_le hb⟩
  have hsub' : ∀ t ∈ Ico a b, t ∈ Icc 0 T := fun t ht => ⟨ha.trans ht.1, (ht.2.trans_le hb).le⟩
  have haI : a ∈ Ico a b := ⟨le_rfl, hab⟩
  have hM0 : 0 ≤ M := (npNorm_nonneg _).trans (hM a (hsub' a haI))
  set objs : ℝ → List V3 := fun t => O.map (sandwich (q t)) with hobjs
  have hlen : ∀ t, (objs t).length = O.length := fun t => List.length_map _
  have hou : ∀ t ∈ Icc 0 T, ∀ o ∈ objs t, npNorm o = 1 := by
    intro t ht o ho
    obtain ⟨o', ho', rfl⟩ := List.mem_map.1 ho
    rw [norm_sandwich (hunit t ht), hO o' ho']
  set OF : List (ℝ → V3) := O.map fun o => fun τ => sandwich (q τ) o with hOF
  have hmap : ∀ τ, OF.map (· τ) = objs τ := by
    intro τ; rw [hOF, List.map_map]; rfl
  set Y : ℝ → ℝ := fun t => K - bar (objs t) c.instruments with hY
  set x : ℝ → ℝ := fun t => 1 - m * errorQuat (q t) (qc t) 0 with hxd
  set E : ℝ → ℝ := fun t => (w t 0 * w t 0 + w t 1 * w t 1 + w t 2 * w t 2) / 2 + x t * Y t with hE
  have hY0 : ∀ t ∈ Ico a b, 0 ≤ Y t ∧ 0 ≤ K := by
    intro t ht
    obtain ⟨z, -, cl⟩ := hKc 0 0 0 (objs t) ⟨0, 0, 0⟩ (hlen t) (hou t (hsub' t ht)) (hA t ht)
    exact ⟨by rw [hY]; linarith [cl.top], (npNorm_nonneg _).trans cl.nudge⟩
  have hK0 := (hY0 a haI).2
  have hww : ∀ t, 0 ≤ (w t 0 * w t 0 + w t 1 * w t 1 + w t 2 * w t 2) / 2 := by
    intro t
    have := mul_self_nonneg (w t 0); have := mul_self_nonneg (w t 1); have := mul_self_nonneg (w t 2)
    linarith
  have hYE : ∀ t ∈ Ico a b, δ * Y t ≤ E t := by
    intro t ht
    have := mul_le_mul_of_nonneg_right (hx t ht) (hY0 t ht).1
    rw [hE]; linarith [hww t]
  -- continuity
  have hcx : ContinuousOn x (Icc 0 T) := by
    have : x = fun t => 1 - m * (q t 0 * qc t 0 + q t 1 * qc t 1 + q t 2 * qc t 2 + q t 3 * qc t 3) := by
      funext t; rw [hxd]; simp only [error_dot, dotProduct, Fin.sum_univ_four]
    rw [this]
    have k := continuousOn_pi.1 h.contQ
    have k' := continuousOn_pi.1 h.contC
    exact continuousOn_const.sub (continuousOn_const.mul (((((k 0).mul (k' 0)).add ((k 1).mul (k' 1))).add
      ((k 2).mul (k' 2))).add ((k 3).mul (k' 3))))
  have hcE : ContinuousOn E (Ico a b) := by
    have k := continuousOn_pi.1 h.contW
    have hss : Ico a b ⊆ Icc 0 T := fun t ht => hsub' t ht
    refine (((((k 0).mul (k 0)).add ((k 1).mul (k 1))).add ((k 2).mul (k 2))).div_const 2 |>.mono hss).add
      ((hcx.mono hss).mul (continuousOn_const.sub ?_))
    have := bar_cont (Ico a b) OF (by
      intro o ho
      obtain ⟨o', -, rfl⟩ := List.mem_map.1 ho
      exact (sandwich_contOn h.contQ o').mono hss) c.instruments (fun t ht => by rw [hmap]; exact hA t ht)
    simpa only [hmap] using this
  -- the rate of change
  set X := M / 2 + R with hX
  set C0 := |c.alpha| + 2 * K with hC0
  set B := C0 * M + 3 * K * M + P * M with hB
  have hC00 : 0 ≤ C0 := by positivity
  have hrate : ∀ t ∈ Ico a b, ∃ E', HasDerivWithinAt E E' (Ici t) t ∧ E' ≤ (M + X) * Y t + B := by
    intro t ht
    have ht0 := hsub t ht
    have ht1 := hsub' t ht
    obtain ⟨u, p, c', hu, hdw, hp⟩ := hP t ht0
    obtain ⟨r, hdr, hr⟩ := hR t ht0
    obtain ⟨z, hz, cl⟩ := hKc m (vecPart (errorQuat (q t) (qc t))) (dw t) (objs t) ⟨c.alpha, 0, 0⟩ (hlen t)
      (hou t ht1) (hA t ht)
    have hm' := hs t ht
    unfold usedSign at hm'
    unfold RwController.allowableZone at hu
    have hz' : zoneInstruments m (vecPart (errorQuat (q t) (qc t))) (dw t) (O.map (sandwich (q t))) c.instruments ⟨c.alpha, 0, 0⟩ = .ok z := hz
    simp only [hm', hz'] at hu
    have hu' := Except.ok.inj (Prod.mk.inj hu).1
    set e := errorQuat (q t) (qc t) with he
    -- pieces
    have hbar : HasDerivWithinAt (fun τ => bar (objs τ) c.instruments) (barRate (objs t) c.instruments (w t)) (Ici t) t := by
      have := bar_right (w t) t (Ici t) OF (by
        intro o ho
        obtain ⟨o', -, rfl⟩ := List.mem_map.1 ho
        exact sandwich_right o' (h.turns t ht0)) c.instruments (by rw [hmap]; exact hA t ht)
      simpa only [hmap] using this
    set q' := (0.5 : ℝ) • product (q t) (pureQ (w t)) with hq'
    have hdx : HasDerivWithinAt x (-(m * (q' ⬝ᵥ qc t + q t ⬝ᵥ r))) (Ici t) t := by
      have e1 : x = fun t => 1 - m * (q t 0 * qc t 0 + q t 1 * qc t 1 + q t 2 * qc t 2 + q t 3 * qc t 3) := by
        funext t; rw [hxd]; simp only [error_dot, dotProduct, Fin.sum_univ_four]
      rw [e1]
      have d := hasDerivWithinAt_pi.1 (h.turns t ht0)
      have d' := hasDerivWithinAt_pi.1 hdr
      refine ((((((d 0).fun_mul (d' 0)).fun_add ((d 1).fun_mul (d' 1))).fun_add ((d 2).fun_mul (d' 2))).fun_add
        ((d 3).fun_mul (d' 3))).const_mul m |>.const_sub 1).congr_deriv ?_
      simp only [dotProduct, Fin.sum_univ_four, ← hq']
      ring
    have dw' := hasDerivWithinAt_pi.1 hdw
    have hdE := ((((dw' 0).fun_mul (dw' 0)).fun_add ((dw' 1).fun_mul (dw' 1))).fun_add ((dw' 2).fun_mul (dw' 2))).div_const 2
      |>.fun_add (hdx.fun_mul (hbar.const_sub K))
    refine ⟨_, hdE, ?_⟩
    have hpu : IsUnit4 (q t) := (isUnit4_iff _).2 (hunit t ht1)
    have hpc : IsUnit4 (qc t) := (isUnit4_iff _).2 (h.unitC t ht1)
    have heu : IsUnit4 e := errorQuat_unit hpu hpc
    have hwM := hM t ht1
    -- bounds
    have hdq1 : npNorm (vecPart e) ≤ 1 := by
      have h1 := vecPart_unit heu
      have h2 : npNorm (vecPart e) ^ 2 = vecPart e ⬝ᵥ vecPart e := by
        rw [npNorm3_sq, Matrix.vec3_dotProduct]; ring
      have h3 : npNorm (vecPart e) ^ 2 ≤ 1 ^ 2 := by rw [h2, h1]; nlinarith [sq_nonneg (e 0)]
      exact le_of_sq_le_sq h3 zero_le_one
    have hdqw : |vecPart e ⬝ᵥ w t| ≤ M :=
      (abs_dot_le _ _).trans ((mul_le_mul hdq1 hwM (npNorm_nonneg _) zero_le_one).trans (one_mul M).le)
    have hxx : |-(m * (q' ⬝ᵥ qc t + q t ⬝ᵥ r))| ≤ X := by
      rw [abs_neg, abs_mul]
      have h1 : |q' ⬝ᵥ qc t| ≤ M / 2 := by
        refine (abs_dot_le4 _ _).trans ?_
        rw [h.unitC t ht1, mul_one, hq', npNorm_smul, npNorm_product_unit hpu]
        have e1 : npNorm (pureQ (w t)) = npNorm (w t) := by
          unfold npNorm
          congr 1
          simp [Fin.sum_univ_four, Fin.sum_univ_three, pureQ]
        rw [e1, abs_of_pos (by norm_num)]
        norm_num; linarith
      have h2 : |q t ⬝ᵥ r| ≤ R := by
        refine (abs_dot_le4 _ _).trans ?_
        rw [hunit t ht1, one_mul]; exact hr
      have h3 := abs_add_le (q' ⬝ᵥ qc t) (q t ⬝ᵥ r)
      calc |m| * |q' ⬝ᵥ qc t + q t ⬝ᵥ r| ≤ 1 * |q' ⬝ᵥ qc t + q t ⬝ᵥ r| := mul_le_mul_of_nonneg_right hm (abs_nonneg _)
        _ ≤ X := by rw [one_mul, hX]; linarith
    have he0 : |e 0| ≤ 1 := by
      rw [he, error_dot]
      have := abs_dot_le4 (q t) (qc t)
      rwa [hunit t ht1, h.unitC t ht1, one_mul] at this
    have hx2 : x t ≤ 2 := by
      have : |m * e 0| ≤ 1 := by
        rw [abs_mul]; exact mul_le_one₀ hm (abs_nonneg _) he0
      change 1 - m * e 0 ≤ 2
      linarith [neg_abs_le (m * e 0)]
    have hzc : |z.c| ≤ Y t + C0 := by
      have h1 := cl.c
      simp only at h1
      have h2 : z.c = (z.c - (c.alpha - bar (objs t) c.instruments)) + c.alpha - (K - Y t) := by
        rw [hY]; ring
      have h3 := (hY0 t ht).1
      rw [h2]
      refine (abs_sub _ _).trans ?_
      have h4 := abs_add_le (z.c - (c.alpha - bar (objs t) c.instruments)) c.alpha
      have h5 : |K - Y t| ≤ K + Y t := (abs_sub _ _).trans (by rw [abs_of_nonneg hK0, abs_of_nonneg h3])
      rw [hC0]; linarith
    have hax : |barRate (objs t) c.instruments (w t) - 0.5 * (z.axis ⬝ᵥ w t)| ≤ K * M := by
      have := cl.axis (w t)
      simp only [sub_zero] at this
      exact this.trans (mul_le_mul_of_nonneg_left hwM hK0)
    have hnw : |z.nudge ⬝ᵥ w t| ≤ K * M := by
      have h1 := cl.nudge
      simp only [sub_zero] at h1
      exact (abs_dot_le _ _).trans (mul_le_mul h1 hwM (npNorm_nonneg _) hK0)
    have hpw : |p ⬝ᵥ w t| ≤ P * M :=
      (abs_dot_le _ _).trans (mul_le_mul hp hwM (npNorm_nonneg _) ((npNorm_nonneg _).trans hp))
    refine evade_ineq (m := m) (zc := z.c) (dqw := vecPart e ⬝ᵥ w t) (aw := z.axis ⬝ᵥ w t)
      (rt := barRate (objs t) c.instruments (w t)) (nw := z.nudge ⬝ᵥ w t) (pw := p ⬝ᵥ w t)
      (x' := -(m * (q' ⬝ᵥ qc t + q t ⬝ᵥ r))) hδ (hx t ht) hx2 (hY0 t ht).1 hm hzc hdqw hC00 hax hnw hpw hxx ?_
    rw [← hu']
    simp only [Pi.add_apply, Pi.smul_apply, smul_eq_mul, Matrix.vec3_dotProduct]
    change _ = -m * z.c * _ + 0.5 * (1 - m * e 0) * _ + _ + _ + (_ * (K - bar (objs t) c.instruments) - (1 - m * e 0) * _)
    ring
  -- Grönwall
  set G := gronwallBound (E a) ((M + X) / δ) |B| (b - a) with hG
  have hX0 : 0 ≤ M + X := by
    obtain ⟨r, -, hr⟩ := hR a (hsub a haI)
    have := (npNorm_nonneg _).trans hr
    rw [hX]; linarith
  have hEa : 0 ≤ E a := (mul_nonneg hδ.le (hY0 a haI).1).trans (hYE a haI)
  have hEG : ∀ t ∈ Ico a b, E t ≤ G := by
    intro t ht
    choose! f' hf' hle using hrate
    have h1 := le_gronwallBound_of_liminf_deriv_right_le (f := E) (f' := f') (δ := E a) (K := (M + X) / δ) (ε := |B|)
      (a := a) (b := t) (hcE.mono fun τ hτ => ⟨hτ.1, hτ.2.trans_lt ht.2⟩)
      (fun τ hτ r hr => by
        have := (hf' τ ⟨hτ.1, hτ.2.trans ht.2⟩).liminf_right_slope_le hr
        simpa only [slope_def_field, div_eq_inv_mul] using this) le_rfl
      (fun τ hτ => by
        have hτ' : τ ∈ Ico a b := ⟨hτ.1, hτ.2.trans ht.2⟩
        have h2 := hle τ hτ'
        have h3 : (M + X) * Y τ ≤ (M + X) / δ * E τ := by
          rw [div_mul_eq_mul_div, le_div_iff₀ hδ, mul_assoc]
          exact mul_le_mul_of_nonneg_left (by rw [mul_comm]; exact hYE τ hτ') hX0
        linarith [le_abs_self B]) t ⟨ht.1, le_rfl⟩
    refine h1.trans (gronwallBound_mono hEa (abs_nonneg _) (div_nonneg hX0 hδ.le) ?_)
    linarith [ht.2]
  obtain ⟨_, _, hfl⟩ := instruments_floor O.length c.instruments hg hn
  obtain ⟨ε, hε, hf⟩ := hfl (G / δ - K)
  refine ⟨ε, hε, fun t ht i hi j o ho hj hmem => ?_⟩
  refine (hf (objs t) (hlen t) (hou t (hsub' t ht)) (hA t ht)).2 ?_ i hi j (sandwich (q t) o) ?_ hj hmem
  · have h1 := (hYE t ht).trans (hEG t ht)
    have h2 : Y t ≤ G / δ := by rw [le_div_iff₀ hδ, mul_comm]; exact h1
    have : Y t = K - bar (objs t) c.instruments := rfl
    linarith
  · rw [hobjs]; simp only [List.getElem?_map, ho, Option.map_some]

/-- With the commanded attitude the objects are where they are with the actual one. -/
theorem allowed_command {ins : List Instrument} {O : List V3} {q qc : V4} {m : ℝ} (hm : |m| ≤ 1) (hq : npNorm q = 1)
    (hc : npNorm qc = 1) (hA : Spec.Allowed ins (O.map (sandwich qc))) (h : 1 - m * errorQuat q qc 0 ≤ 0) :
    Spec.Allowed ins (O.map (sandwich q)) := by
  have he : |errorQuat q qc 0| ≤ 1 := by
    rw [error_dot]
    have := abs_dot_le4 q qc
    rwa [hq, hc, one_mul] at this
  have h1 : 1 ≤ |m| * |errorQuat q qc 0| := by
    rw [← abs_mul]; linarith [le_abs_self (m * errorQuat q qc 0)]
  have h2 : |errorQuat q qc 0| = 1 := by
    refine le_antisymm he ?_
    calc (1 : ℝ) ≤ |m| * |errorQuat q qc 0| := h1
      _ ≤ 1 * |errorQuat q qc 0| := mul_le_mul_of_nonneg_right hm (abs_nonneg _)
      _ = _ := one_mul _
  have hsq : ∀ s : ℝ, s ^ 2 = 1 → npNorm (q - s • qc) ^ 2 = 2 * (1 - s * errorQuat q qc 0) := by
    intro s hs
    exact quat_dist (by rw [← one_pow 2] at hs; exact sq_eq_sq_iff_eq_or_eq_neg.1 hs) hq hc
  have hor : q = qc ∨ q = -qc := by
    rcases abs_eq (zero_le_one' ℝ) |>.1 h2 with h3 | h3
    · left
      have := hsq 1 (by norm_num)
      rw [h3, one_smul] at this
      exact sub_eq_zero.1 (npNorm_eq_zero.1 (by nlinarith))
    · right
      have := hsq (-1) (by norm_num)
      rw [h3, neg_one_smul, sub_neg_eq_add] at this
      exact eq_neg_of_add_eq_zero_left (npNorm_eq_zero.1 (by nlinarith))
  rcases hor with rfl | rfl
  · exact hA
  · have : sandwich (-qc) = sandwich qc := by funext o; exact sandwich_neg qc o
    rwa [this]

theorem margin_contOn {i : Instrument} (k : Fin i.nBounds) {q : ℝ → V4} {S : Set ℝ} (hq : ContinuousOn q S) (o : V3) :
    ContinuousOn (fun τ => margin i k (sandwich (q τ) o)) S :=
  (continuous_iff_continuousAt.2 fun _ => margin_cont k continuousAt_id : Continuous fun x : V3 => margin i k x).comp_continuousOn
    (sandwich_contOn hq o)

/-- The law itself, for any number of instruments and of objects at fixed directions, any command that is allowed at all
times, and any other bounded torques: an instrument that is outside of its forbidden regions stays outside. -/
theorem C182_law (c : RwController) (O : List V3) (hO : ∀ o ∈ O, npNorm o = 1) (hg : ∀ i ∈ c.instruments, Guarded i)
    (hn : ∀ i ∈ c.instruments, O.length ≤ i.nBounds) (T : ℝ) (q qc : ℝ → V4) (w dw : ℝ → V3) (tr : ℝ → Trigger)
    (h : Spec.Evading c O T q qc w dw tr) (h0 : Spec.Allowed c.instruments (O.map (sandwich (q 0))))
    (hc : ∀ t ∈ Icc 0 T, Spec.Allowed c.instruments (O.map (sandwich (qc t)))) :
    ∀ t ∈ Icc 0 T, Spec.Allowed c.instruments (O.map (sandwich (q t))) := by
  by_contra hcon
  push Not at hcon
  -- the violations, as a closed set
  set F : Fin c.instruments.length → Fin O.length → Set ℝ := fun a b => {t | t ∈ Icc 0 T ∧
    ∃ hj : b.1 < (c.instruments.get a).nBounds, b.1 ∈ (c.instruments.get a).objIds ∧
      margin (c.instruments.get a) ⟨b.1, hj⟩ (sandwich (q t) (O.get b)) ≤ 0} with hF
  have hFc : ∀ a b, IsClosed (F a b) := by
    intro a b
    by_cases hj : b.1 < (c.instruments.get a).nBounds ∧ b.1 ∈ (c.instruments.get a).objIds
    · have : F a b = Icc 0 T ∩ (fun τ => margin (c.instruments.get a) ⟨b.1, hj.1⟩ (sandwich (q τ) (O.get b))) ⁻¹' Iic 0 := by
        ext t
        exact ⟨fun ⟨h1, _, _, h2⟩ => ⟨h1, h2⟩, fun ⟨h1, h2⟩ => ⟨h1, hj.1, hj.2, h2⟩⟩
      rw [this]
      exact (margin_contOn _ h.contQ _).preimage_isClosed_of_isClosed isClosed_Icc isClosed_Iic
    · have : F a b = ∅ := by
        ext t
        exact ⟨fun ⟨_, h2, h3, _⟩ => absurd ⟨h2, h3⟩ hj, fun h' => absurd h' (notMem_empty _)⟩
      rw [this]; exact isClosed_empty
  have hiff : ∀ t ∈ Icc 0 T, (¬ Spec.Allowed c.instruments (O.map (sandwich (q t))) ↔ ∃ a b, t ∈ F a b) := by
    intro t ht
    constructor
    · intro hA
      unfold Spec.Allowed at hA
      push Not at hA
      obtain ⟨i, hi, j, o, ho, hj, hm, hle⟩ := hA
      obtain ⟨a, rfl⟩ := List.get_of_mem hi
      rw [List.getElem?_map, Option.map_eq_some_iff] at ho
      obtain ⟨o', ho', rfl⟩ := ho
      obtain ⟨hlt, rfl⟩ := List.getElem?_eq_some_iff.1 ho'
      exact ⟨a, ⟨j, hlt⟩, ht, hj, hm, hle⟩
    · rintro ⟨a, b, -, hj, hm, hle⟩ hA
      have := hA (c.instruments.get a) (List.get_mem _ _) b.1 (sandwich (q t) (O.get b)) (by simp) hj hm
      linarith
  set V : Set ℝ := ⋃ a, ⋃ b, F a b with hV
  have hVc : IsClosed V := isClosed_iUnion_of_finite fun a => isClosed_iUnion_of_finite fun b => hFc a b
  have hVsub : V ⊆ Icc 0 T := by
    intro t ht
    simp only [hV, mem_iUnion] at ht
    obtain ⟨a, b, h1, -⟩ := ht
    exact h1
  have hVne : V.Nonempty := by
    obtain ⟨t, ht, hA⟩ := hcon
    obtain ⟨a, b, hab⟩ := (hiff t ht).1 hA
    exact ⟨t, by simp only [hV, mem_iUnion]; exact ⟨a, b, hab⟩⟩
  -- the first of them
  obtain ⟨b, hbV, hbmin⟩ := (isCompact_Icc.of_isClosed_subset hVc hVsub).exists_isLeast hVne
  have hbT := hVsub hbV
  have hbad : ¬ Spec.Allowed c.instruments (O.map (sandwich (q b))) := by
    refine (hiff b hbT).2 ?_
    simp only [hV, mem_iUnion] at hbV
    exact hbV
  have hgood : ∀ t ∈ Ico 0 b, Spec.Allowed c.instruments (O.map (sandwich (q t))) := by
    intro t ht
    by_contra hA
    obtain ⟨a, b', hab⟩ := (hiff t ⟨ht.1, ht.2.le.trans hbT.2⟩).1 hA
    have : b ≤ t := hbmin (by simp only [hV, mem_iUnion]; exact ⟨a, b', hab⟩)
    linarith [ht.2]
  have hb0 : 0 < b := by
    rcases hbT.1.lt_or_eq with h' | h'
    · exact h'
    · rw [← h'] at hbad; exact absurd h0 hbad
  obtain ⟨a, ha, m, hm, hsg⟩ := h.sign b ⟨hb0, hbT.2⟩
  have hunit := norm_right h.contQ h.turns h.unitQ
  have hxb : 0 < 1 - m * errorQuat (q b) (qc b) 0 := by
    by_contra hx
    exact hbad (allowed_command hm (hunit b hbT) (h.unitC b hbT) (hc b hbT) (not_lt.1 hx))
  -- the factor of the barrier stays positive
  have hcx : ContinuousOn (fun t => 1 - m * errorQuat (q t) (qc t) 0) (Icc 0 T) := by
    simp only [error_dot, dotProduct, Fin.sum_univ_four]
    have k := continuousOn_pi.1 h.contQ
    have k' := continuousOn_pi.1 h.contC
    exact continuousOn_const.sub (continuousOn_const.mul (((((k 0).mul (k' 0)).add ((k 1).mul (k' 1))).add
      ((k 2).mul (k' 2))).add ((k 3).mul (k' 3))))
  set δ := (1 - m * errorQuat (q b) (qc b) 0) / 2 with hδ
  have hδ0 : 0 < δ := half_pos hxb
  have hev : ∀ᶠ t in 𝓝[Icc 0 T] b, δ < 1 - m * errorQuat (q t) (qc t) 0 :=
    (hcx b hbT).eventually (lt_mem_nhds (by rw [hδ]; linarith))
  obtain ⟨r, hr0, hr⟩ := Metric.mem_nhdsWithin_iff.1 hev
  set a' := max a (max 0 (b - r / 2)) with ha'
  have ha'0 : 0 ≤ a' := (le_max_left _ _).trans (le_max_right _ _)
  have ha'b : a' < b := max_lt ha.2 (max_lt hb0 (by linarith))
  obtain ⟨ε, hε, hfar⟩ := keep_near hO hg hn h ha'0 hbT.2 hm hδ0
    (fun t ht => hsg t ⟨(le_max_left _ _).trans ht.1, ht.2⟩) (fun t ht => hgood t ⟨ha'0.trans ht.1, ht.2⟩) (fun t ht => by
      have h1 : b - r / 2 ≤ t := ((le_max_right _ _).trans (le_max_right _ _)).trans ht.1
      have h2 : t ∈ Metric.ball b r ∩ Icc 0 T := by
        refine ⟨?_, ha'0.trans ht.1, ht.2.le.trans hbT.2⟩
        rw [Metric.mem_ball, Real.dist_eq, abs_lt]
        constructor <;> linarith [ht.2]
      exact (hr h2).le)
  -- so nothing is violated at that instant
  refine hbad fun i hi j o ho hj hmem => ?_
  rw [List.getElem?_map, Option.map_eq_some_iff] at ho
  obtain ⟨o', ho', rfl⟩ := ho
  refine hε.trans_le ?_
  have hcm : ContinuousWithinAt (fun τ => margin i ⟨j, hj⟩ (sandwich (q τ) o')) (Ico a' b) b :=
    (margin_contOn ⟨j, hj⟩ h.contQ o' b hbT).mono fun t ht => ⟨ha'0.trans ht.1, ht.2.le.trans hbT.2⟩
  have hne : (𝓝[Ico a' b] b).NeBot := by
    rw [← mem_closure_iff_nhdsWithin_neBot, closure_Ico ha'b.ne]
    exact ⟨ha'b.le, le_rfl⟩
  refine ge_of_tendsto hcm ?_
  filter_upwards [self_mem_nhdsWithin] with t ht
  exact hfar t ht i hi j o' ho' hj hmem

/-! ## The closed loop of the library -/

/-- A motion of the closed loop up to the time `T`: the controller, with avoidance on, is given the true attitude, rate and
wheel speeds, a position in the direction opposite to `earth`, and a sun in the direction `sun`; the derivatives of attitude
and rate, from the right, are those which the library's dynamics give for its commands, under a force of any size and
torques that cause bounded accelerations. The commands are bounded and may move. -/
structure Spec.Guided (c : RwController) (sun earth : V3) (T : ℝ) (st : ℝ → SatState c.sat.rw.n) (qc : ℝ → V4)
    (wc wcd : ℝ → V3) (tr : ℝ → Trigger) : Prop where
  contQ : ContinuousOn (fun t => (st t).attrs.attitude) (Icc 0 T)
  contW : ContinuousOn (fun t => (st t).attrs.bodyAngVel) (Icc 0 T)
  contC : ContinuousOn qc (Icc 0 T)
  unitQ : npNorm (st 0).attrs.attitude = 1
  unitC : ∀ t ∈ Icc 0 T, npNorm (qc t) = 1
  command : ∃ R, ∀ t ∈ Ico 0 T, ∃ r, HasDerivWithinAt qc r (Ici t) t ∧ npNorm r ≤ R
  rates : ∃ R, ∀ t ∈ Ico 0 T, npNorm (wc t) ≤ R ∧ npNorm (wcd t) ≤ R
  avoid : c.objAvoidance = true
  law : ∃ δ, ∀ t ∈ Ico 0 T, ∃ (clock : JClock) (s : Measurements c.sat.rw.n) (f : JClock → V3 → Py V3) (law : V3)
    (c' : RwController) (a : Fin c.sat.rw.n → ℝ) (F N : V3) (d : Raw c.sat.rw.n),
    Measured s (st t) ∧ c.sunVector = some f ∧ f clock s.pos = .ok sun ∧ normalizeV s.pos = -earth ∧
    ({ c with trigger := tr t, clock := clock } : RwController).tracking s (wc t) (wcd t) (qc t) = (.ok law, c') ∧
    c.actuatorCommands law = .ok a ∧ npNorm (c.sat.invTotMoment *ᵥ N) ≤ δ ∧ derivative c.sat (st t) ⟨F, N⟩ a = .ok d ∧
    HasDerivWithinAt (fun t => (st t).attrs.attitude) d.att (Ici t) t ∧
    HasDerivWithinAt (fun t => (st t).attrs.bodyAngVel) d.rate (Ici t) t
  sign : ∀ t ∈ Ioc 0 T, ∃ a ∈ Ico 0 t, ∃ m : ℝ, |m| ≤ 1 ∧
    ∀ τ ∈ Ico a t, usedSign (tr τ) (st τ).attrs.attitude (qc τ) = m

/-- The claim: for every controller made by its constructor, with instruments made by theirs whose bounds are not right
angles, no motion that starts with all constraints on sun and earth met, with commands that meet them, ever violates one. -/
def C182_claim : Prop :=
  ∀ (model : CtlModel) (damping natFreq : ℝ) (c : RwController), RwController.init model damping natFreq = .ok c →
    (∀ i ∈ model.sat.instruments, FromConstructor i ∧ 2 ≤ i.nBounds ∧
      ∀ k : Fin i.nBounds, k.1 ∈ i.objIds → Real.cos (i.bounds k) ≠ 0) →
    ∀ (mass : ℝ) (dims : V3) (ab cd : ℝ), Built c.sat mass dims ab cd → mass ≠ 0 → UnlimitedWheels c.sat →
    ∀ (sun earth : V3), npNorm sun = 1 → npNorm earth = 1 →
    ∀ (T : ℝ) (st : ℝ → SatState c.sat.rw.n) (qc : ℝ → V4) (wc wcd : ℝ → V3) (tr : ℝ → Trigger),
    Spec.Guided c sun earth T st qc wc wcd tr →
    Spec.Allowed c.instruments ([sun, earth].map (sandwich (st 0).attrs.attitude)) →
    (∀ t ∈ Icc 0 T, Spec.Allowed c.instruments ([sun, earth].map (sandwich (qc t)))) →
    ∀ t ∈ Icc 0 T, Spec.Allowed c.instruments ([sun, earth].map (sandwich (st t).attrs.attitude))

/-- The acceleration with avoidance on. -/
theorem avoid_rate {c : RwController} {mass : ℝ} {dims : V3} {ab cd : ℝ} (hb : Built c.sat mass dims ab cd) (hm : mass ≠ 0)
    (hw : UnlimitedWheels c.sat) (hav : c.objAvoidance = true) {st : SatState c.sat.rw.n} {s : Measurements c.sat.rw.n}
    (hs : Measured s st) {objs : List V3} (hobj : c.objects s = .ok objs) {wc wcd : V3} {qc : V4} {law : V3}
    {c' : RwController} (ht : c.tracking s wc wcd qc = (.ok law, c')) {a : Fin c.sat.rw.n → ℝ}
    (ha : c.actuatorCommands law = .ok a) {F N : V3} {d : Raw c.sat.rw.n} (hd : derivative c.sat st ⟨F, N⟩ a = .ok d) :
    d.att = (0.5 : ℝ) • product s.att (pureQ s.rate) ∧
    ∃ v c2, c.allowableZone (errorQuat s.att qc) (s.rate - sandwich (errorQuat s.att qc) wc) objs = (.ok v, c2) ∧
      d.rate = v + (c.sat.invTotMoment *ᵥ N + ((-c.gamma) • (s.rate - sandwich (errorQuat s.att qc) wc) +
        (-1 : ℝ) • (npCross s.rate (sandwich (errorQuat s.att qc) wc) + sandwich (errorQuat s.att qc) wcd))) := by
  obtain ⟨h1, h2, h3⟩ := hs
  unfold RwController.tracking at ht
  simp only [hobj, hav, if_true] at ht
  cases hz : c.allowableZone (errorQuat s.att qc) (s.rate - sandwich (errorQuat s.att qc) wc) objs with
  | mk r c2 =>
    rw [hz] at ht
    cases r with
    | error e => cases (Prod.mk.inj ht).1
    | ok v =>
      have hlaw := Except.ok.inj (Prod.mk.inj ht).1
      obtain ⟨a', ha', hta⟩ := hw.accelerations (-law)
      have haa : a' = a := Except.ok.inj (ha'.symm.trans ha)
      subst haa
      obtain ⟨d', hd', -, -, hatt, hrate⟩ := derivative_rate hb hm st law F N a' hta
      have hdd : d' = d := Except.ok.inj (hd'.symm.trans hd)
      subst hdd
      refine ⟨by rw [hatt, ← h1, ← h2]; rfl, v, c2, rfl, ?_⟩
      rw [hrate, ← h2, ← h3, ← hlaw]
      set g := npCross s.rate (c.sat.totalMoment *ᵥ s.rate + c.sat.rw.momentum s.whl) with hg
      have e : N + (g + c.sat.totalMoment *ᵥ v +
            (-c.gamma) • c.sat.totalMoment *ᵥ (s.rate - sandwich (errorQuat s.att qc) wc) +
            -(c.sat.totalMoment *ᵥ (npCross s.rate (sandwich (errorQuat s.att qc) wc) + sandwich (errorQuat s.att qc) wcd))) - g =
          N + c.sat.totalMoment *ᵥ (v + ((-c.gamma) • (s.rate - sandwich (errorQuat s.att qc) wc) +
            (-1 : ℝ) • (npCross s.rate (sandwich (errorQuat s.att qc) wc) + sandwich (errorQuat s.att qc) wcd))) := by
        simp only [Matrix.mulVec_add, Matrix.mulVec_sub, Matrix.mulVec_smul, Matrix.mulVec_neg, neg_smul, one_smul]
        abel
      rw [e, Matrix.mulVec_add, hb.cancel]
      abel

theorem zone_clock (c : RwController) (clock : JClock) (delQ : V4) (dw : V3) (objs : List V3) :
    (({ c with clock := clock } : RwController).allowableZone delQ dw objs).1 = (c.allowableZone delQ dw objs).1 := by
  unfold RwController.allowableZone
  dsimp only
  cases zoneInstruments (c.trigger.sign (delQ 0)).1 (vecPart delQ) dw objs c.instruments ⟨c.alpha, 0, 0⟩ <;> rfl

/-- An object no instrument cares about does not matter. -/
theorem zone_first {c : RwController} (h1 : ∀ i ∈ c.instruments, 2 ≤ i.nBounds ∧ 1 ∉ i.objIds) (delQ : V4) (dw a b : V3) :
    c.allowableZone delQ dw [a, b] = c.allowableZone delQ dw [a] := by
  have hobj : ∀ i ∈ c.instruments, ∀ s dq z, zoneObjects i s dq dw 0 [a, b] z = zoneObjects i s dq dw 0 [a] z := by
    intro i hi s dq z
    simp only [zoneObjects]
    cases zoneStep i s dq dw 0 a z with
    | error e => rfl
    | ok z' =>
      simp only [zero_add]
      rw [zoneStep_outside (show 1 < i.nBounds from (h1 i hi).1) (.inl (h1 i hi).2)]
  have hins : ∀ (ins : List Instrument), (∀ i ∈ ins, i ∈ c.instruments) → ∀ s dq z,
      zoneInstruments s dq dw [a, b] ins z = zoneInstruments s dq dw [a] ins z := by
    intro ins
    induction ins with
    | nil => intros; rfl
    | cons i l ih =>
      intro hsub s dq z
      rw [zoneInstruments, zoneInstruments, hobj i (hsub i List.mem_cons_self)]
      cases zoneObjects i s dq dw 0 [a] z with
      | error e => rfl
      | ok z' => exact ih (fun k hk => hsub k (List.mem_cons_of_mem _ hk)) s dq z'
  unfold RwController.allowableZone
  simp only [hins c.instruments (fun _ h => h)]

theorem allowed_first {ins : List Instrument} (h1 : ∀ i ∈ ins, 1 ∉ i.objIds) (a b : V3) :
    Spec.Allowed ins [a, b] ↔ Spec.Allowed ins [a] := by
  constructor
  · intro h i hi j o ho hj hm
    match j, ho with
    | 0, ho => exact h i hi 0 o (by simpa using ho) hj hm
    | n + 1, ho => simp at ho
  · intro h i hi j o ho hj hm
    match j, ho with
    | 0, ho => exact h i hi 0 o (by simpa using ho) hj hm
    | 1, ho => exact absurd hm (h1 i hi)
    | n + 2, ho => simp at ho

theorem guarded_init {model : CtlModel} {damping natFreq : ℝ} {c : RwController}
    (hc : RwController.init model damping natFreq = .ok c)
    (hi : ∀ i ∈ model.sat.instruments, FromConstructor i ∧ 2 ≤ i.nBounds ∧
      ∀ k : Fin i.nBounds, k.1 ∈ i.objIds → Real.cos (i.bounds k) ≠ 0) :
    ∀ i ∈ c.instruments, Guarded i ∧ 2 ≤ i.nBounds := by
  intro i hic
  unfold RwController.init at hc
  split at hc
  · cases hc
  simp only at hc
  split_ifs at hc with hd
  obtain rfl := Except.ok.inj hc
  have hn : natFreq ≠ 0 := fun h => hd (by rw [h, mul_zero])
  obtain ⟨i0, h0, rfl⟩ := List.mem_map.1 hic
  obtain ⟨hf, h2, hcos⟩ := hi i0 h0
  refine ⟨fun k hk => ⟨?_, ?_⟩, h2⟩
  · rw [(setGains_region hf (2 * natFreq ^ 2 * 1) k).1]
    exact abs_pos.2 (hcos k hk)
  · change 0 < 2 * natFreq ^ 2 * 1
    positivity

/-- What holds, for the commands of `tracking` and the library's dynamics: an instrument keeps out of its forbidden region
about the sun. Missing: the earth, which the controller looks for in the wrong direction (see C96). -/
theorem C182_sun_partial (model : CtlModel) (damping natFreq : ℝ) (c : RwController)
    (hc : RwController.init model damping natFreq = .ok c)
    (hi : ∀ i ∈ model.sat.instruments, FromConstructor i ∧ 2 ≤ i.nBounds ∧
      ∀ k : Fin i.nBounds, k.1 ∈ i.objIds → Real.cos (i.bounds k) ≠ 0)
    (honly : ∀ i ∈ c.instruments, 1 ∉ i.objIds)
    (mass : ℝ) (dims : V3) (ab cd : ℝ) (hb : Built c.sat mass dims ab cd) (hm : mass ≠ 0) (hw : UnlimitedWheels c.sat)
    (sun earth : V3) (hsun : npNorm sun = 1) (T : ℝ) (st : ℝ → SatState c.sat.rw.n) (qc : ℝ → V4) (wc wcd : ℝ → V3)
    (tr : ℝ → Trigger) (h : Spec.Guided c sun earth T st qc wc wcd tr)
    (h0 : Spec.Allowed c.instruments ([sun, earth].map (sandwich (st 0).attrs.attitude)))
    (hcmd : ∀ t ∈ Icc 0 T, Spec.Allowed c.instruments ([sun, earth].map (sandwich (qc t)))) :
    ∀ t ∈ Icc 0 T, Spec.Allowed c.instruments ([sun, earth].map (sandwich (st t).attrs.attitude)) := by
  have hg := guarded_init hc hi
  simp only [List.map_cons, List.map_nil, allowed_first honly] at h0 hcmd ⊢
  obtain ⟨R, hR⟩ := h.rates
  obtain ⟨δ, hδ⟩ := h.law
  obtain ⟨M, hM⟩ : ∃ M, ∀ t ∈ Icc 0 T, npNorm (st t).attrs.bodyAngVel ≤ M := by
    obtain ⟨M, hM⟩ := (isCompact_Icc (a := (0:ℝ)) (b := T)).exists_bound_of_continuousOn
      (npNorm_continuous.comp_continuousOn h.contW)
    exact ⟨M, fun t ht => (le_abs_self _).trans (hM t ht)⟩
  have hpieces : ∀ t ∈ Ico 0 T, HasDerivWithinAt (fun t => (st t).attrs.attitude)
      ((0.5 : ℝ) • product (st t).attrs.attitude (pureQ (st t).attrs.bodyAngVel)) (Ici t) t ∧
      ∃ u p c', ({ c with trigger := tr t } : RwController).allowableZone (errorQuat (st t).attrs.attitude (qc t))
        ((st t).attrs.bodyAngVel - sandwich (errorQuat (st t).attrs.attitude (qc t)) (wc t))
        [sandwich (st t).attrs.attitude sun] = (.ok u, c') ∧
        HasDerivWithinAt (fun t => (st t).attrs.bodyAngVel) (u + p) (Ici t) t ∧
        p = (p - ((-c.gamma) • ((st t).attrs.bodyAngVel - sandwich (errorQuat (st t).attrs.attitude (qc t)) (wc t)) +
          (-1 : ℝ) • (npCross (st t).attrs.bodyAngVel (sandwich (errorQuat (st t).attrs.attitude (qc t)) (wc t)) +
            sandwich (errorQuat (st t).attrs.attitude (qc t)) (wcd t)))) +
          ((-c.gamma) • ((st t).attrs.bodyAngVel - sandwich (errorQuat (st t).attrs.attitude (qc t)) (wc t)) +
          (-1 : ℝ) • (npCross (st t).attrs.bodyAngVel (sandwich (errorQuat (st t).attrs.attitude (qc t)) (wc t)) +
            sandwich (errorQuat (st t).attrs.attitude (qc t)) (wcd t))) ∧
        npNorm (p - ((-c.gamma) • ((st t).attrs.bodyAngVel - sandwich (errorQuat (st t).attrs.attitude (qc t)) (wc t)) +
          (-1 : ℝ) • (npCross (st t).attrs.bodyAngVel (sandwich (errorQuat (st t).attrs.attitude (qc t)) (wc t)) +
            sandwich (errorQuat (st t).attrs.attitude (qc t)) (wcd t)))) ≤ δ := by
    intro t ht
    obtain ⟨clock, s, f, law, c', a, F, N, d, hs, hf, hfs, hpos, htr, ha, hN, hd, hda, hdr⟩ := hδ t ht
    have hobj : ({ c with trigger := tr t, clock := clock } : RwController).objects s =
        .ok [sandwich s.att sun, -normalizeV s.pos] := by
      simp only [RwController.objects, hf, hfs]
    obtain ⟨e1, v, c2, e2, e3⟩ := avoid_rate (c := { c with trigger := tr t, clock := clock }) hb hm hw h.avoid hs hobj htr ha hd
    rw [zone_first (c := { c with trigger := tr t, clock := clock }) (fun i hi' => ⟨(hg i hi').2, honly i hi'⟩)] at e2
    rw [hs.1, hs.2.1] at e1 e2 e3
    have e4 : (({ c with trigger := tr t } : RwController).allowableZone (errorQuat (st t).attrs.attitude (qc t))
        ((st t).attrs.bodyAngVel - sandwich (errorQuat (st t).attrs.attitude (qc t)) (wc t))
        [sandwich (st t).attrs.attitude sun]).1 = .ok v := by
      rw [← zone_clock _ clock]; exact congrArg Prod.fst e2
    refine ⟨e1 ▸ hda, v, _, _, Prod.ext e4 rfl, e3 ▸ hdr, by rw [sub_add_cancel], ?_⟩
    · rw [add_sub_cancel_right]; exact hN
  have hunit := norm_right h.contQ (fun t ht => (hpieces t ht).1) h.unitQ
  refine C182_law c [sun] (by simpa using hsun) (fun i hi' => (hg i hi').1) (fun i hi' => by
      have := (hg i hi').2; simp only [List.length_singleton]; omega) T _ qc _
    (fun t => (st t).attrs.bodyAngVel - sandwich (errorQuat (st t).attrs.attitude (qc t)) (wc t)) tr
    ⟨h.contQ, h.contW, h.contC, h.unitQ, h.unitC, fun t ht => (hpieces t ht).1, h.command, ?_, h.sign⟩ h0 hcmd
  refine ⟨δ + (|c.gamma| * (M + R) + (M * R + R)), fun t ht => ?_⟩
  obtain ⟨-, u, p, c', e1, e2, e3, e4⟩ := hpieces t ht
  refine ⟨u, p, c', e1, e2, ?_⟩
  have ht' : t ∈ Icc 0 T := ⟨ht.1, ht.2.le⟩
  have heu : npNorm (errorQuat (st t).attrs.attitude (qc t)) = 1 :=
    (isUnit4_iff _).1 (errorQuat_unit ((isUnit4_iff _).2 (hunit t ht')) ((isUnit4_iff _).2 (h.unitC t ht')))
  obtain ⟨r1, r2⟩ := hR t ht
  have hM0 := hM t ht'
  have hMp := (npNorm_nonneg _).trans hM0
  have s1 : npNorm (sandwich (errorQuat (st t).attrs.attitude (qc t)) (wc t)) ≤ R := by rw [norm_sandwich heu]; exact r1
  have s2 : npNorm (sandwich (errorQuat (st t).attrs.attitude (qc t)) (wcd t)) ≤ R := by rw [norm_sandwich heu]; exact r2
  have k1 : npNorm ((st t).attrs.bodyAngVel - sandwich (errorQuat (st t).attrs.attitude (qc t)) (wc t)) ≤ M + R := by
    rw [sub_eq_add_neg, ← neg_one_smul ℝ (sandwich _ _)]
    refine (npNorm_add3 _ _).trans (add_le_add hM0 ?_)
    rw [npNorm_smul, abs_neg, abs_one, one_mul]; exact s1
  have k2 : npNorm (npCross (st t).attrs.bodyAngVel (sandwich (errorQuat (st t).attrs.attitude (qc t)) (wc t))) ≤ M * R :=
    (cross_norm_le _ _).trans (mul_le_mul hM0 s1 (npNorm_nonneg _) hMp)
  rw [e3]
  refine (npNorm_add3 _ _).trans (add_le_add e4 ((npNorm_add3 _ _).trans (add_le_add ?_ ?_)))
  · rw [npNorm_smul, abs_neg]
    exact mul_le_mul_of_nonneg_left k1 (abs_nonneg _)
  · rw [npNorm_smul, abs_neg, abs_one, one_mul]
    exact (npNorm_add3 _ _).trans (add_le_add k2 s2)

/-- What a positive margin says: the angle from the boresight to the object is larger than the bound, where the object is
forbidden, and smaller where it is wanted. -/
theorem C182_margin {b : V3} {n : ℕ} {bounds : Fin n → ℝ} {forbidden : Fin n → Bool} {ids : List ℕ} {stop : ℝ} {g : Fin n → ℝ}
    (hb : npNorm b = 1) (stop' g' : ℝ) (k : Fin n) (h0 : 0 ≤ npRadians (bounds k)) (h1 : npRadians (bounds k) ≤ Real.pi)
    {o : V3} (ho : npNorm o = 1) :
    0 < margin (setGains (Instrument.mk' b n bounds forbidden ids stop g) stop' g') k o ↔
      if forbidden k then npRadians (bounds k) < Real.arccos (b ⬝ᵥ o) else Real.arccos (b ⬝ᵥ o) < npRadians (bounds k) := by
  have habs : |b ⬝ᵥ o| ≤ 1 := by have := abs_dot_le b o; rwa [hb, ho, one_mul] at this
  have hcos : Real.cos (Real.arccos (b ⬝ᵥ o)) = b ⬝ᵥ o := Real.cos_arccos (abs_le.1 habs).1 (abs_le.1 habs).2
  have e : margin (setGains (Instrument.mk' b n bounds forbidden ids stop g) stop' g') k o =
      0.5 * (if forbidden k then -1 else 1) * (b ⬝ᵥ o - Real.cos (npRadians (bounds k))) := by
    simp only [margin, setGains, Instrument.mk', npDot3, Matrix.vec3_dotProduct]
  have hs := Real.strictAntiOn_cos
  have m1 : Real.arccos (b ⬝ᵥ o) ∈ Icc 0 Real.pi := ⟨Real.arccos_nonneg _, Real.arccos_le_pi _⟩
  have m2 : npRadians (bounds k) ∈ Icc 0 Real.pi := ⟨h0, h1⟩
  rw [e]
  split_ifs
  · rw [← hs.lt_iff_gt m1 m2, hcos]
    constructor <;> intro h <;> linarith
  · rw [← hs.lt_iff_gt m2 m1, hcos]
    constructor <;> intro h <;> linarith

/-! ## Concrete motions -/

theorem zTurn_spins (t : ℝ) : HasDerivAt zTurn ((0.5 : ℝ) • product (zTurn t) (pureQ ![0, 0, 1])) t :=
  zTurn_deriv (hasDerivAt_id t)

theorem zTurn_error (φ : ℝ) : errorQuat (zTurn φ) ![1, 0, 0, 0] = zTurn φ := by
  unfold errorQuat
  ext k
  fin_cases k <;>
    simp [product_0, product_1, product_2, product_3, zTurn, conjugate_0, conjugate_1, conjugate_2, conjugate_3]

theorem zTurn_sandwich (φ : ℝ) (v : V3) : sandwich (zTurn φ) v =
    ![Real.cos φ * v 0 + Real.sin φ * v 1, -Real.sin φ * v 0 + Real.cos φ * v 1, v 2] := by
  have h1 : Real.cos φ = Real.cos (φ / 2) ^ 2 - Real.sin (φ / 2) ^ 2 := by
    rw [← Real.cos_two_mul']; congr 1; ring
  have h2 : Real.sin φ = 2 * Real.sin (φ / 2) * Real.cos (φ / 2) := by
    rw [← Real.sin_two_mul]; congr 1; ring
  have h3 := Real.sin_sq_add_cos_sq (φ / 2)
  ext k
  fin_cases k
  · change sandwich (zTurn φ) v 0 = Real.cos φ * v 0 + Real.sin φ * v 1
    rw [sandwich_0, h1, h2]
    simp only [zTurn, Matrix.cons_val_zero, Matrix.cons_val_one, cons4_2, cons4_3]; ring
  · change sandwich (zTurn φ) v 1 = -Real.sin φ * v 0 + Real.cos φ * v 1
    rw [sandwich_1, h1, h2]
    simp only [zTurn, Matrix.cons_val_zero, Matrix.cons_val_one, cons4_2, cons4_3]; ring
  · change sandwich (zTurn φ) v 2 = v 2
    rw [sandwich_2]
    simp only [zTurn, Matrix.cons_val_zero, Matrix.cons_val_one, cons4_2, cons4_3]; linear_combination v 2 * h3

/-- A steady turn about the z axis while the instruments see nothing near, held up by a disturbing torque. The satellite
stands above the equator on the x axis. -/
theorem steady_guided (ins : List Instrument) (sun : V3)
    (hcl : ∀ t ∈ Icc 0 Real.pi, Clear (ins.map fun i => setGains i Real.pi 2) [sandwich (zTurn t) sun, ![-1, 0, 0]]) :
    ∃ (model : CtlModel) (c : RwController) (st : ℝ → SatState c.sat.rw.n), RwController.init model 1 1 = .ok c ∧
      model.sat.instruments = ins ∧ Built c.sat 2 ![0.1, 0.1, 0.2] 0.8 2.2 ∧ UnlimitedWheels c.sat ∧
      c.instruments = ins.map (fun i => setGains i Real.pi 2) ∧ (∀ t, (st t).attrs.attitude = zTurn t) ∧
      Spec.Guided c sun ![-1, 0, 0] Real.pi st (fun _ => ![1, 0, 0, 0]) (fun _ => 0) (fun _ => 0)
        (fun _ => Trigger.init 1 0.3) := by
  obtain ⟨sat, hb, hpd, ⟨h3, -⟩, hI, hins, hrw⟩ := exSat3 false ins
  set model : CtlModel := ⟨sat, some exClock, some fun _ _ => .ok sun⟩ with hmodel
  set c : RwController := ⟨sat, exClock, some fun _ _ => .ok sun, true, Trigger.init 1 0.3, 2 * 1 ^ 2, 2 * 1 * 1,
        sat.instruments.map fun i => setGains i Real.pi (2 * 1 ^ 2 * 1)⟩ with hcdef
  have hc0 : RwController.init model 1 1 = .ok c := by
    unfold RwController.init
    simp only [hmodel]
    rw [if_neg (by norm_num)]
  have hci : c.instruments = ins.map fun i => setGains i Real.pi 2 := by
    simp only [hcdef, hins]; norm_num
  have hpos : (exRaw sat.rw.n).pos 0 ^ 2 + (exRaw sat.rw.n).pos 1 ^ 2 = 6800000 ^ 2 := by simp [exRaw]
  obtain ⟨st0, hst, -, -, -⟩ := mkState_equator (exRaw sat.rw.n) exClock (by simp [exRaw]) (by rw [hpos]; norm_num)
    (by
      rw [hpos, Real.sqrt_sq (by norm_num)]
      have := wgsE2_lt; have := wgsE2_pos
      unfold Fr.wgsA; nlinarith)
  have hw : UnlimitedWheels c.sat := ⟨3, exAxes, fun _ => 1e-5, fun _ => 2e-6, 0.002, fun _ => by norm_num, hrw⟩
  have hsign : ∀ t ∈ Icc 0 Real.pi, (Trigger.init 1 0.3).sign (zTurn t 0) = (1, Trigger.init 1 0.3) := by
    intro t ht
    have h0 : 0 ≤ Real.cos (t / 2) :=
      Real.cos_nonneg_of_mem_Icc ⟨by linarith [Real.pi_pos, ht.1], by linarith [ht.2]⟩
    have hm : (Trigger.init 1 0.3).memory = 1 := by simp [Trigger.init, npSign]
    have hh : (Trigger.init 1 0.3).halfWidth = 0.3 := rfl
    have hs : (Trigger.init 1 0.3).step (zTurn t 0) = Trigger.init 1 0.3 := by
      unfold Trigger.step
      rw [if_neg]
      rw [hm, hh, mul_one, not_le]
      change -0.3 < Real.cos (t / 2)
      norm_num at *; linarith
    exact Prod.ext ((congrArg Trigger.memory hs).trans hm) hs
  set st : ℝ → SatState c.sat.rw.n := fun t => withMotion st0 (zTurn t, ![0, 0, 1]) with hstd
  refine ⟨model, c, st, hc0, hins, hb, hw, hci, fun _ => rfl, ?_⟩
  refine ⟨?_, continuousOn_const, continuousOn_const, zTurn_unit 0, fun _ _ => npNorm_vec4 (by norm_num),
    ⟨0, fun t _ => ⟨0, hasDerivWithinAt_const _ _ _, (npNorm_eq_zero.2 rfl).le⟩⟩,
    ⟨0, fun t _ => ⟨(npNorm_eq_zero.2 rfl).le, (npNorm_eq_zero.2 rfl).le⟩⟩, rfl, ?_, ?_⟩
  · exact fun t _ => (zTurn_spins t).continuousAt.continuousWithinAt
  · refine ⟨4, fun t ht => ?_⟩
    have ht' : t ∈ Icc 0 Real.pi := ⟨ht.1, ht.2.le⟩
    set s : Measurements c.sat.rw.n := ⟨![6800000, 0, 0], 0, zTurn t, ![0, 0, 1], st0.attrs.wheelVel, 0, 0⟩ with hs
    have hnorm : normalizeV s.pos = -![-1, 0, 0] := by
      have hn : npNorm (![6800000, 0, 0] : V3) = 6800000 := by
        rw [show (![6800000, 0, 0] : V3) = (6800000 : ℝ) • ![1, 0, 0] by ext k; fin_cases k <;> simp, npNorm_smul,
          npNorm_vec3 (by norm_num)]
        norm_num
      simp only [hs, normalizeV, hn]
      rw [if_neg (by norm_num)]
      ext k; fin_cases k <;> simp
    have hobj : ({ c with trigger := Trigger.init 1 0.3, clock := exClock } : RwController).objects s =
        .ok [sandwich (zTurn t) sun, ![-1, 0, 0]] := by
      have : -normalizeV s.pos = ![-1, 0, 0] := by rw [hnorm, neg_neg]
      rw [← this]; rfl
    have hcl' := hcl t ht'
    rw [← hci] at hcl'
    set u : V3 := (2 : ℝ) • vecPart (zTurn t) + (2 : ℝ) • ![0, 0, 1] with hu
    obtain ⟨law, c', a, d, k1, k2, k3, k4, k5, k6⟩ := C69_acceleration
      ({ c with trigger := Trigger.init 1 0.3, clock := exClock, objAvoidance := false } : RwController) hb (by norm_num) hw rfl
      (st t) s ⟨rfl, rfl, rfl⟩ _ hobj 0 0 ![1, 0, 0, 0] 0 (c.sat.totalMoment *ᵥ u)
    have htrk := tracking_clear (c := { c with trigger := Trigger.init 1 0.3, clock := exClock }) hobj (.inr hcl') 0 0 ![1, 0, 0, 0]
    have hz : sandwich (zTurn t) (0 : V3) = 0 := by rw [sandwich_eq_dcm, Matrix.mulVec_zero]
    have hrate : d.rate = 0 := by
      rw [k6, k4]
      simp only [hs, zTurn_error, hsign t ht', hz]
      rw [hb.cancel]
      have hm : (Trigger.init 1 0.3).memory = 1 := by simp [Trigger.init, npSign]
      have h1 : c.alpha = 2 := by simp [hcdef]
      have h2 : c.gamma = 2 := by simp [hcdef]
      rw [LinearMap.map_zero, add_zero, sub_zero, sub_zero, hm, h1, h2, one_mul, hu]
      abel
    have k1' := congrArg Prod.fst k1
    refine ⟨exClock, s, _, law, _, a, 0, c.sat.totalMoment *ᵥ u, d, ⟨rfl, rfl, rfl⟩, rfl, rfl, hnorm,
      htrk.trans (congrArg (fun x => (x, _)) k1'), k2, ?_, k3, ?_, ?_⟩
    · rw [hb.cancel, hu]
      refine (npNorm_add3 _ _).trans ?_
      rw [npNorm_smul, npNorm_smul, npNorm_vec3 (a := 0) (b := 0) (c := 1) (by norm_num),
        show vecPart (zTurn t) = Real.sin (t / 2) • ![0, 0, 1] by ext k; fin_cases k <;> simp [vecPart, zTurn], npNorm_smul,
        npNorm_vec3 (a := 0) (b := 0) (c := 1) (by norm_num), abs_of_pos (by norm_num : (0:ℝ) < 2)]
      linarith [Real.abs_sin_le_one (t / 2)]
    · rw [k5]; exact (zTurn_spins t).hasDerivWithinAt
    · rw [hrate]; exact hasDerivWithinAt_const _ _ _
  · intro t ht
    refine ⟨0, ⟨le_rfl, ht.1⟩, 1, by norm_num, fun τ hτ => ?_⟩
    change (((Trigger.init 1 0.3).sign (errorQuat (zTurn τ) ![1, 0, 0, 0] 0))).1 = 1
    rw [zTurn_error, hsign τ ⟨hτ.1, hτ.2.le.trans ht.2⟩]

/-- An instrument that must not come within 60 degrees of the object `j`. -/
noncomputable def exAverse (boresight : V3) (j : ℕ) : Instrument :=
  Instrument.mk' boresight 2 (fun _ => 60) (fun _ => true) [j] Real.pi (fun _ => 1)

theorem exAverse_from (b : V3) (j : ℕ) : FromConstructor (exAverse b j) ∧ 2 ≤ (exAverse b j).nBounds ∧
    ∀ k : Fin (exAverse b j).nBounds, k.1 ∈ (exAverse b j).objIds → Real.cos ((exAverse b j).bounds k) ≠ 0 := by
  refine ⟨⟨_, _, _, _, _, _, _, rfl⟩, le_rfl, fun k _ => ?_⟩
  have : npRadians 60 = Real.pi / 3 := by unfold npRadians; ring
  simp only [exAverse, Instrument.mk', this, Real.cos_pi_div_three]
  norm_num

theorem exAverse_sigma (b : V3) (j : ℕ) (k : Fin (setGains (exAverse b j) Real.pi 2).nBounds) :
    (setGains (exAverse b j) Real.pi 2).sigma k = 1 / 2 := by
  rw [(setGains_region (exAverse_from b j).1 2 k).1]
  have : npRadians 60 = Real.pi / 3 := by unfold npRadians; ring
  simp only [exAverse, Instrument.mk', this, Real.cos_pi_div_three]
  norm_num

theorem exAverse_margin (b : V3) (j : ℕ) (k : Fin (setGains (exAverse b j) Real.pi 2).nBounds) (o : V3) :
    margin (setGains (exAverse b j) Real.pi 2) k o = 1 / 4 - (b ⬝ᵥ o) / 2 := by
  have : npRadians 60 = Real.pi / 3 := by unfold npRadians; ring
  simp only [margin, setGains, exAverse, Instrument.mk', this, Real.cos_pi_div_three, if_true, npDot3, Matrix.vec3_dotProduct]
  ring

/-- The claim fails: the earth, on the -x axis, is behind the boresight x at the start. The controller takes the earth to
stay where it is while the satellite turns; half a turn later the boresight points at the earth. -/
theorem C182_keeps_out_fails : ¬ C182_claim := by
  intro hk
  obtain ⟨model, c, st, hc, hins, hb, hw, hci, hatt, hg⟩ := steady_guided [exAverse ![1, 0, 0] 1] ![1, 0, 0] (by
    intro t ht i hi j o ho
    obtain rfl : i = setGains (exAverse ![1, 0, 0] 1) Real.pi 2 := by simpa using hi
    match j, ho with
    | 0, ho => exact ⟨show 0 < 2 by norm_num, .inl (by simp [setGains, exAverse, Instrument.mk'])⟩
    | 1, ho =>
      obtain rfl : ![-1, 0, 0] = o := by simpa using ho
      refine ⟨show 1 < 2 by norm_num, .inr ?_⟩
      rw [exAverse_sigma, exAverse_margin, Matrix.vec3_dotProduct]
      norm_num
    | n + 2, ho => simp at ho)
  have hal : ∀ q : V4, ((sandwich q ![-1, 0, 0]) 0 = -1 → Spec.Allowed c.instruments ([![1, 0, 0], ![-1, 0, 0]].map (sandwich q))) := by
    intro q hq i hi j o ho hj hm
    rw [hci] at hi
    obtain rfl : i = setGains (exAverse ![1, 0, 0] 1) Real.pi 2 := by simpa using hi
    have : j = 1 := by simpa [setGains, exAverse, Instrument.mk'] using hm
    subst this
    obtain rfl : sandwich q ![-1, 0, 0] = o := by simpa using ho
    rw [exAverse_margin, Matrix.vec3_dotProduct, hq]
    norm_num
  have hid : (![1, 0, 0, 0] : V4) = zTurn 0 := by ext k; fin_cases k <;> simp [zTurn]
  have h0 : sandwich (zTurn 0) ![-1, 0, 0] 0 = -1 := by rw [zTurn_sandwich]; simp
  have := hk model 1 1 c hc (by rw [hins]; intro i hi; obtain rfl := List.mem_singleton.1 hi; exact exAverse_from _ _)
    2 _ _ _ hb (by norm_num) hw ![1, 0, 0] ![-1, 0, 0] (npNorm_vec3 (by norm_num)) (npNorm_vec3 (by norm_num)) Real.pi st _ _ _ _ hg
    (by rw [hatt]; exact hal _ h0) (fun t _ => by rw [hid]; exact hal _ h0) Real.pi ⟨Real.pi_pos.le, le_rfl⟩
  have h1 := this _ (by rw [hci]; exact List.mem_singleton.2 rfl) 1 (sandwich (st Real.pi).attrs.attitude ![-1, 0, 0]) (by simp)
    (show 1 < 2 by norm_num) (by simp [setGains, exAverse, Instrument.mk'])
  rw [exAverse_margin, hatt, zTurn_sandwich, Matrix.vec3_dotProduct] at h1
  norm_num at h1

/-- The hypotheses of `C182_sun_partial`, and so of `C182_law`, are met: a boresight along z keeps clear of a sun at -z
while the satellite turns about z, away from the command and back. -/
example : ∃ (model : CtlModel) (c : RwController) (st : ℝ → SatState c.sat.rw.n), RwController.init model 1 1 = .ok c ∧
    (∀ i ∈ model.sat.instruments, FromConstructor i ∧ 2 ≤ i.nBounds ∧
      ∀ k : Fin i.nBounds, k.1 ∈ i.objIds → Real.cos (i.bounds k) ≠ 0) ∧
    c.instruments ≠ [] ∧ (∀ i ∈ c.instruments, 1 ∉ i.objIds ∧ 0 ∈ i.objIds) ∧
    Built c.sat 2 ![0.1, 0.1, 0.2] 0.8 2.2 ∧ UnlimitedWheels c.sat ∧
    Spec.Guided c ![0, 0, -1] ![-1, 0, 0] Real.pi st (fun _ => ![1, 0, 0, 0]) (fun _ => 0) (fun _ => 0)
      (fun _ => Trigger.init 1 0.3) ∧
    Spec.Allowed c.instruments ([![0, 0, -1], ![-1, 0, 0]].map (sandwich (st 0).attrs.attitude)) ∧
    Spec.Allowed c.instruments ([![0, 0, -1], ![-1, 0, 0]].map (sandwich ![1, 0, 0, 0])) := by
  obtain ⟨model, c, st, hc, hins, hb, hw, hci, hatt, hg⟩ := steady_guided [exAverse ![0, 0, 1] 0] ![0, 0, -1] (by
    intro t ht i hi j o ho
    obtain rfl : i = setGains (exAverse ![0, 0, 1] 0) Real.pi 2 := by simpa using hi
    match j, ho with
    | 0, ho =>
      obtain rfl : sandwich (zTurn t) ![0, 0, -1] = o := by simpa using ho
      refine ⟨show 0 < 2 by norm_num, .inr ?_⟩
      rw [exAverse_sigma, exAverse_margin, Matrix.vec3_dotProduct, zTurn_sandwich]
      norm_num
    | 1, ho => exact ⟨show 1 < 2 by norm_num, .inl (by simp [setGains, exAverse, Instrument.mk'])⟩
    | n + 2, ho => simp at ho)
  have hal : Spec.Allowed c.instruments ([![0, 0, -1], ![-1, 0, 0]].map (sandwich (zTurn 0))) := by
    intro i hi j o ho hj hm
    rw [hci] at hi
    obtain rfl : i = setGains (exAverse ![0, 0, 1] 0) Real.pi 2 := by simpa using hi
    have : j = 0 := by simpa [setGains, exAverse, Instrument.mk'] using hm
    subst this
    obtain rfl : sandwich (zTurn 0) ![0, 0, -1] = o := by simpa using ho
    rw [exAverse_margin, Matrix.vec3_dotProduct, zTurn_sandwich]
    norm_num
  have hid : (![1, 0, 0, 0] : V4) = zTurn 0 := by ext k; fin_cases k <;> simp [zTurn]
  refine ⟨model, c, st, hc, by rw [hins]; intro i hi; obtain rfl := List.mem_singleton.1 hi; exact exAverse_from _ _,
    by rw [hci]; simp, ?_, hb, hw, hg, by rw [hatt]; exact hal, by rw [hid]; exact hal⟩
  intro i hi
  rw [hci] at hi
  obtain rfl : i = setGains (exAverse ![0, 0, 1] 0) Real.pi 2 := by simpa using hi
  constructor <;> simp [setGains, exAverse, Instrument.mk']

end Adcs
