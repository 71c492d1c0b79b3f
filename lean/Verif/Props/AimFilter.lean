import Verif.Props.AimNoise
import Verif.Props.PosTracking
import Verif.Proofs.EnvBound

set_option autoImplicit false

/-! # C222: aiming at a target with the position that the filter has found -/

namespace Adcs

open Str Ctl Sens JDay Quat Vec Dyn Obs Obs.Pos
open scoped Matrix

/-- How far off the position of the filter may be after `N` seconds of fixes (C208). -/
noncomputable def Spec.fixError (c0 ν D : ℝ) (N : ℕ) : ℝ := 0.9975 ^ N * c0 + (32 * ν + 1300 * D + 0.03)

/-- **C222**. After `N` seconds of fixes the references that `point_and_stare` computes from the output of the position
filter are right: the boresight would be off the target by no more than the error of the filter, over the distance, and
the rate would be off that of the line of sight in the same proportion. The target must not be behind the boresight. -/
theorem C222_aim {n : ℕ} {mu : ℝ} (hmu0 : 0 ≤ mu) (hmu : mu ≤ 4e14) (s : SatState n) (hc : s.clock ≠ none)
    {x v acc : ℝ → V3} {D : ℝ} (hf : Spec.Flight x v acc D) (hD : D ≤ 5) (y w : ℕ → V3) {ν : ℝ} (hν : 0 ≤ ν)
    (hy : ∀ i : ℕ, (npNorm (y i - x i) / 10.0598) ^ 2 + (npNorm (w i - v i) / 0.52038) ^ 2 ≤ ν ^ 2)
    {c0 : ℝ} (hc0 : 0 ≤ c0)
    (h0 : npNorm (s.attrs.position - x 0) ^ 2 + npNorm (s.attrs.velocity - v 0) ^ 2 ≤ c0 ^ 2)
    (hsm : c0 + (32 * ν + 1300 * D + 0.03) ≤ 9880) (N : ℕ) (target bore : V3) (att : V4) (hq : npNorm att = 1)
    (hb : npNorm bore = 1) (e d : ℝ) (he : e = Spec.fixError c0 ν D N) (hd : d = npNorm (target - x N))
    (hed : 10.0598 * e < d)
    (hback : 2 * (10.0598 * e) / (2 * d - 10.0598 * e) <
      npNorm (sandwich att ((1 / d) • (target - x N)) + bore)) :
    ∃ k, posRun (Pos.init mu s) (Spec.fixEvents y w N ++ [.update (y N) (w N)]) = (.ok (), k) ∧
      ∃ wRef qCmd, pointReference k.output.1 k.output.2 att bore target = .ok (wRef, qCmd) ∧ npNorm qCmd = 1 ∧
        npNorm (sandwichOpp qCmd bore - (1 / d) • (target - x N)) ≤ 2 * (10.0598 * e) / (2 * d - 10.0598 * e) ∧
        npNorm (sandwichOpp att wRef - Spec.sightRate target (x N) (v N)) ≤
          (0.52038 * e + 1e4 * (10.0598 * e) / d) / (d - 10.0598 * e) := by
  obtain ⟨k, hk, k1, k2, -⟩ := C208_tracks hmu0 hmu s hc hf hD y w hν hy hc0 h0 hsm N
  refine ⟨k, hk, ?_⟩
  have hD0 : 0 ≤ D := (npNorm_nonneg _).trans (hf.model 0 le_rfl)
  have he0 : 0 ≤ e := by rw [he, Spec.fixError]; positivity
  rw [Spec.fixError] at he
  rw [← he] at k1 k2
  obtain ⟨p', hp'⟩ : ∃ p', p' = k.output.1 := ⟨_, rfl⟩
  obtain ⟨v', hv'⟩ : ∃ v', v' = k.output.2 := ⟨_, rfl⟩
  rw [← hp'] at k1
  rw [← hv'] at k2
  rw [← hp', ← hv']
  obtain ⟨ρ, hρ⟩ : ∃ ρ, ρ = 10.0598 * e := ⟨_, rfl⟩
  rw [← hρ] at k1 hed hback ⊢
  have hρ0 : 0 ≤ ρ := by rw [hρ]; positivity
  have hd0 : 0 < d := hρ0.trans_lt hed
  have hne : target ≠ x N := fun h => by
    rw [hd, h, sub_self] at hd0
    simp [npNorm] at hd0
  have hd' : d - ρ ≤ npNorm (target - p') := by
    have := npNorm_add3 (target - p') (p' - x N)
    rw [sub_add_sub_cancel, ← hd] at this
    linarith
  have hne' : target ≠ p' := fun h => by
    rw [h, sub_self] at hd'
    simp [npNorm] at hd'
    linarith
  have hbound : 2 * npNorm (p' - x N) / (d + npNorm (target - p')) ≤ 2 * ρ / (2 * d - ρ) := by
    apply div_le_div₀ <;> linarith
  have hb2 : sandwich att (pointingVector p' target) ≠ -bore := by
    intro h
    have hu := unit_diff (sub_ne_zero.2 hne) (sub_ne_zero.2 hne')
    rw [show target - x N - (target - p') = p' - x N by abel, ← hd] at hu
    have e1 : sandwich att ((1 / d) • (target - x N)) + bore =
        sandwich att ((1 / d) • (target - x N) - (1 / npNorm (target - p')) • (target - p')) := by
      rw [sandwich_eq_dcm, sandwich_eq_dcm, Matrix.mulVec_sub, ← sandwich_eq_dcm att ((1 / npNorm (target - p')) • _),
        ← pointingVector_eq, h, sub_neg_eq_add]
    have hl := sandwich_le att ((1 / d) • (target - x N) - (1 / npNorm (target - p')) • (target - p'))
    rw [hq, one_pow, one_mul] at hl
    rw [e1] at hback
    linarith
  obtain ⟨wRef, qCmd, a1, a2, a3⟩ := C218_aim (x N) p' v' target bore att hq hb hne hne' hb2
  obtain ⟨wRef2, qCmd2, b1, b2⟩ := C218_rate (x N) (v N) p' v' target bore att hq hne hne'
  obtain ⟨rfl, rfl⟩ := Prod.mk.inj (Except.ok.inj (a1.symm.trans b1))
  rw [← hd] at a3 b2
  refine ⟨wRef, qCmd, a1, a2, a3.trans hbound, b2.trans ?_⟩
  have hpos : 0 < npNorm (target - p') := by linarith
  have hvN := hf.speed N (Nat.cast_nonneg N)
  have e3 : npNorm (v' - v N) / npNorm (target - p') + npNorm (v N) * npNorm (p' - x N) / (d * npNorm (target - p')) =
      (npNorm (v' - v N) + npNorm (v N) * npNorm (p' - x N) / d) / npNorm (target - p') := by
    field_simp
  rw [e3]
  have hprod : npNorm (v N) * npNorm (p' - x N) ≤ 1e4 * ρ := mul_le_mul hvN k1 (npNorm_nonneg _) (by norm_num)
  have hnum : npNorm (v' - v N) + npNorm (v N) * npNorm (p' - x N) / d ≤ 0.52038 * e + 1e4 * ρ / d :=
    add_le_add k2 (div_le_div_of_nonneg_right hprod hd0.le)
  exact div_le_div₀ (by positivity) hnum (by linarith) hd'

/-- The satellite of the example of C208, and a target 400 km below it at the end: in the beginning the boresight is off by no
more than 28 mrad, after 20 minutes by no more than 3 mrad. -/
example {n : ℕ} (s : SatState n) (hc : s.clock ≠ none) (hp : s.attrs.position = ![6779000, 0, 0])
    (hv : s.attrs.velocity = ![0, 0.00113 * 6778000, 10]) (N : ℕ) (x : V3)
    (hx : x = circlePos 0.00113 ![6778000, 0, 0] ![0, 0.00113 * 6778000, 0] N) (E : ℝ)
    (hE : E = 10.0598 * (0.9975 ^ N * 1001 + 60)) :
    ∃ k, posRun (Pos.init Spec.mu s) (Spec.fixEvents
        (fun i => circlePos 0.00113 ![6778000, 0, 0] ![0, 0.00113 * 6778000, 0] i + ![0, 0, 7])
        (fun i => circleVel 0.00113 ![6778000, 0, 0] ![0, 0.00113 * 6778000, 0] i + ![0, 0.3, 0]) N ++
        [.update (circlePos 0.00113 ![6778000, 0, 0] ![0, 0.00113 * 6778000, 0] N + ![0, 0, 7])
          (circleVel 0.00113 ![6778000, 0, 0] ![0, 0.00113 * 6778000, 0] N + ![0, 0.3, 0])]) = (.ok (), k) ∧
      ∃ wRef qCmd, pointReference k.output.1 k.output.2 ![1, 0, 0, 0] ![0, 0, 1] ((6378 / 6778 : ℝ) • x) = .ok (wRef, qCmd) ∧
        npNorm (sandwichOpp qCmd ![0, 0, 1] - (-(1 / 6778000 : ℝ)) • x) ≤ 2 * E / (2 * 400000 - E) := by
  have nx : ∀ a : ℝ, 0 ≤ a → npNorm (![a, 0, 0] : V3) = a := fun a ha => by
    have := npNorm3_sq ![a, 0, 0]
    simp only [Matrix.cons_val_zero, Matrix.cons_val_one, Matrix.cons_val] at this
    exact (sq_eq_sq₀ (npNorm_nonneg _) ha).1 (by rw [this]; ring)
  have ny : ∀ a : ℝ, 0 ≤ a → npNorm (![0, a, 0] : V3) = a := fun a ha => by
    have := npNorm3_sq ![0, a, 0]
    simp only [Matrix.cons_val_zero, Matrix.cons_val_one, Matrix.cons_val] at this
    exact (sq_eq_sq₀ (npNorm_nonneg _) ha).1 (by rw [this]; ring)
  have nz : ∀ a : ℝ, 0 ≤ a → npNorm (![0, 0, a] : V3) = a := fun a ha => by
    have := npNorm3_sq ![0, 0, a]
    simp only [Matrix.cons_val_zero, Matrix.cons_val_one, Matrix.cons_val] at this
    exact (sq_eq_sq₀ (npNorm_nonneg _) ha).1 (by rw [this]; ring)
  have hfl := circle_flight (w := 0.00113) (x0 := ![6778000, 0, 0]) (v0 := ![0, 0.00113 * 6778000, 0]) (by norm_num)
    (by rw [nx _ (by norm_num), ny _ (by norm_num)]) (by simp [dotProduct, Fin.sum_univ_three])
    (by rw [nx _ (by norm_num)]; norm_num) (by rw [nx _ (by norm_num)]; norm_num)
    (by rw [ny _ (by norm_num)]; norm_num)
  have hDv : |1.28e-6 - (0.00113 : ℝ) ^ 2| * npNorm (![6778000, 0, 0] : V3) ≤ 0.0211 ∧
      0 ≤ |1.28e-6 - (0.00113 : ℝ) ^ 2| * npNorm (![6778000, 0, 0] : V3) := by
    rw [nx _ (by norm_num)]
    constructor
    · rw [abs_of_pos (by norm_num)]; norm_num
    · positivity
  obtain ⟨D, hD⟩ : ∃ D, D = |1.28e-6 - (0.00113 : ℝ) ^ 2| * npNorm (![6778000, 0, 0] : V3) := ⟨_, rfl⟩
  rw [← hD] at hfl hDv
  norm_num at hDv
  have hxn : npNorm x = 6778000 := by
    rw [hx, (circle_norms (by norm_num) (by rw [nx _ (by norm_num), ny _ (by norm_num)])
      (by simp [dotProduct, Fin.sum_univ_three]) _).1, nx _ (by norm_num)]
  have hx2 : x 2 = 0 := by rw [hx]; simp [circlePos]
  have hdir : (6378 / 6778 : ℝ) • x - x = (-(400 / 6778) : ℝ) • x := by
    funext i; simp only [Pi.sub_apply, Pi.smul_apply, smul_eq_mul]; ring
  have hdn : npNorm ((6378 / 6778 : ℝ) • x - x) = 400000 := by
    rw [hdir, npNorm_smul, hxn, abs_neg, abs_of_pos (by norm_num)]; norm_num
  have hunit : (1 / 400000 : ℝ) • ((6378 / 6778 : ℝ) • x - x) = (-(1 / 6778000 : ℝ)) • x := by
    rw [hdir, smul_smul]; norm_num
  have hpw : (0.9975 : ℝ) ^ N ≤ 1 := pow_le_one₀ (by norm_num) (by norm_num)
  have hpw0 : (0 : ℝ) ≤ 0.9975 ^ N := by positivity
  obtain ⟨e, he⟩ : ∃ e, e = Spec.fixError 1001 1 D N := ⟨_, rfl⟩
  have heE : 10.0598 * e ≤ E := by
    rw [hE, he, Spec.fixError]
    norm_num
    linarith
  have he0 : 0 ≤ e := by rw [he, Spec.fixError]; have := hDv.2; positivity
  have hE1 : E ≤ 10674 := by
    rw [hE]
    norm_num at hpw ⊢
    linarith
  obtain ⟨k, h1, wRef, qCmd, h2, -, h3, -⟩ := C222_aim (mu := Spec.mu) (by unfold Spec.mu; norm_num)
    (by unfold Spec.mu; norm_num) s hc hfl (by linarith)
    (fun i => circlePos 0.00113 ![6778000, 0, 0] ![0, 0.00113 * 6778000, 0] i + ![0, 0, 7])
    (fun i => circleVel 0.00113 ![6778000, 0, 0] ![0, 0.00113 * 6778000, 0] i + ![0, 0.3, 0]) (ν := 1)
    (by norm_num) (fun i => by
      simp only [add_sub_cancel_left]
      rw [nz _ (by norm_num), ny _ (by norm_num)]
      norm_num) (c0 := 1001) (by norm_num) (by
      have e1 : s.attrs.position - circlePos 0.00113 ![6778000, 0, 0] ![0, 0.00113 * 6778000, 0] 0 = ![1000, 0, 0] := by
        rw [hp]; funext i; fin_cases i <;> simp [circlePos]; norm_num
      have e2 : s.attrs.velocity - circleVel 0.00113 ![6778000, 0, 0] ![0, 0.00113 * 6778000, 0] 0 = ![0, 0, 10] := by
        rw [hv]; funext i; fin_cases i <;> simp [circleVel]
      rw [e1, e2, nx _ (by norm_num), nz _ (by norm_num)]
      norm_num) (by norm_num; linarith) N ((6378 / 6778 : ℝ) • x) ![0, 0, 1] ![1, 0, 0, 0] (npNorm_vec4 (by norm_num))
    (npNorm_vec3 (by norm_num)) e 400000 he (by rw [← hx, hdn]) (by linarith) (by
      rw [← hx, hunit, sandwich_one]
      have hge : (1 : ℝ) ≤ npNorm ((-(1 / 6778000 : ℝ)) • x + ![0, 0, 1]) := by
        rw [npNorm]
        apply Real.le_sqrt_of_sq_le
        rw [Fin.sum_univ_three]
        have h2 : ((-(1 / 6778000 : ℝ)) • x + ![0, 0, 1] : V3) 2 = 1 := by
          simp [hx2]
        rw [h2]
        nlinarith [sq_nonneg (((-(1 / 6778000 : ℝ)) • x + ![0, 0, 1] : V3) 0),
          sq_nonneg (((-(1 / 6778000 : ℝ)) • x + ![0, 0, 1] : V3) 1)]
      refine lt_of_lt_of_le ?_ hge
      rw [div_lt_one (by linarith)]
      linarith)
  refine ⟨k, h1, wRef, qCmd, h2, ?_⟩
  rw [← hx, hunit] at h3
  refine h3.trans ?_
  apply div_le_div₀ <;> nlinarith

end Adcs
