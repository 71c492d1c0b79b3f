import Verif.Proofs.KeepOut
import Verif.Proofs.Pendulum
import Verif.Props.RollIn
import Verif.Props.TrueLoop

set_option autoImplicit false

/-! # C201: detumbling with commands that are held between the samples -/

namespace Adcs

open Str Sens JDay Quat Vec Dyn Ctl Spec Set Filter Topology
open scoped Matrix

/-- From one sample to the next: attitude and rate are measured, `detumble` asks for a moment, and the satellite turns
with this moment, fixed in its body, for the time `h`. The field `B` is given in inertial coordinates. -/
def Spec.HeldStep (c : MagController) (B : V3) (h : ℝ) (x y : V4 × V3) : Prop :=
  ∃ (m : V3) (q : ℝ → V4) (w : ℝ → V3), magMoment (sandwich x.1 B) (c.detumbleTorque x.2) = .ok m ∧
    (q 0, w 0) = x ∧ (q h, w h) = y ∧
    ∀ t ∈ Icc 0 h, TurnsAt c.sat.totalMoment q w m (sandwich (q t) B) t

/-- Attitude and rate at the samples of a run. -/
def Spec.HeldRun (c : MagController) (B : V3) (h : ℝ) (x : ℕ → V4 × V3) : Prop :=
  npNorm (x 0).1 = 1 ∧ ∀ n, Spec.HeldStep c B h (x n) (x (n + 1))

/-- The angular momentum across the field, in body coordinates. -/
noncomputable def Spec.acrossField (c : MagController) (b : V3) (x : V4 × V3) : V3 :=
  Spec.across (sandwich x.1 b) (c.sat.totalMoment *ᵥ x.2)

/-! ## Mean values in the Euclidean norm -/

theorem mono_Icc {f f' : ℝ → ℝ} {a b : ℝ} (hab : a ≤ b) (h : ∀ t ∈ Icc a b, HasDerivAt f (f' t) t)
    (h0 : ∀ t ∈ Icc a b, 0 ≤ f' t) : f a ≤ f b := by
  have : MonotoneOn f (Icc a b) := by
    refine monotoneOn_of_deriv_nonneg (convex_Icc a b) (fun t ht => (h t ht).continuousAt.continuousWithinAt)
      (fun t ht => (h t (interior_subset ht)).differentiableAt.differentiableWithinAt) fun t ht => ?_
    rw [(h t (interior_subset ht)).deriv]
    exact h0 t (interior_subset ht)
  exact this (left_mem_Icc.2 hab) (right_mem_Icc.2 hab) hab

theorem euclid_le {X X' : ℝ → V3} {g g' : ℝ → ℝ} {a b : ℝ} (hab : a ≤ b)
    (hX : ∀ t ∈ Icc a b, HasDerivAt X (X' t) t) (hg : ∀ t ∈ Icc a b, HasDerivAt g (g' t) t)
    (hle : ∀ t ∈ Icc a b, npNorm (X' t) ≤ g' t) : npNorm (X b - X a) ≤ g b - g a := by
  have hgm := mono_Icc hab hg fun t ht => (npNorm_nonneg _).trans (hle t ht)
  set u := X b - X a with hu
  have hd : ∀ t ∈ Icc a b, HasDerivAt (fun τ => npNorm u * g τ - u ⬝ᵥ X τ) (npNorm u * g' t - u ⬝ᵥ X' t) t := by
    intro t ht
    have h1 := hasDerivAt_dot3 (hasDerivAt_const t u) (hX t ht)
    rw [zero_dotProduct, zero_add] at h1
    exact ((hg t ht).const_mul _).sub h1
  have key := mono_Icc hab hd fun t ht => by
    have h1 := (abs_le.1 (dot_bound u (X' t))).2
    have h2 := mul_le_mul_of_nonneg_left (hle t ht) (npNorm_nonneg u)
    linarith
  have e : u ⬝ᵥ X b - u ⬝ᵥ X a = npNorm u ^ 2 := by
    rw [← dotProduct_sub, ← hu, npNorm_sq_dot, npDot_eq_dotProduct]
  rcases (npNorm_nonneg u).lt_or_eq with hp | hz
  · refine le_of_mul_le_mul_left ?_ hp
    nlinarith
  · rw [← hz]
    linarith

theorem across_le {e : V3} (he : npNorm e = 1) (v : V3) : npNorm (Spec.across e v) ≤ npNorm v := by
  refine le_of_sq_le_sq ?_ (npNorm_nonneg _)
  have h1 := unit3_dot he
  rw [npNorm_sq_dot, npNorm_sq_dot, npDot_eq_dotProduct, npDot_eq_dotProduct, Spec.across, sub_dotProduct,
    dotProduct_sub, dotProduct_sub, smul_dotProduct, dotProduct_smul, smul_dotProduct, dotProduct_smul, h1,
    dotProduct_comm e v]
  simp only [smul_eq_mul]
  nlinarith [sq_nonneg (v ⬝ᵥ e)]

theorem across_sq {e : V3} (he : npNorm e = 1) (v : V3) :
    npNorm v ^ 2 = (v ⬝ᵥ e) ^ 2 + npNorm (Spec.across e v) ^ 2 := by
  have h1 := unit3_dot he
  rw [npNorm_sq_dot, npNorm_sq_dot, npDot_eq_dotProduct, npDot_eq_dotProduct, Spec.across, sub_dotProduct,
    dotProduct_sub, dotProduct_sub, smul_dotProduct, dotProduct_smul, smul_dotProduct, dotProduct_smul, h1,
    dotProduct_comm e v]
  simp only [smul_eq_mul]
  ring

theorem across_add (e u v : V3) : Spec.across e (u + v) = Spec.across e u + Spec.across e v := by
  unfold Spec.across
  rw [add_dotProduct]
  module

theorem across_smul (e : V3) (k : ℝ) (v : V3) : Spec.across e (k • v) = k • Spec.across e v := by
  unfold Spec.across
  rw [smul_dotProduct, smul_eq_mul]
  module

theorem across_twice {e : V3} (he : npNorm e = 1) (v : V3) : Spec.across e (Spec.across e v) = Spec.across e v := by
  have := across_dot he v
  rw [Spec.across, this, zero_smul, sub_zero]

/-- Body and inertial coordinates. -/
theorem across_body {q : V4} (hq : npNorm q = 1) (b v : V3) :
    v ⬝ᵥ sandwich q b = sandwichOpp q v ⬝ᵥ b ∧
    npNorm (Spec.across (sandwich q b) v) = npNorm (Spec.across b (sandwichOpp q v)) := by
  have e1 : v ⬝ᵥ sandwich q b = sandwichOpp q v ⬝ᵥ b := by
    have := (C06_sandwich_preserves q hq (sandwichOpp q v) b).1
    rwa [(C07_sandwich_opp q hq v).2] at this
  refine ⟨e1, ?_⟩
  have e2 : sandwichOpp q (Spec.across (sandwich q b) v) = Spec.across b (sandwichOpp q v) := by
    unfold Spec.across
    rw [opp_sub, opp_smul, (C07_sandwich_opp q hq b).1, e1]
  rw [← e2, opp_norm hq]

/-- The kinematics keep the norm of the quaternion. -/
theorem kinematic_norm {q : ℝ → V4} {w : ℝ → V3} {h : ℝ}
    (hq : ∀ t ∈ Icc 0 h, HasDerivAt q ((0.5 : ℝ) • product (q t) ![0, w t 0, w t 1, w t 2]) t)
    (h0 : npNorm (q 0) = 1) : ∀ t ∈ Icc 0 h, npNorm (q t) = 1 := by
  intro t ht
  have hd : ∀ s ∈ Icc 0 t, HasDerivAt (fun τ => q τ 0 ^ 2 + q τ 1 ^ 2 + q τ 2 ^ 2 + q τ 3 ^ 2) 0 s := by
    intro s hs
    have hc := hasDerivAt_pi.1 (hq s ⟨hs.1, hs.2.trans ht.2⟩)
    refine (((((hc 0).fun_pow 2).fun_add ((hc 1).fun_pow 2)).fun_add ((hc 2).fun_pow 2)).fun_add
      ((hc 3).fun_pow 2)).congr_deriv ?_
    simp only [Pi.smul_apply, smul_eq_mul, product_0, product_1, product_2, product_3, Matrix.cons_val_zero,
      Matrix.cons_val_one, cons4_2, cons4_3]
    ring
  have h1 := mono_Icc ht.1 hd fun _ _ => le_rfl
  have h2 := mono_Icc (f := fun τ => -(q τ 0 ^ 2 + q τ 1 ^ 2 + q τ 2 ^ 2 + q τ 3 ^ 2)) ht.1
    (fun s hs => (hd s hs).fun_neg) fun _ _ => by rw [neg_zero]
  rw [← isUnit4_iff] at h0 ⊢
  unfold IsUnit4 at h0 ⊢
  linarith

/-! ## One sample -/

/-- From one sample to the next the momentum along the field stays and that across it is reduced, if the satellite
turns by less than two radians between the samples. -/
theorem held_step {c : MagController} {β h lam ρ : ℝ} {b : V3} (hb : npNorm b = 1) (hβ : β ≠ 0) (hlam : 0 < lam)
    (hJ : ∀ v, lam * npNorm v ≤ npNorm (c.sat.totalMoment *ᵥ v)) (h0 : 0 ≤ h) (hk : kBbq * h ≤ 1) {x y : V4 × V3}
    (hq : npNorm x.1 = 1) (hw : (1 + kBbq * h) * npNorm (c.sat.totalMoment *ᵥ x.2) * h ≤ 2 * ρ * lam)
    (H : Spec.HeldStep c (β • b) h x y) :
    npNorm y.1 = 1 ∧
    (c.sat.totalMoment *ᵥ y.2) ⬝ᵥ sandwich y.1 b = (c.sat.totalMoment *ᵥ x.2) ⬝ᵥ sandwich x.1 b ∧
    npNorm (Spec.acrossField c b y) ≤ (1 - kBbq * h * (1 - ρ)) * npNorm (Spec.acrossField c b x) := by
  obtain ⟨m, q, w, hm, hx, hy, ht⟩ := H
  have hx1 : q 0 = x.1 := by rw [← hx]
  have hx2 : w 0 = x.2 := by rw [← hx]
  have hy1 : q h = y.1 := by rw [← hy]
  have hy2 : w h = y.2 := by rw [← hy]
  set J := c.sat.totalMoment with hJd
  have k0 := kBbq_pos
  have hq' : ∀ t ∈ Icc 0 h, npNorm (q t) = 1 := kinematic_norm (fun t s => (ht t s).attitude) (by rw [hx1, hq])
  have z0 : (0 : ℝ) ∈ Icc 0 h := left_mem_Icc.2 h0
  have zh : h ∈ Icc 0 h := right_mem_Icc.2 h0
  set P : ℝ → V3 := fun t => sandwichOpp (q t) (J *ᵥ w t) with hP
  set M : ℝ → V3 := fun t => sandwichOpp (q t) m with hM
  have sm : ∀ t, sandwich (q t) (β • b) = β • sandwich (q t) b := fun t => by
    rw [sandwich_eq_dcm, sandwich_eq_dcm, Matrix.mulVec_smul]
  have dP : ∀ t ∈ Icc 0 h, HasDerivAt P (M t ⨯₃ (β • b)) t := by
    intro t s
    refine (hasDerivAt_outside (ht t s).attitude (ht t s).momentum).congr_deriv ?_
    rw [sub_add_cancel, opp_cross (hq' t s), (C07_sandwich_opp (q t) (hq' t s) _).1]
  have dM : ∀ t ∈ Icc 0 h, HasDerivAt M (sandwichOpp (q t) (w t ⨯₃ m)) t := by
    intro t s
    refine (hasDerivAt_outside (ht t s).attitude (hasDerivAt_const t m)).congr_deriv ?_
    rw [zero_add]
  have nM : ∀ t ∈ Icc 0 h, npNorm (M t) = npNorm m := fun t s => opp_norm (hq' t s) m
  have nP : ∀ t ∈ Icc 0 h, npNorm (P t) = npNorm (J *ᵥ w t) := fun t s => opp_norm (hq' t s) _
  -- the moment
  have hBne : sandwich x.1 (β • b) ≠ 0 := by
    intro h
    have := (C06_sandwich_preserves x.1 hq (β • b) (β • b)).2.1
    rw [h, npNorm_eq_zero.2 rfl, npNorm_smul, hb, mul_one] at this
    exact hβ (abs_eq_zero.1 this.symm)
  set Pp := Spec.across b (P 0) with hPp
  obtain ⟨m', hm', hdot, hcr⟩ := C65_moment (sandwich x.1 (β • b)) (c.detumbleTorque x.2) hBne
  have hmm : m' = m := Except.ok.inj (hm'.symm.trans hm)
  subst hmm
  have M0 : M 0 ⨯₃ (β • b) = -kBbq • Pp := by
    have e := congrArg (sandwichOpp x.1) hcr
    rw [opp_cross hq, (C07_sandwich_opp x.1 hq _).1, opp_sub, opp_smul, (C07_sandwich_opp x.1 hq _).1] at e
    have hM0 : M 0 = sandwichOpp x.1 m' := by simp only [hM, hx1]
    have hP0 : P 0 = sandwichOpp x.1 (J *ᵥ x.2) := by simp only [hP, hx1, hx2]
    rw [hM0, e]
    have hT : c.detumbleTorque x.2 = -kBbq • (J *ᵥ x.2) := rfl
    have hss := (C06_sandwich_preserves x.1 hq (β • b) (β • b)).1
    have hd : sandwich x.1 (β • b) ⬝ᵥ (J *ᵥ x.2) = β * (P 0 ⬝ᵥ b) := by
      rw [dotProduct_comm, (across_body hq (β • b) _).1, ← hP0, dotProduct_smul, smul_eq_mul]
    rw [hT, opp_smul, ← hP0, dotProduct_smul, hss, hd, smul_dotProduct, dotProduct_smul, unit3_dot hb, hPp,
      Spec.across]
    simp only [smul_eq_mul, mul_one]
    have : -kBbq * (β * (P 0 ⬝ᵥ b)) / (β * β) * β = -kBbq * (P 0 ⬝ᵥ b) := by field_simp
    rw [smul_smul, this]
    module
  set N := kBbq * npNorm Pp with hN
  have hNm : npNorm m' * |β| = N := by
    have e1 : (npNorm (M 0) * |β|) ^ 2 = N ^ 2 := by
      have g : npNorm (M 0 ⨯₃ (β • b)) ^ 2 + (M 0 ⬝ᵥ (β • b)) ^ 2 = npNorm (M 0) ^ 2 * npNorm (β • b) ^ 2 := by
        rw [← npCross_eq_crossProduct]
        simp only [npNorm3_sq, npCross_0, npCross_1, npCross_2, Matrix.vec3_dotProduct]
        ring
      have g2 : M 0 ⬝ᵥ (β • b) = 0 := by
        simp only [hM, hx1]
        rw [← (across_body hq (β • b) m').1, dotProduct_comm]
        exact hdot
      rw [M0, g2, npNorm_smul, npNorm_smul, hb, abs_neg, abs_of_pos k0] at g
      rw [mul_pow, hN]
      linarith
    rw [nM 0 z0] at e1
    have p1 : 0 ≤ npNorm m' * |β| := mul_nonneg (npNorm_nonneg _) (abs_nonneg _)
    have p2 : 0 ≤ N := mul_nonneg k0.le (npNorm_nonneg _)
    exact (sq_eq_sq₀ p1 p2).1 e1
  have hN0 : 0 ≤ N := mul_nonneg k0.le (npNorm_nonneg _)
  have crb : ∀ u : V3, npNorm (u ⨯₃ (β • b)) ≤ npNorm u * |β| := by
    intro u
    have := cross_norm_le u (β • b)
    rwa [npCross_eq_crossProduct, npNorm_smul, hb, mul_one] at this
  -- the momentum stays near
  have s1 : ∀ t ∈ Icc 0 h, npNorm (P t - P 0) ≤ N * t := by
    intro t s
    have := euclid_le (X := P) (g := fun τ => N * τ) (g' := fun _ => N) s.1
      (fun τ hτ => dP τ ⟨hτ.1, hτ.2.trans s.2⟩) (fun τ _ => by simpa using (hasDerivAt_id τ).const_mul N)
      (fun τ hτ => by
        refine (crb _).trans ?_
        rw [nM τ ⟨hτ.1, hτ.2.trans s.2⟩, hNm])
    simpa using this
  set L := (1 + kBbq * h) * npNorm (J *ᵥ x.2) with hL
  have hP0n : npNorm (P 0) = npNorm (J *ᵥ x.2) := by rw [nP 0 z0, hx2]
  have hL0 : 0 ≤ L := mul_nonneg (by positivity) (npNorm_nonneg _)
  have s2 : ∀ t ∈ Icc 0 h, lam * npNorm (w t) ≤ L := by
    intro t s
    refine (hJ (w t)).trans ?_
    rw [← nP t s]
    have e1 := npNorm_add3 (P t - P 0) (P 0)
    rw [sub_add_cancel] at e1
    have e2 := s1 t s
    have e3 : npNorm Pp ≤ npNorm (P 0) := across_le hb _
    have e4 : N * t ≤ kBbq * npNorm (P 0) * h := by
      rw [hN]
      have := mul_nonneg k0.le (npNorm_nonneg (P 0))
      exact mul_le_mul (mul_le_mul_of_nonneg_left e3 k0.le) s.2 s.1 this
    rw [hL, ← hP0n]
    linarith
  -- the moment turns little
  set Ω := L / lam with hΩ
  have hΩ0 : 0 ≤ Ω := div_nonneg hL0 hlam.le
  have s3 : ∀ t ∈ Icc 0 h, npNorm (M t - M 0) * |β| ≤ Ω * N * t := by
    intro t s
    have := euclid_le (X := M) (g := fun τ => Ω * npNorm m' * τ) (g' := fun _ => Ω * npNorm m') s.1
      (fun τ hτ => dM τ ⟨hτ.1, hτ.2.trans s.2⟩)
      (fun τ _ => by simpa using (hasDerivAt_id τ).const_mul (Ω * npNorm m'))
      (fun τ hτ => by
        have hτ' : τ ∈ Icc 0 h := ⟨hτ.1, hτ.2.trans s.2⟩
        rw [opp_norm (hq' τ hτ'), ← npCross_eq_crossProduct]
        refine (cross_norm_le _ _).trans (mul_le_mul_of_nonneg_right ?_ (npNorm_nonneg _))
        rw [hΩ, le_div_iff₀ hlam]
        linarith [s2 τ hτ'])
    simp only [mul_zero, sub_zero] at this
    have h2 := mul_le_mul_of_nonneg_right this (abs_nonneg β)
    calc _ ≤ _ := h2
      _ = Ω * (npNorm m' * |β|) * t := by ring
      _ = _ := by rw [hNm]
  -- the momentum at the end
  have s4 : npNorm (P h - P 0 + (h * kBbq) • Pp) ≤ Ω * N * (h ^ 2 / 2) := by
    have := euclid_le (X := fun τ => P τ - τ • (M 0 ⨯₃ (β • b))) (X' := fun τ => (M τ - M 0) ⨯₃ (β • b))
      (g := fun τ => Ω * N * (τ ^ 2 / 2)) (g' := fun τ => Ω * N * τ) h0
      (fun τ hτ => by
        refine ((dP τ hτ).sub ((hasDerivAt_id τ).smul_const (M 0 ⨯₃ (β • b)))).congr_deriv ?_
        rw [one_smul, map_sub, LinearMap.sub_apply])
      (fun τ _ => by
        refine ((((hasDerivAt_id τ).fun_pow 2).div_const 2).const_mul (Ω * N)).congr_deriv ?_
        simp)
      (fun τ hτ => (crb _).trans (s3 τ hτ))
    have e : (fun τ => P τ - τ • (M 0 ⨯₃ (β • b))) h - (fun τ => P τ - τ • (M 0 ⨯₃ (β • b))) 0 =
        P h - P 0 + (h * kBbq) • Pp := by
      simp only [M0]
      module
    rw [e] at this
    simpa using this
  have hP0 : P 0 = sandwichOpp x.1 (J *ᵥ x.2) := by simp only [hP, hx1, hx2]
  have hPh : P h = sandwichOpp y.1 (J *ᵥ y.2) := by simp only [hP, hy1, hy2]
  have hqy : npNorm y.1 = 1 := by rw [← hy1]; exact hq' h zh
  refine ⟨hqy, ?_, ?_⟩
  · rw [(across_body hqy b _).1, (across_body hq b _).1, ← hP0, ← hPh]
    have hd : ∀ s ∈ Icc 0 h, HasDerivAt (fun τ => b ⬝ᵥ P τ) 0 s := by
      intro s hs
      refine (hasDerivAt_dot3 (hasDerivAt_const s b) (dP s hs)).congr_deriv ?_
      rw [zero_dotProduct, zero_add, map_smul, dotProduct_smul, dot_cross_self, smul_zero]
    have h1 := mono_Icc h0 hd fun _ _ => le_rfl
    have h2 := mono_Icc (f := fun τ => -(b ⬝ᵥ P τ)) h0 (fun s hs => (hd s hs).fun_neg) fun _ _ => by rw [neg_zero]
    rw [dotProduct_comm (P h), dotProduct_comm (P 0)]
    linarith
  · unfold Spec.acrossField
    rw [(across_body hqy b _).2, (across_body hq b _).2, ← hP0, ← hPh]
    have e : Spec.across b (P h) = (1 - h * kBbq) • Pp + Spec.across b (P h - P 0 + (h * kBbq) • Pp) := by
      have e1 : P h = P 0 + (-(h * kBbq)) • Pp + (P h - P 0 + (h * kBbq) • Pp) := by module
      conv_lhs => rw [e1]
      rw [across_add, across_add, across_smul, hPp, across_twice hb]
      module
    rw [e]
    refine (npNorm_add3 _ _).trans ?_
    have e2 := (across_le hb (P h - P 0 + (h * kBbq) • Pp)).trans s4
    rw [npNorm_smul, abs_of_nonneg (by linarith)]
    have e3 : Ω * h ≤ 2 * ρ := by
      rw [hΩ, div_mul_eq_mul_div, div_le_iff₀ hlam]
      exact hw
    have e4 : Ω * N * (h ^ 2 / 2) ≤ ρ * (kBbq * h) * npNorm Pp := by
      have := mul_le_mul_of_nonneg_right e3 (mul_nonneg hN0 h0)
      rw [hN] at this ⊢
      nlinarith
    calc _ ≤ (1 - h * kBbq) * npNorm Pp + ρ * (kBbq * h) * npNorm Pp := by linarith
      _ = _ := by ring

/-! ## The claim, and runs for which it holds -/

/-- The claim: with the moments that `detumble` asks for at each sample, held for the time between the samples, the
angular momentum across a constant field dies out. -/
def C201_claim : Prop :=
  ∀ (model : CtlModel) (h3 : model.sat.nMt = 3) (mass : ℝ) (dims : V3) (ab cd : ℝ),
    Built model.sat mass dims ab cd → model.sat.totalMoment.PosDef →
    ∀ (c : MagController), MagController.init model h3 false = .ok c →
    ∀ (b : V3) (β h : ℝ) (x : ℕ → V4 × V3), npNorm b = 1 → β ≠ 0 → 0 < h → Spec.HeldRun c (β • b) h x →
      Tendsto (fun n => npNorm (Spec.acrossField c b (x n))) atTop (𝓝 0)

/-- What holds: a satellite whose rate times the period is less than two radians at the start (`ρ < 1`) loses in each
period at least the part `k h (1 - ρ)` of the momentum across the field. Here `lam` is a lower bound of the moments of
inertia, so that the rate is at most the momentum over `lam`. Missing: faster satellites and slower samples. -/
theorem C201_slow_partial {c : MagController} {β h lam ρ : ℝ} {b : V3} (hb : npNorm b = 1) (hβ : β ≠ 0)
    (hlam : 0 < lam) (hJ : ∀ v, lam * npNorm v ≤ npNorm (c.sat.totalMoment *ᵥ v)) (h0 : 0 ≤ h) (hk : kBbq * h ≤ 1)
    (hρ1 : ρ ≤ 1) {x : ℕ → V4 × V3} (hx : Spec.HeldRun c (β • b) h x)
    (hw : (1 + kBbq * h) * npNorm (c.sat.totalMoment *ᵥ (x 0).2) * h ≤ 2 * ρ * lam) (n : ℕ) :
    npNorm (x n).1 = 1 ∧
    (c.sat.totalMoment *ᵥ (x n).2) ⬝ᵥ sandwich (x n).1 b = (c.sat.totalMoment *ᵥ (x 0).2) ⬝ᵥ sandwich (x 0).1 b ∧
    npNorm (Spec.acrossField c b (x n)) ≤
      (1 - kBbq * h * (1 - ρ)) ^ n * npNorm (Spec.acrossField c b (x 0)) := by
  have k0 := kBbq_pos
  have hρ0 : 0 ≤ ρ := by
    have : 0 ≤ (1 + kBbq * h) * npNorm (c.sat.totalMoment *ᵥ (x 0).2) * h :=
      mul_nonneg (mul_nonneg (by positivity) (npNorm_nonneg _)) h0
    nlinarith
  have hkh : 0 ≤ kBbq * h := mul_nonneg k0.le h0
  have f0 : 0 ≤ 1 - kBbq * h * (1 - ρ) := by nlinarith
  have f1 : 1 - kBbq * h * (1 - ρ) ≤ 1 := by nlinarith
  induction n with
  | zero => exact ⟨hx.1, rfl, by simp⟩
  | succ n ih =>
    obtain ⟨i1, i2, i3⟩ := ih
    have un : ∀ k, npNorm (x k).1 = 1 → npNorm (sandwich (x k).1 b) = 1 := fun k hk =>
      ((C06_sandwich_preserves _ hk b b).2.1).trans hb
    have hle : npNorm (c.sat.totalMoment *ᵥ (x n).2) ≤ npNorm (c.sat.totalMoment *ᵥ (x 0).2) := by
      refine le_of_sq_le_sq ?_ (npNorm_nonneg _)
      rw [across_sq (un n i1) (c.sat.totalMoment *ᵥ (x n).2), across_sq (un 0 hx.1) (c.sat.totalMoment *ᵥ (x 0).2), i2]
      have : npNorm (Spec.acrossField c b (x n)) ≤ npNorm (Spec.acrossField c b (x 0)) := by
        refine i3.trans (mul_le_of_le_one_left (npNorm_nonneg _) (pow_le_one₀ f0 f1))
      have := pow_le_pow_left₀ (npNorm_nonneg _) this 2
      unfold Spec.acrossField at this
      linarith
    have hw' : (1 + kBbq * h) * npNorm (c.sat.totalMoment *ᵥ (x n).2) * h ≤ 2 * ρ * lam := by
      refine le_trans ?_ hw
      exact mul_le_mul_of_nonneg_right (mul_le_mul_of_nonneg_left hle (by positivity)) h0
    obtain ⟨j1, j2, j3⟩ := held_step hb hβ hlam hJ h0 hk i1 hw' (hx.2 n)
    refine ⟨j1, j2.trans i2, j3.trans ?_⟩
    rw [pow_succ']
    have := mul_le_mul_of_nonneg_left i3 f0
    linarith

theorem inertia_lower {sat : Satellite} {mass : ℝ} {dims : V3} {ab cd : ℝ} (hb : Built sat mass dims ab cd) :
    ∃ lam > 0, ∀ v, lam * npNorm v ≤ npNorm (sat.totalMoment *ᵥ v) := by
  obtain ⟨C, hC0, hC⟩ := mulVec_le' sat.invTotMoment
  refine ⟨1 / (2 * (C + 1)), by positivity, fun v => ?_⟩
  have h1 := hC (sat.totalMoment *ᵥ v)
  rw [hb.cancel] at h1
  have h2 : ‖sat.totalMoment *ᵥ v‖ ≤ npNorm (sat.totalMoment *ᵥ v) := by
    rw [pi_norm_le_iff_of_nonneg (npNorm_nonneg _)]
    exact fun i => abs_le_npNorm _ i
  have h3 : npNorm v ≤ 2 * ‖v‖ := by
    refine le_of_sq_le_sq ?_ (by positivity)
    rw [npNorm3_sq]
    have g : ∀ i, v i ^ 2 ≤ ‖v‖ ^ 2 := fun i => by
      rw [← sq_abs (v i)]
      exact pow_le_pow_left₀ (abs_nonneg _) (norm_le_pi_norm v i) 2
    nlinarith [g 0, g 1, g 2]
  rw [one_div, inv_mul_le_iff₀ (by positivity)]
  have h4 := mul_le_mul_of_nonneg_left h2 hC0
  have h5 := npNorm_nonneg (sat.totalMoment *ᵥ v)
  nlinarith

/-- Whatever the satellite and the momentum it starts with, samples that follow each other fast enough detumble it: the
momentum across the field dies out, that along the field stays. -/
theorem C201_fast_partial {c : MagController} {mass : ℝ} {dims : V3} {ab cd : ℝ} (hb : Built c.sat mass dims ab cd)
    (R : ℝ) : ∃ h0 > 0, ∀ h, 0 < h → h ≤ h0 → ∀ (b : V3) (β : ℝ) (x : ℕ → V4 × V3), npNorm b = 1 → β ≠ 0 →
      Spec.HeldRun c (β • b) h x → npNorm (c.sat.totalMoment *ᵥ (x 0).2) ≤ R →
      Tendsto (fun n => npNorm (Spec.acrossField c b (x n))) atTop (𝓝 0) ∧
      ∀ n, (c.sat.totalMoment *ᵥ (x n).2) ⬝ᵥ sandwich (x n).1 b =
        (c.sat.totalMoment *ᵥ (x 0).2) ⬝ᵥ sandwich (x 0).1 b := by
  obtain ⟨lam, hlam, hJ⟩ := inertia_lower hb
  have k0 := kBbq_pos
  set Q := max R 0 with hQ
  have hQ0 : 0 ≤ Q := le_max_right _ _
  refine ⟨min (1 / kBbq) (lam / (2 * (Q + 1))), by positivity, fun h hh hle b β x hbn hβ hx hR => ?_⟩
  have hk : kBbq * h ≤ 1 := by
    have := hle.trans (min_le_left _ _)
    rw [le_div_iff₀ k0] at this
    linarith
  have hw : (1 + kBbq * h) * npNorm (c.sat.totalMoment *ᵥ (x 0).2) * h ≤ 2 * (1 / 2) * lam := by
    have h1 := hle.trans (min_le_right _ _)
    rw [le_div_iff₀ (by positivity)] at h1
    have h2 : npNorm (c.sat.totalMoment *ᵥ (x 0).2) ≤ Q := hR.trans (le_max_left _ _)
    have h3 : (1 + kBbq * h) * npNorm (c.sat.totalMoment *ᵥ (x 0).2) ≤ 2 * Q :=
      mul_le_mul (by linarith) h2 (npNorm_nonneg _) (by norm_num)
    have h4 := mul_le_mul_of_nonneg_right h3 hh.le
    nlinarith
  have key := fun n => C201_slow_partial hbn hβ hlam hJ hh.le hk (ρ := 1 / 2) (by norm_num) hx hw n
  refine ⟨?_, fun n => (key n).2.1⟩
  have hkh : 0 < kBbq * h := mul_pos k0 hh
  refine squeeze_zero (fun _ => npNorm_nonneg _) (fun n => (key n).2.2) ?_
  have := tendsto_pow_atTop_nhds_zero_of_lt_one (r := 1 - kBbq * h * (1 - 1 / 2)) (by linarith) (by linarith)
  simpa using this.mul_const (npNorm (Spec.acrossField c b (x 0)))

/-! ## There is one next sample, and only one -/

theorem flow_unique_Icc {E : Type} [NormedAddCommGroup E] [NormedSpace ℝ E] [FiniteDimensional ℝ E] {F : E → E}
    (hF : ContDiff ℝ 1 F) {y z : ℝ → E} {S : ℝ} (hS : 0 ≤ S) (hy : ∀ t ∈ Icc 0 S, HasDerivAt y (F (y t)) t)
    (hz : ∀ t ∈ Icc 0 S, HasDerivAt z (F (z t)) t) (h0 : y 0 = z 0) : y S = z S := by
  have yc : ContinuousOn y (Icc 0 S) := fun t ht => (hy t ht).continuousAt.continuousWithinAt
  have zc : ContinuousOn z (Icc 0 S) := fun t ht => (hz t ht).continuousAt.continuousWithinAt
  obtain ⟨R, hR⟩ := isCompact_Icc.exists_bound_of_continuousOn yc
  obtain ⟨M, hM⟩ := isCompact_Icc.exists_bound_of_continuousOn zc
  set Q := max R M
  obtain ⟨K, hK⟩ := hF.contDiffOn (s := Metric.closedBall (0 : E) Q) |>.exists_lipschitzOnWith one_ne_zero
    (convex_closedBall _ _) (isCompact_closedBall _ _)
  have hd : dist (y S) (z S) ≤ dist (y 0) (z 0) * Real.exp (K * (S - 0)) := by
    refine dist_le_of_trajectories_ODE_of_mem (v := fun _ => F) (s := fun _ => Metric.closedBall (0 : E) Q)
      (fun _ _ => hK) yc (fun t ht => (hy t ⟨ht.1, ht.2.le⟩).hasDerivWithinAt) ?_ zc
      (fun t ht => (hz t ⟨ht.1, ht.2.le⟩).hasDerivWithinAt) ?_ le_rfl S (right_mem_Icc.2 hS)
    · intro t ht
      rw [mem_closedBall_zero_iff]
      exact (hR t ⟨ht.1, ht.2.le⟩).trans (le_max_left _ _)
    · intro t ht
      rw [mem_closedBall_zero_iff]
      exact (hM t ⟨ht.1, ht.2.le⟩).trans (le_max_right _ _)
  rw [h0, dist_self, zero_mul] at hd
  exact dist_le_zero.1 hd

/-- The torque of a moment that is fixed in the body. -/
noncomputable def heldPull (m B : V3) (p : Turn) : V3 := m ⨯₃ sandwich p.2.1 B

theorem contDiff_heldPull (m B : V3) : ContDiff ℝ 1 (heldPull m B) :=
  contDiff_cross3 contDiff_const (contDiff_sandwich3 (contDiff_fst.comp contDiff_snd) contDiff_const)

theorem heldPull_bound (m B : V3) (p : Turn) (hq : npNorm p.2.1 = 1) :
    |p.2.2 ⬝ᵥ heldPull m B p| ≤ npNorm m * npNorm B * (1 + npNorm p.2.2 ^ 2) := by
  have h1 := dot_bound p.2.2 (heldPull m B p)
  have h2 := cross_norm_le m (sandwich p.2.1 B)
  rw [npCross_eq_crossProduct, (C06_sandwich_preserves p.2.1 hq B B).2.1] at h2
  have h3 := mul_le_mul_of_nonneg_left h2 (npNorm_nonneg p.2.2)
  have h4 : npNorm p.2.2 ≤ 1 + npNorm p.2.2 ^ 2 := by nlinarith [sq_nonneg (npNorm p.2.2 - 1), npNorm_nonneg p.2.2]
  have h5 : 0 ≤ npNorm m * npNorm B := mul_nonneg (npNorm_nonneg _) (npNorm_nonneg _)
  have h6 := mul_le_mul_of_nonneg_right h4 h5
  change npNorm p.2.2 * npNorm (heldPull m B p) ≤ _ at h3
  linarith

theorem held_flow {c : MagController} {mass : ℝ} {dims : V3} {ab cd : ℝ} (hb : Built c.sat mass dims ab cd) {m B : V3}
    {q : ℝ → V4} {w : ℝ → V3} {t : ℝ} (h : TurnsAt c.sat.totalMoment q w m (sandwich (q t) B) t) :
    HasDerivAt (fun t => (t, q t, c.sat.totalMoment *ᵥ w t))
      (turnField c.sat.invTotMoment (heldPull m B) (t, q t, c.sat.totalMoment *ᵥ w t)) t := by
  refine HasDerivAt.prodMk (hasDerivAt_id t) (HasDerivAt.prodMk ?_ ?_)
  · simp only [hb.cancel]
    exact h.attitude
  · simp only [hb.cancel]
    exact h.momentum

/-- C201: from every attitude and rate there is a next sample, and only one. -/
theorem C201_step {c : MagController} {mass : ℝ} {dims : V3} {ab cd : ℝ} (hb : Built c.sat mass dims ab cd) {B : V3}
    (hB : B ≠ 0) {h : ℝ} (hh : 0 ≤ h) {x : V4 × V3} (hx : npNorm x.1 = 1) : ∃! y, Spec.HeldStep c B h x y := by
  have hs : sandwich x.1 B ≠ 0 := by
    intro e
    have := (C06_sandwich_preserves x.1 hx B B).2.1
    rw [e, npNorm_eq_zero.2 rfl] at this
    exact hB (npNorm_eq_zero.1 this.symm)
  obtain ⟨m, hm, -⟩ := C65_moment (sandwich x.1 B) (c.detumbleTorque x.2) hs
  have hJ : ∀ v, c.sat.totalMoment *ᵥ (c.sat.invTotMoment *ᵥ v) = v := fun v => by
    rw [Matrix.mulVec_mulVec, hb.inverse, Matrix.one_mulVec]
  obtain ⟨y, h0, hy⟩ := turn_forever (Ji := c.sat.invTotMoment) (contDiff_heldPull m B)
    (fun τ => ⟨_, fun p _ hp => heldPull_bound m B p hp⟩) hx (c.sat.totalMoment *ᵥ x.2)
  refine ⟨((y h).2.1, c.sat.invTotMoment *ᵥ (y h).2.2), ⟨m, fun t => (y t).2.1,
    fun t => c.sat.invTotMoment *ᵥ (y t).2.2, hm, ?_, rfl, fun t _ => ⟨(hy t).1.snd.fst, ?_⟩⟩, ?_⟩
  · simp only [h0, hb.cancel]
  · simp only [hJ]
    exact (hy t).1.snd.snd
  · rintro y' ⟨m', q, w, hm', e0, eh, ht⟩
    have hmm : m' = m := Except.ok.inj (hm'.symm.trans hm)
    subst hmm
    have hx1 : q 0 = x.1 := by rw [← e0]
    have hx2 : w 0 = x.2 := by rw [← e0]
    have key := flow_unique_Icc (contDiff_turnField c.sat.invTotMoment (contDiff_heldPull m' B)) hh
      (y := fun t => (t, q t, c.sat.totalMoment *ᵥ w t)) (z := y) (fun t s => held_flow hb (ht t s))
      (fun t _ => (hy t).1) (by rw [h0, hx1, hx2])
    rw [← eh, ← key]
    simp only [hb.cancel]

/-- So there is a run from every attitude and rate. -/
theorem C201_exists {c : MagController} {mass : ℝ} {dims : V3} {ab cd : ℝ} (hb : Built c.sat mass dims ab cd) {B : V3}
    (hB : B ≠ 0) {h : ℝ} (hh : 0 ≤ h) {x0 : V4 × V3} (hx : npNorm x0.1 = 1) :
    ∃ x, x 0 = x0 ∧ Spec.HeldRun c B h x := by
  have step : ∀ x : {x : V4 × V3 // npNorm x.1 = 1}, ∃ y : {x : V4 × V3 // npNorm x.1 = 1},
      Spec.HeldStep c B h x.1 y.1 := by
    rintro ⟨x, hx⟩
    obtain ⟨y, hy, -⟩ := C201_step hb hB hh hx
    refine ⟨⟨y, ?_⟩, hy⟩
    obtain ⟨m, q, w, -, e0, eh, ht⟩ := hy
    have := kinematic_norm (fun t s => (ht t s).attitude) (by rw [← hx, ← e0]) h (right_mem_Icc.2 hh)
    rw [← eh]
    exact this
  choose next hnext using step
  set X : ℕ → {x : V4 × V3 // npNorm x.1 = 1} := fun n => Nat.rec ⟨x0, hx⟩ (fun _ z => next z) n with hX
  exact ⟨fun n => (X n).1, rfl, hx, fun n => hnext (X n)⟩

/-! ## Satellites that turn too fast -/

/-- A satellite that spins across the field about a principal axis, from one sample to the next: a pendulum. -/
theorem held_pendulum {c : MagController} {D : V3} (hJ : c.sat.totalMoment = Matrix.diagonal D) {β ω : ℝ} (hβ : β ≠ 0)
    {θ : ℝ → ℝ} (hθ : ∀ t, HasDerivAt θ (√(turnSq kBbq ω (θ t))) t)
    (hr : ∀ t, HasDerivAt (fun τ => √(turnSq kBbq ω (θ τ))) (-(kBbq * ω * Real.cos (θ t))) t)
    (h0 : θ 0 = 0) (hω : 0 < ω) (n : ℕ) (h : ℝ) :
    Spec.HeldStep c (β • ![1, 0, 0]) h (zTurn (2 * Real.pi * n), ![0, 0, ω])
      (zTurn (2 * Real.pi * n + θ h), ![0, 0, √(turnSq kBbq ω (θ h))]) := by
  have hper : ∀ φ, Real.cos (2 * Real.pi * n + φ) = Real.cos φ ∧ Real.sin (2 * Real.pi * n + φ) = Real.sin φ := by
    intro φ
    have e : 2 * Real.pi * n + φ = φ + n * (2 * Real.pi) := by ring
    rw [e]
    exact ⟨Real.cos_add_nat_mul_two_pi φ n, Real.sin_add_nat_mul_two_pi φ n⟩
  have hv : β • (![1, 0, 0] : V3) = ![β, 0, 0] := by apply vec3_ext <;> simp
  have hB : ∀ φ, sandwich (zTurn (2 * Real.pi * n + φ)) (β • ![1, 0, 0]) = ![β * Real.cos φ, -(β * Real.sin φ), 0] := by
    intro φ
    rw [hv, zTurn_coords, (hper φ).1, (hper φ).2]
    apply vec3_ext <;> simp
  have hB0 : sandwich (zTurn (2 * Real.pi * n)) (β • ![1, 0, 0]) = ![β, 0, 0] := by
    have := hB 0
    rw [add_zero] at this
    rw [this]
    apply vec3_ext <;> simp
  have hne : (![β, 0, 0] : V3) ≠ 0 := by
    intro h
    exact hβ (by simpa using congrFun h 0)
  have h1 : √(turnSq kBbq ω (θ 0)) = ω := by
    rw [h0]
    unfold turnSq
    rw [Real.sin_zero, mul_zero, sub_zero, Real.sqrt_sq hω.le]
  refine ⟨![0, kBbq * D 2 * ω / β, 0], fun t => zTurn (2 * Real.pi * n + θ t), fun t => ![0, 0, √(turnSq kBbq ω (θ t))],
    ?_, ?_, rfl, fun t _ => ?_⟩
  · simp only
    rw [hB0, magMoment_ok hne]
    congr 1
    unfold MagController.detumbleTorque
    rw [hJ]
    apply vec3_ext <;>
      simp only [npCross_0, npCross_1, npCross_2, npDot3, Pi.smul_apply, smul_eq_mul, Matrix.mulVec_diagonal,
        Matrix.cons_val_zero, Matrix.cons_val_one, cons3_2]
    · simp
    · field_simp
      ring
    · simp
  · change (zTurn (2 * Real.pi * n + θ 0), (![0, 0, √(turnSq kBbq ω (θ 0))] : V3)) = _
    rw [h1, h0, add_zero]
  · rw [hJ]
    refine zTurn_turns (θ := fun τ => 2 * Real.pi * n + θ τ) (Ω := fun τ => √(turnSq kBbq ω (θ τ)))
      ((hθ t).const_add _) (hr t) ?_
    rw [hB]
    apply vec3_ext <;> simp only [cross_apply, Matrix.cons_val_zero, Matrix.cons_val_one, cons3_2]
    · simp
    · simp
    · field_simp
      ring

/-- For every time between samples of up to 400 seconds there is a rate at which a satellite that spins across the field
about a principal axis is not slowed at all: it turns round once between the samples, and each time the same moment is
asked for. -/
theorem C201_stalls {c : MagController} {D : V3} (hJ : c.sat.totalMoment = Matrix.diagonal D) {β : ℝ} (hβ : β ≠ 0)
    {h : ℝ} (h0 : 0 < h) (h1 : h ≤ 400) :
    ∃ ω, 2 * kBbq < ω ∧ ω * (ω - 2 * kBbq) * h ^ 2 ≤ (2 * Real.pi) ^ 2 ∧ (2 * Real.pi) ^ 2 ≤ ω * (ω + 2 * kBbq) * h ^ 2 ∧
      Spec.HeldRun c (β • ![1, 0, 0]) h fun n => (zTurn (2 * Real.pi * n), ![0, 0, ω]) := by
  have k0 := kBbq_pos
  obtain ⟨ω, hω, hT⟩ := turnTime_onto k0 h0 (by
    have : h * (4 * kBbq) ≤ 400 * (4 * kBbq) := mul_le_mul_of_nonneg_right h1 (by positivity)
    refine this.trans ?_
    unfold kBbq
    have := Real.pi_pos
    rw [show (400 : ℝ) * (4 * (1.72192143 * 4 * Real.pi / 5560.8)) = (400 * 4 * 1.72192143 * 4 / 5560.8) * Real.pi by ring]
    refine mul_le_mul_of_nonneg_right ?_ this.le
    norm_num)
  have hω0 : 0 < ω := by linarith
  obtain ⟨θ, e0, d1, d2, eT⟩ := pendulum k0 hω
  rw [hT] at eT
  obtain ⟨r1, r2⟩ := pendulum_range k0 hω e0 d1 h0.le
  rw [eT] at r1 r2
  have p1 : 0 ≤ ω * (ω - 2 * kBbq) := mul_nonneg hω0.le (by linarith)
  have p2 : 0 ≤ ω * (ω + 2 * kBbq) := mul_nonneg hω0.le (by linarith)
  refine ⟨ω, hω, ?_, ?_, zTurn_unit _, fun n => ?_⟩
  · have := pow_le_pow_left₀ (mul_nonneg (Real.sqrt_nonneg _) h0.le) r1 2
    rwa [mul_pow, Real.sq_sqrt p1] at this
  · have := pow_le_pow_left₀ (by positivity) r2 2
    rwa [mul_pow _ h, Real.sq_sqrt p2] at this
  · have := held_pendulum hJ hβ d1 d2 e0 hω0 n h
    have e1 : √(turnSq kBbq ω (θ h)) = ω := by
      rw [eT]
      unfold turnSq
      rw [Real.sin_two_pi, mul_zero, sub_zero, Real.sqrt_sq hω0.le]
    rw [e1, eT] at this
    have e2 : 2 * Real.pi * ((n + 1 : ℕ) : ℝ) = 2 * Real.pi * n + 2 * Real.pi := by push_cast; ring
    simp only [e2]
    exact this

/-- And one that turns by more than half a turn, but less than a whole one, between the samples is made to turn
faster. -/
theorem C201_faster {c : MagController} {mass : ℝ} {dims : V3} {ab cd : ℝ} (hb : Built c.sat mass dims ab cd) {D : V3}
    (hJ : c.sat.totalMoment = Matrix.diagonal D) {β : ℝ} (hβ : β ≠ 0) {h ω : ℝ} (h0 : 0 < h) (hω : 2 * kBbq < ω)
    (h1 : Real.pi < √(ω * (ω - 2 * kBbq)) * h) (h2 : √(ω * (ω + 2 * kBbq)) * h < 2 * Real.pi) {y : V4 × V3}
    (H : Spec.HeldStep c (β • ![1, 0, 0]) h (zTurn 0, ![0, 0, ω]) y) :
    ∃ ω' > ω, y.2 = ![0, 0, ω'] := by
  have k0 := kBbq_pos
  have hω0 : 0 < ω := by linarith
  obtain ⟨θ, e0, d1, d2, -⟩ := pendulum k0 hω
  obtain ⟨r1, r2⟩ := pendulum_range k0 hω e0 d1 h0.le
  have hstep := held_pendulum hJ hβ d1 d2 e0 hω0 0 h
  rw [Nat.cast_zero, mul_zero, zero_add] at hstep
  have hne : β • (![1, 0, 0] : V3) ≠ 0 := by
    intro e
    exact hβ (by simpa using congrFun e 0)
  have hy := (C201_step hb hne h0.le (x := (zTurn 0, ![0, 0, ω])) (zTurn_unit 0)).unique H hstep
  refine ⟨√(turnSq kBbq ω (θ h)), ?_, by rw [hy]⟩
  have hs : Real.sin (θ h) < 0 := by
    have := Real.sin_pos_of_pos_of_lt_pi (x := θ h - Real.pi) (by linarith) (by linarith)
    rw [Real.sin_sub_pi] at this
    linarith
  rw [gt_iff_lt, Real.lt_sqrt hω0.le]
  unfold turnSq
  have : 0 < kBbq * ω := mul_pos k0 hω0
  nlinarith

/-- **C201** does not hold: samples once a second, a spin of one turn per second. -/
theorem C201_fails : ¬ C201_claim := by
  intro H
  obtain ⟨sat, hb, hpd, ⟨h3, hmt⟩, hI, -, -⟩ := exSat3 true []
  set model : CtlModel := ⟨sat, some ⟨0, 0⟩, none⟩ with hmodel
  obtain ⟨c, hc⟩ : ∃ c, MagController.init model h3 false = .ok c := ⟨_, rfl⟩
  have hsat : c.sat = sat := by
    have := Except.ok.inj hc
    subst this
    rfl
  have hJ : c.sat.totalMoment = Matrix.diagonal ![0.012514, 0.012414, 0.006214] := by rw [hsat]; exact hI
  obtain ⟨ω, hω, -, -, hrun⟩ := C201_stalls hJ one_ne_zero one_pos (by norm_num)
  have hu : npNorm (![1, 0, 0] : V3) = 1 := by rw [npNorm_eq_one, Fin.sum_univ_three]; norm_num
  have hlim := H model h3 _ _ _ _ hb hpd c hc ![1, 0, 0] 1 1 _ hu one_ne_zero one_pos hrun
  have hval : ∀ n : ℕ, npNorm (Spec.acrossField c ![1, 0, 0] (zTurn (2 * Real.pi * n), ![0, 0, ω])) = 0.006214 * ω := by
    intro n
    have e : Spec.acrossField c ![1, 0, 0] (zTurn (2 * Real.pi * n), ![0, 0, ω]) = ![0, 0, 0.006214 * ω] := by
      unfold Spec.acrossField Spec.across
      simp only
      have hd : (c.sat.totalMoment *ᵥ ![0, 0, ω]) ⬝ᵥ sandwich (zTurn (2 * Real.pi * n)) ![1, 0, 0] = 0 := by
        rw [hJ, zTurn_coords, Matrix.vec3_dotProduct]
        simp [Matrix.mulVec_diagonal]
      rw [hd, zero_smul, sub_zero, hJ]
      apply vec3_ext <;> simp [Matrix.mulVec_diagonal]
    rw [e]
    have hpos : 0 ≤ 0.006214 * ω := by
      have := kBbq_pos
      have : 0 < ω := by linarith
      positivity
    rw [npNorm, Fin.sum_univ_three]
    simp only [Matrix.cons_val_zero, Matrix.cons_val_one, cons3_2]
    rw [show (0 : ℝ) ^ 2 + 0 ^ 2 + (0.006214 * ω) ^ 2 = (0.006214 * ω) ^ 2 by ring, Real.sqrt_sq hpos]
  simp only [hval] at hlim
  have := tendsto_nhds_unique hlim tendsto_const_nhds
  have hk := kBbq_pos
  nlinarith

/-- A run that meets the conditions of `C201_slow_partial`: samples once a second, a tumble of half a radian per
second. -/
example : ∃ (c : MagController) (x : ℕ → V4 × V3), x 0 = (![1, 0, 0, 0], ![0.3, 0.3, 0.2]) ∧
    Spec.HeldRun c ((3e-5 : ℝ) • ![1, 0, 0]) 1 x ∧ kBbq * 1 ≤ 1 ∧
    (∀ v, 0.006214 * npNorm v ≤ npNorm (c.sat.totalMoment *ᵥ v)) ∧
    (1 + kBbq * 1) * npNorm (c.sat.totalMoment *ᵥ (x 0).2) * 1 ≤ 2 * 0.5 * 0.006214 := by
  obtain ⟨sat, hb, hpd, ⟨h3, hmt⟩, hI, -, -⟩ := exSat3 true []
  set model : CtlModel := ⟨sat, some ⟨0, 0⟩, none⟩ with hmodel
  obtain ⟨c, hc⟩ : ∃ c, MagController.init model h3 false = .ok c := ⟨_, rfl⟩
  have hsat : c.sat = sat := by
    have := Except.ok.inj hc
    subst this
    rfl
  have hJ : c.sat.totalMoment = Matrix.diagonal ![0.012514, 0.012414, 0.006214] := by rw [hsat]; exact hI
  have hne : (3e-5 : ℝ) • (![1, 0, 0] : V3) ≠ 0 := by
    intro e
    have := congrFun e 0
    norm_num at this
  obtain ⟨x, hx0, hx⟩ := C201_exists (c := c) (by rw [hsat]; exact hb) hne (h := 1) zero_le_one
    (x0 := (![1, 0, 0, 0], ![0.3, 0.3, 0.2])) (by simp only; rw [npNorm_eq_one, Fin.sum_univ_four]; norm_num)
  have hk : kBbq ≤ 0.01 := by
    unfold kBbq
    have := Real.pi_lt_d2
    norm_num at this ⊢
    linarith
  refine ⟨c, x, hx0, hx, by linarith, fun v => ?_, ?_⟩
  · rw [hJ]
    refine le_of_sq_le_sq ?_ (npNorm_nonneg _)
    rw [mul_pow, npNorm3_sq, npNorm3_sq]
    simp only [Matrix.mulVec_diagonal, Matrix.cons_val_zero, Matrix.cons_val_one, cons3_2]
    nlinarith [sq_nonneg (v 0), sq_nonneg (v 1), sq_nonneg (v 2)]
  · rw [hx0, hJ]
    have e : npNorm (Matrix.diagonal ![0.012514, 0.012414, 0.006214] *ᵥ ![0.3, 0.3, 0.2] : V3) ≤ 0.0056 := by
      refine le_of_sq_le_sq ?_ (by norm_num)
      rw [npNorm3_sq]
      simp only [Matrix.mulVec_diagonal, Matrix.cons_val_zero, Matrix.cons_val_one, cons3_2]
      norm_num
    have := npNorm_nonneg (Matrix.diagonal ![0.012514, 0.012414, 0.006214] *ᵥ ![0.3, 0.3, 0.2] : V3)
    nlinarith [kBbq_pos]

end Adcs
