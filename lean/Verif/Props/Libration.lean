import Verif.Props.Unload
import Verif.Props.Dynamics

set_option autoImplicit false

/-! # C181: the gravity gradient keeps the long axis towards the Earth -/

namespace Adcs

open Str Sens JDay Quat Vec Dyn Spec
open scoped Matrix

/-- A satellite on the circular orbit of radius `r` in the plane of `a` and `b`, with its wheels at rest and no
command: it turns as the library's dynamics say under the library's gravity and nothing else. -/
def Spec.Librating (sat : Satellite) (r n : ℝ) (a b : V3) (st : ℝ → SatState sat.rw.n) : Prop :=
  ∀ t, 0 ≤ t → ∃ (x : Raw sat.rw.n) (c : JClock), SatState.new x (some c) = .ok (st t) ∧ x.whl = 0 ∧
    npNorm x.att = 1 ∧ x.pos = Spec.circle r a b (n * t) ∧
    ∃ G d, gravityFT false sat (st t) = .ok G ∧ derivative sat (st t) G 0 = .ok d ∧
      HasDerivAt (fun τ => (st τ).attrs.attitude) d.att t ∧ HasDerivAt (fun τ => (st τ).attrs.bodyAngVel) d.rate t

/-- The rate at which such an orbit is flown. -/
def Spec.Kepler (r n : ℝ) : Prop := 0 < r ∧ 0 < n ∧ n ^ 2 * r ^ 3 = 6.6743e-11 * 5.9733328e24

/-- The torque of gravity on such an orbit. -/
theorem circle_gravity {sat : Satellite} {r n : ℝ} (hk : Spec.Kepler r n) {a b : V3} (hab : Spec.Plane a b)
    {x : Raw sat.rw.n} {c : JClock} {s : SatState sat.rw.n} (hnew : SatState.new x (some c) = .ok s) {t : ℝ}
    (hpos : x.pos = Spec.circle r a b (n * t)) {G : FT} (hG : gravityFT false sat s = .ok G) :
    G.T = (3 * n ^ 2) • (sandwich x.att (Spec.turning n a b t) ⨯₃
      (sat.totalMoment *ᵥ sandwich x.att (Spec.turning n a b t))) := by
  obtain ⟨G', g, hG', -, -, hT⟩ := C77_formula (hiFi := false) (sat := sat) hnew
  obtain rfl := Except.ok.inj (hG'.symm.trans hG)
  have hn : npNorm x.pos = r := by rw [hpos, circle_norm hab hk.1.le]
  have hdir : (-1 / npNorm x.pos) • x.pos = -Spec.turning n a b t := by
    rw [hn, hpos, Spec.circle, smul_smul, Spec.turning]
    have : -1 / r * r = -1 := by field_simp [hk.1.ne']
    rw [this, neg_one_smul]
  have hR : toBody x.att ((-1 / npNorm x.pos) • x.pos) = -sandwich x.att (Spec.turning n a b t) := by
    rw [hdir, ← sandwich_eq_toBody, ← neg_one_smul ℝ, sandwich_smul, neg_one_smul]
  rw [hT, hR, hn, gravityGradient, Matrix.mulVec_neg]
  have h1 : 3 * (6.6743e-11 * 5.9733328e24) / r ^ 3 = 3 * n ^ 2 := by
    rw [← hk.2.2]; field_simp [hk.1.ne']
  rw [h1, map_neg, LinearMap.map_neg₂, neg_neg]

theorem librating_euler {sat : Satellite} {mass : ℝ} {dims : V3} {ab cd : ℝ} (hb : Built sat mass dims ab cd)
    {r n : ℝ} (hk : Spec.Kepler r n) {a b : V3} (hab : Spec.Plane a b) {st : ℝ → SatState sat.rw.n}
    (h : Spec.Librating sat r n a b st) {t : ℝ} (ht : 0 ≤ t) :
    let q := (st t).attrs.attitude
    let w := (st t).attrs.bodyAngVel
    let R := sandwich q (Spec.turning n a b t)
    npNorm q = 1 ∧
    HasDerivAt (fun τ => (st τ).attrs.attitude) ((0.5 : ℝ) • product q ![0, w 0, w 1, w 2]) t ∧
    ∃ w', HasDerivAt (fun τ => (st τ).attrs.bodyAngVel) w' t ∧
      sat.totalMoment *ᵥ w' = (3 * n ^ 2) • (R ⨯₃ (sat.totalMoment *ᵥ R)) - w ⨯₃ (sat.totalMoment *ᵥ w) := by
  intro q w R
  obtain ⟨x, c, hnew, hwhl, hatt, hpos, G, d, hG, hd, hda, hdr⟩ := h t ht
  obtain ⟨hcons, harr, -⟩ := C80_new hnew
  have hqa : q = x.att := by simp only [q]; rw [hcons.attitude, harr]
  have hGT : G.T = (3 * n ^ 2) • (R ⨯₃ (sat.totalMoment *ᵥ R)) := by
    simp only [R]; rw [hqa]; exact circle_gravity hk hab hnew hpos hG
  have hmass : sat.mass ≠ 0 := by
    intro h0
    simp only [derivative, npVDiv] at hd
    rw [if_pos h0] at hd; simp at hd
  simp only [derivative, npVDiv] at hd
  rw [if_neg hmass] at hd
  simp only [Except.ok.injEq] at hd
  subst hd
  refine ⟨by rw [hqa]; exact hatt, hda, _, hdr, ?_⟩
  have hw0 : (st t).attrs.wheelVel = 0 := by rw [hcons.wheelVel, harr, hwhl]
  simp only
  rw [Matrix.mulVec_mulVec, hb.inverse, Matrix.one_mulVec, hw0, torque_eq_momentum, momentum_zero,
    npCross_eq_crossProduct, hGT]
  simp [w]

theorem normal_cross {a b : V3} (hab : Spec.Plane a b) (C S : ℝ) :
    (a ⨯₃ b) ⨯₃ (C • a + S • b) = -S • a + C • b := by
  obtain ⟨h1, h2, h3⟩ := hab
  have g1 := unit3_dot h1
  have g2 := unit3_dot h2
  have e : (a ⨯₃ b) ⨯₃ (C • a + S • b) =
      (C * (a ⬝ᵥ a) + S * (a ⬝ᵥ b)) • b - (C * (a ⬝ᵥ b) + S * (b ⬝ᵥ b)) • a := by
    apply vec3_ext <;>
      simp only [cross_apply, Matrix.vec3_dotProduct, Matrix.cons_val_zero, Matrix.cons_val_one, cons3_2,
        Pi.add_apply, Pi.sub_apply, Pi.smul_apply, smul_eq_mul] <;> ring
  rw [e, g1, g2, h3]
  module

/-- The integral of the motion, in terms of the rate relative to the orbit. -/
theorem libration_integral {sat : Satellite} {mass : ℝ} {dims : V3} {ab cd : ℝ} (hb : Built sat mass dims ab cd)
    (hJ : sat.totalMoment.IsSymm) {r n : ℝ} (hk : Spec.Kepler r n) {a b : V3} (hab : Spec.Plane a b)
    {st : ℝ → SatState sat.rw.n} (h : Spec.Librating sat r n a b st) {t : ℝ} (ht : 0 ≤ t) :
    let J := sat.totalMoment
    let R := fun τ => sandwich (st τ).attrs.attitude (Spec.turning n a b τ)
    let N := fun τ => sandwich (st τ).attrs.attitude (a ⨯₃ b)
    let v := fun τ => (st τ).attrs.bodyAngVel - n • N τ
    v t ⬝ᵥ (J *ᵥ v t) + 3 * n ^ 2 * (R t ⬝ᵥ (J *ᵥ R t)) - n ^ 2 * (N t ⬝ᵥ (J *ᵥ N t)) =
      v 0 ⬝ᵥ (J *ᵥ v 0) + 3 * n ^ 2 * (R 0 ⬝ᵥ (J *ᵥ R 0)) - n ^ 2 * (N 0 ⬝ᵥ (J *ᵥ N 0)) := by
  intro J R N v
  have key : ∀ τ, v τ ⬝ᵥ (J *ᵥ v τ) + 3 * n ^ 2 * (R τ ⬝ᵥ (J *ᵥ R τ)) - n ^ 2 * (N τ ⬝ᵥ (J *ᵥ N τ)) =
      (st τ).attrs.bodyAngVel ⬝ᵥ (J *ᵥ (st τ).attrs.bodyAngVel) -
        2 * n * (N τ ⬝ᵥ (J *ᵥ (st τ).attrs.bodyAngVel)) + 3 * n ^ 2 * (R τ ⬝ᵥ (J *ᵥ R τ)) := by
    intro τ
    have hs : (st τ).attrs.bodyAngVel ⬝ᵥ (J *ᵥ N τ) = N τ ⬝ᵥ (J *ᵥ (st τ).attrs.bodyAngVel) := by
      rw [symm_dot3 hJ, dotProduct_comm]
    simp only [v, Matrix.mulVec_sub, Matrix.mulVec_smul, sub_dotProduct, dotProduct_sub, smul_dotProduct,
      dotProduct_smul, smul_eq_mul, hs]
    ring
  rw [key t, key 0]
  refine constant_of_deriv (f := fun τ => (st τ).attrs.bodyAngVel ⬝ᵥ (J *ᵥ (st τ).attrs.bodyAngVel) -
        2 * n * (N τ ⬝ᵥ (J *ᵥ (st τ).attrs.bodyAngVel)) + 3 * n ^ 2 * (R τ ⬝ᵥ (J *ᵥ R τ))) ?_ ht
  intro s hs
  obtain ⟨hq1, hdq, w', hdw, hw'⟩ := librating_euler hb hk hab h hs
  have hq := (isUnit4_iff _).2 hq1
  have hdN := hasDerivAt_fixed (a ⨯₃ b) hdq
  have hdR : HasDerivAt R (-(((st s).attrs.bodyAngVel - n • N s) ⨯₃ R s)) s := by
    have h1 := hasDerivAt_sandwich2 hdq (hasDerivAt_turning n a b s).1
    rw [sandwich_kinematics, npCross_eq_crossProduct, ← normal_cross hab, sandwich_smul, sandwich_cross hq] at h1
    refine h1.congr_deriv ?_
    simp only [N, R, Spec.turning, map_sub, LinearMap.sub_apply, LinearMap.smul_apply, map_smul]
    abel
  have hdH := hasDerivAt_mulVec3 (J := J) hdw
  have hdJR := hasDerivAt_mulVec3 (J := J) hdR
  have hd := (((hasDerivAt_dot3 hdw hdH).fun_sub ((hasDerivAt_dot3 hdN hdH).const_mul (2 * n))).fun_add
    ((hasDerivAt_dot3 hdR hdJR).const_mul (3 * n ^ 2)))
  refine hd.congr_deriv ?_
  have e1 : w' ⬝ᵥ (J *ᵥ (st s).attrs.bodyAngVel) = (st s).attrs.bodyAngVel ⬝ᵥ (J *ᵥ w') := by
    rw [symm_dot3 hJ, dotProduct_comm]
  have e2 : R s ⬝ᵥ (J *ᵥ (-(((st s).attrs.bodyAngVel - n • N s) ⨯₃ R s))) =
      (-(((st s).attrs.bodyAngVel - n • N s) ⨯₃ R s)) ⬝ᵥ (J *ᵥ R s) := by
    rw [symm_dot3 hJ, dotProduct_comm]
  rw [e1, e2]
  change J *ᵥ w' = (3 * n ^ 2) • (R s ⨯₃ (J *ᵥ R s)) - (st s).attrs.bodyAngVel ⨯₃ (J *ᵥ (st s).attrs.bodyAngVel) at hw'
  rw [hw']
  change _ - 2 * n * (-((st s).attrs.bodyAngVel ⨯₃ N s) ⬝ᵥ (J *ᵥ (st s).attrs.bodyAngVel) + N s ⬝ᵥ _) + _ = _
  generalize (st s).attrs.bodyAngVel = w
  generalize J *ᵥ w = H
  generalize N s = N
  generalize J *ᵥ R s = K
  generalize R s = R
  simp only [cross_apply, Matrix.vec3_dotProduct, Matrix.cons_val_zero, Matrix.cons_val_one, cons3_2,
    Pi.sub_apply, Pi.neg_apply, Pi.smul_apply, smul_eq_mul]
  ring

theorem across_norm {e x : V3} (he : npNorm e = 1) (hx : npNorm x = 1) :
    npNorm (Spec.across e x) ^ 2 = 1 - (x ⬝ᵥ e) ^ 2 := by
  have h1 := unit3_dot he
  have h2 := unit3_dot hx
  rw [npNorm_sq_dot, npDot_eq_dotProduct, Spec.across]
  simp only [sub_dotProduct, dotProduct_sub, smul_dotProduct, dotProduct_smul, smul_eq_mul, h1, h2,
    dotProduct_comm e x]
  ring

/-- The quadratic form of a direction, measured from that of a principal axis. -/
theorem principal_form {J : M3} (hJ : J.IsSymm) {e : V3} {c m M : ℝ} (hp : Spec.Principal J e c m M) {x : V3}
    (hx : npNorm x = 1) :
    (m - c) * npNorm (Spec.across e x) ^ 2 ≤ x ⬝ᵥ (J *ᵥ x) - c ∧
    x ⬝ᵥ (J *ᵥ x) - c ≤ (M - c) * npNorm (Spec.across e x) ^ 2 := by
  obtain ⟨-, h1, -⟩ := principal_split hJ hp x
  have h2 := hp.lower _ (across_dot hp.unit x)
  have h3 := hp.upper _ (across_dot hp.unit x)
  have h4 := across_norm hp.unit hx
  have h5 : (x ⬝ᵥ e) ^ 2 = 1 - npNorm (Spec.across e x) ^ 2 := by linarith
  rw [h1, h5]
  constructor <;> nlinarith

/-- With the axis of the smallest moment towards the Earth and that of the largest normal to the orbit, the satellite
stays as it is: what the deviations of the two axes and the rate relative to the orbit can become is bounded by what
they are, and the first axis keeps pointing to the same side. -/
theorem C181_libration {sat : Satellite} {mass : ℝ} {dims : V3} {ab cd : ℝ} (hb : Built sat mass dims ab cd)
    (hJ : sat.totalMoment.PosDef) {r n : ℝ} (hk : Spec.Kepler r n) {a b : V3} (hab : Spec.Plane a b)
    {e₁ e₃ : V3} {c₁ m₁ M₁ c₃ m₃ M₃ : ℝ} (h1 : Spec.Principal sat.totalMoment e₁ c₁ m₁ M₁) (hc1 : c₁ < m₁)
    (h3 : Spec.Principal sat.totalMoment e₃ c₃ m₃ M₃) (hc3 : M₃ < c₃) {st : ℝ → SatState sat.rw.n}
    (h : Spec.Librating sat r n a b st) :
    let J := sat.totalMoment
    let R := fun τ => sandwich (st τ).attrs.attitude (Spec.turning n a b τ)
    let N := fun τ => sandwich (st τ).attrs.attitude (a ⨯₃ b)
    let v := fun τ => (st τ).attrs.bodyAngVel - n • N τ
    let E := v 0 ⬝ᵥ (J *ᵥ v 0) + 3 * n ^ 2 * (M₁ - c₁) * npNorm (Spec.across e₁ (R 0)) ^ 2 +
      n ^ 2 * (c₃ - m₃) * npNorm (Spec.across e₃ (N 0)) ^ 2
    (∀ t, 0 ≤ t → v t ⬝ᵥ (J *ᵥ v t) ≤ E ∧ 3 * n ^ 2 * (m₁ - c₁) * npNorm (Spec.across e₁ (R t)) ^ 2 ≤ E ∧
      n ^ 2 * (c₃ - M₃) * npNorm (Spec.across e₃ (N t)) ^ 2 ≤ E) ∧
    (E < 3 * n ^ 2 * (m₁ - c₁) → 0 < R 0 ⬝ᵥ e₁ → ∀ t, 0 ≤ t → 0 < R t ⬝ᵥ e₁) := by
  intro J R N v E
  have hsym : J.IsSymm := by have := hJ.isHermitian; simpa [Matrix.IsHermitian, Matrix.IsSymm] using this
  have hRN : ∀ t, 0 ≤ t → npNorm (R t) = 1 ∧ npNorm (N t) = 1 := by
    intro t ht
    have hq := (isUnit4_iff _).2 (librating_euler hb hk hab h ht).1
    have k : ∀ x : V3, npNorm x = 1 → npNorm (sandwich (st t).attrs.attitude x) = 1 := by
      intro x hx
      have : npNorm (sandwich (st t).attrs.attitude x) ^ 2 = 1 := by
        rw [npNorm_sq_dot, npDot_eq_dotProduct, sandwich_dot hq, unit3_dot hx]
      have := npNorm_nonneg (sandwich (st t).attrs.attitude x)
      nlinarith
    refine ⟨k _ (turning_frame hab n t).1, k _ ?_⟩
    have h2 : npNorm (a ⨯₃ b) ^ 2 = 1 := by
      have e := plane_sq' hab (a ⨯₃ b)
      have z1 : (a ⨯₃ b) ⬝ᵥ a = 0 := by rw [dotProduct_comm, dot_self_cross]
      have z2 : (a ⨯₃ b) ⬝ᵥ b = 0 := by rw [dotProduct_comm, dot_cross_self]
      rw [z1, z2] at e
      rw [npNorm_sq_dot, npDot_eq_dotProduct]
      have hne : (a ⨯₃ b) ⬝ᵥ (a ⨯₃ b) ≠ 0 := by
        intro h0
        have g : (a ⨯₃ b) ⬝ᵥ (a ⨯₃ b) = (a ⬝ᵥ a) * (b ⬝ᵥ b) - (a ⬝ᵥ b) ^ 2 := by
          simp only [Matrix.vec3_dotProduct, cross_apply, Matrix.cons_val_zero, Matrix.cons_val_one, cons3_2]
          ring
        rw [unit3_dot hab.1, unit3_dot hab.2.1, hab.2.2] at g
        rw [h0] at g; norm_num at g
      have e' : (a ⨯₃ b) ⬝ᵥ (a ⨯₃ b) * ((a ⨯₃ b) ⬝ᵥ (a ⨯₃ b) - 1) = 0 := by nlinarith
      rcases mul_eq_zero.1 e' with h0 | h0
      · exact absurd h0 hne
      · linarith
    have := npNorm_nonneg (a ⨯₃ b)
    nlinarith
  have hn2 : 0 < n ^ 2 := pow_pos hk.2.1 2
  have bound : ∀ t, 0 ≤ t → v t ⬝ᵥ (J *ᵥ v t) ≤ E ∧
      3 * n ^ 2 * (m₁ - c₁) * npNorm (Spec.across e₁ (R t)) ^ 2 ≤ E ∧
      n ^ 2 * (c₃ - M₃) * npNorm (Spec.across e₃ (N t)) ^ 2 ≤ E := by
    intro t ht
    have hi := libration_integral hb hsym hk hab h ht
    change v t ⬝ᵥ (J *ᵥ v t) + 3 * n ^ 2 * (R t ⬝ᵥ (J *ᵥ R t)) - n ^ 2 * (N t ⬝ᵥ (J *ᵥ N t)) =
      v 0 ⬝ᵥ (J *ᵥ v 0) + 3 * n ^ 2 * (R 0 ⬝ᵥ (J *ᵥ R 0)) - n ^ 2 * (N 0 ⬝ᵥ (J *ᵥ N 0)) at hi
    have p1 := (principal_form hsym h1 (hRN t ht).1).1
    have p2 := (principal_form hsym h1 (hRN 0 le_rfl).1).2
    have p3 := (principal_form hsym h3 (hRN t ht).2).2
    have p4 := (principal_form hsym h3 (hRN 0 le_rfl).2).1
    have q1 := mul_le_mul_of_nonneg_left p1 (by positivity : (0 : ℝ) ≤ 3 * n ^ 2)
    have q2 := mul_le_mul_of_nonneg_left p2 (by positivity : (0 : ℝ) ≤ 3 * n ^ 2)
    have q3 := mul_le_mul_of_nonneg_left p3 hn2.le
    have q4 := mul_le_mul_of_nonneg_left p4 hn2.le
    have z1 : 0 ≤ v t ⬝ᵥ (J *ᵥ v t) := by
      have := hJ.posSemidef.dotProduct_mulVec_nonneg (v t)
      simpa using this
    have z2 : 0 ≤ 3 * n ^ 2 * (m₁ - c₁) * npNorm (Spec.across e₁ (R t)) ^ 2 := by
      have : 0 < m₁ - c₁ := by linarith
      positivity
    have z3 : 0 ≤ n ^ 2 * (c₃ - M₃) * npNorm (Spec.across e₃ (N t)) ^ 2 := by
      have : 0 < c₃ - M₃ := by linarith
      positivity
    simp only [E]
    refine ⟨?_, ?_, ?_⟩ <;> nlinarith
  refine ⟨bound, fun hE h0 => ?_⟩
  have hne : ∀ t, 0 ≤ t → R t ⬝ᵥ e₁ ≠ 0 := by
    intro t ht hz
    have e := across_norm h1.unit (hRN t ht).1
    rw [hz] at e
    have := (bound t ht).2.1
    rw [e] at this
    linarith
  intro t ht
  by_contra hneg
  push Not at hneg
  have hcont : ContinuousOn (fun τ => R τ ⬝ᵥ e₁) (Set.Icc 0 t) := by
    intro τ hτ
    have hd := hasDerivAt_sandwich2 (librating_euler hb hk hab h hτ.1).2.1 (hasDerivAt_turning n a b τ).1
    exact (hasDerivAt_dot3 hd (hasDerivAt_const τ e₁)).continuousAt.continuousWithinAt
  obtain ⟨τ, hτ, hz⟩ := intermediate_value_Icc' ht hcont ⟨hneg, h0.le⟩
  exact hne τ hτ.1 hz

/-! ## Motions in the plane of an equatorial orbit -/

theorem zTurn_circle (φ α : ℝ) : sandwich (zTurn φ) ![Real.cos α, Real.sin α, 0] =
    ![Real.cos (α - φ), Real.sin (α - φ), 0] := by
  have h1 : Real.cos φ = Real.cos (φ / 2) ^ 2 - Real.sin (φ / 2) ^ 2 := by
    rw [← Real.cos_two_mul']; ring_nf
  have h2 : Real.sin φ = 2 * Real.sin (φ / 2) * Real.cos (φ / 2) := by
    rw [← Real.sin_two_mul]; ring_nf
  rw [Real.cos_sub, Real.sin_sub, h1, h2]
  apply vec3_ext
  · rw [sandwich_0]; simp [zTurn]; ring
  · rw [sandwich_1]; simp [zTurn]; ring
  · rw [sandwich_2]; simp [zTurn]

theorem xy_circle (r θ : ℝ) : Spec.circle r ![1, 0, 0] ![0, 1, 0] θ = ![r * Real.cos θ, r * Real.sin θ, 0] := by
  apply vec3_ext <;> simp [Spec.circle]

theorem xy_turning (n t : ℝ) : Spec.turning n ![1, 0, 0] ![0, 1, 0] t = ![Real.cos (n * t), Real.sin (n * t), 0] := by
  apply vec3_ext <;> simp [Spec.turning]

theorem xy_cross : (![1, 0, 0] : V3) ⨯₃ ![0, 1, 0] = ![0, 0, 1] := by
  apply vec3_ext <;> simp [cross_apply]

/-- Every solution of the pendulum equation of the pitch angle is such a motion. -/
theorem librating_planar {sat : Satellite} {mass : ℝ} {dims : V3} {ab cd : ℝ} (hb : Built sat mass dims ab cd)
    (hmass : sat.mass ≠ 0) {D : V3} (hD : sat.totalMoment = Matrix.diagonal D) {r n : ℝ} (hk : Spec.Kepler r n)
    (hr : 6378137 ≤ r) (c : JClock) {θ Ω Ω' : ℝ → ℝ} (hθ : ∀ t, HasDerivAt θ (Ω t) t)
    (hΩ : ∀ t, HasDerivAt Ω (Ω' t) t)
    (hode : ∀ t, D 2 * Ω' t = -(3 * n ^ 2 * (D 1 - D 0) * (Real.sin (θ t) * Real.cos (θ t)))) :
    ∃ st : ℝ → SatState sat.rw.n, Spec.Librating sat r n ![1, 0, 0] ![0, 1, 0] st ∧
      ∀ t, (st t).attrs.attitude = zTurn (n * t + θ t) ∧ (st t).attrs.bodyAngVel = ![0, 0, n + Ω t] := by
  have hpl : Spec.Plane ![1, 0, 0] ![0, 1, 0] := xy_plane
  have hraw : ∀ t : ℝ, ∃ s : SatState sat.rw.n, SatState.new (n := sat.rw.n)
      { pos := Spec.circle r ![1, 0, 0] ![0, 1, 0] (n * t), vel := 0, att := zTurn (n * t + θ t),
        rate := ![0, 0, n + Ω t], whl := 0 } (some c) = .ok s := by
    intro t
    have hsq : (r * Real.cos (n * t)) ^ 2 + (r * Real.sin (n * t)) ^ 2 = r ^ 2 := by
      have := Real.sin_sq_add_cos_sq (n * t)
      linear_combination r ^ 2 * this
    obtain ⟨s, hs, -⟩ := mkState_equator (n := sat.rw.n)
      { pos := Spec.circle r ![1, 0, 0] ![0, 1, 0] (n * t), vel := 0, att := zTurn (n * t + θ t),
        rate := ![0, 0, n + Ω t], whl := 0 } c (by simp [xy_circle])
      (by simp only [xy_circle, Matrix.cons_val_zero, Matrix.cons_val_one]; rw [hsq]; exact pow_pos hk.1 2)
      (by
        simp only [xy_circle, Matrix.cons_val_zero, Matrix.cons_val_one]
        rw [hsq, Real.sqrt_sq hk.1.le]
        have : Fr.wgsA * Fr.wgsE2 < 6378137 := by norm_num [Fr.wgsA, Fr.wgsE2, Fr.wgsF]
        linarith)
    exact ⟨s, hs⟩
  choose st hst using hraw
  have hatt : ∀ t, (st t).attrs.attitude = zTurn (n * t + θ t) := by
    intro t
    obtain ⟨hcons, harr, -⟩ := C80_new (hst t)
    rw [hcons.attitude, harr]
  have hrate : ∀ t, (st t).attrs.bodyAngVel = ![0, 0, n + Ω t] := by
    intro t
    obtain ⟨hcons, harr, -⟩ := C80_new (hst t)
    rw [hcons.bodyAngVel, harr]
  refine ⟨st, ?_, fun t => ⟨hatt t, hrate t⟩⟩
  intro t ht
  obtain ⟨hcons, harr, -⟩ := C80_new (hst t)
  obtain ⟨G, g, hG, -, -, hT⟩ := C77_formula (hiFi := false) (sat := sat) (hst t)
  have hGT := circle_gravity hk hpl (hst t) rfl hG
  simp only [xy_turning, zTurn_circle] at hGT
  obtain ⟨d, hd⟩ : ∃ d, derivative sat (st t) G 0 = .ok d := by
    simp only [derivative, npVDiv]
    rw [if_neg hmass]
    exact ⟨_, rfl⟩
  refine ⟨_, c, hst t, rfl, zTurn_unit _, rfl, G, d, hG, hd, ?_⟩
  simp only [derivative, npVDiv] at hd
  rw [if_neg hmass] at hd
  simp only [Except.ok.injEq] at hd
  subst hd
  simp only
  rw [hatt, hrate]
  have hφ : HasDerivAt (fun τ => n * τ + θ τ) (n + Ω t) t := by
    simpa using ((hasDerivAt_id t).const_mul n).fun_add (hθ t)
  have hJ : sat.totalMoment *ᵥ ![0, 0, Ω' t] = G.T - sat.rw.torque 0 -
      npCross ![0, 0, n + Ω t] (sat.rw.momentum (st t).attrs.wheelVel + sat.totalMoment *ᵥ ![0, 0, n + Ω t]) := by
    have hw0 : (st t).attrs.wheelVel = 0 := by rw [hcons.wheelVel, harr]
    have e : n * t - (n * t + θ t) = -θ t := by ring
    rw [hw0, torque_eq_momentum, momentum_zero, hGT, hD, e, Real.cos_neg, Real.sin_neg]
    apply vec3_ext
    · simp [Matrix.mulVec_diagonal, cross_apply, npCross_0]
    · simp [Matrix.mulVec_diagonal, cross_apply, npCross_1]
    · have := hode t
      simp [Matrix.mulVec_diagonal, cross_apply, npCross_2]
      linarith
  constructor
  · rw [show (fun τ => (st τ).attrs.attitude) = fun τ => zTurn (n * τ + θ τ) from funext hatt]
    exact zTurn_deriv hφ
  · rw [show (fun τ => (st τ).attrs.bodyAngVel) = fun τ => ![0, 0, n + Ω τ] from funext hrate]
    have hinv : sat.invTotMoment * sat.totalMoment = 1 := mul_eq_one_comm.1 hb.inverse
    rw [← hJ, Matrix.mulVec_mulVec, hinv, Matrix.one_mulVec, hasDerivAt_pi]
    intro i
    fin_cases i
    · exact hasDerivAt_const t (0 : ℝ)
    · exact hasDerivAt_const t (0 : ℝ)
    · exact (hΩ t).const_add n

/-- The motion that separates swinging from tumbling. -/
theorem separatrix {κ : ℝ} (t₀ t : ℝ) :
    HasDerivAt (fun τ => Real.arctan (Real.sinh (κ * (τ - t₀)))) (κ / Real.cosh (κ * (t - t₀))) t ∧
    HasDerivAt (fun τ => κ / Real.cosh (κ * (τ - t₀)))
      (-(κ ^ 2 * (Real.sin (Real.arctan (Real.sinh (κ * (t - t₀)))) *
        Real.cos (Real.arctan (Real.sinh (κ * (t - t₀))))))) t ∧
    Real.sin (Real.arctan (Real.sinh (κ * (t - t₀)))) = Real.sinh (κ * (t - t₀)) / Real.cosh (κ * (t - t₀)) ∧
    Real.cos (Real.arctan (Real.sinh (κ * (t - t₀)))) = 1 / Real.cosh (κ * (t - t₀)) := by
  have hc : 0 < Real.cosh (κ * (t - t₀)) := Real.cosh_pos _
  have hsq : 1 + Real.sinh (κ * (t - t₀)) ^ 2 = Real.cosh (κ * (t - t₀)) ^ 2 := by
    rw [Real.cosh_sq]; ring
  have hu : HasDerivAt (fun τ => κ * (τ - t₀)) κ t := by
    simpa using ((hasDerivAt_id t).sub_const t₀).const_mul κ
  have e1 : Real.sin (Real.arctan (Real.sinh (κ * (t - t₀)))) =
      Real.sinh (κ * (t - t₀)) / Real.cosh (κ * (t - t₀)) := by
    rw [Real.sin_arctan, hsq, Real.sqrt_sq hc.le]
  have e2 : Real.cos (Real.arctan (Real.sinh (κ * (t - t₀)))) = 1 / Real.cosh (κ * (t - t₀)) := by
    rw [Real.cos_arctan, hsq, Real.sqrt_sq hc.le]
  refine ⟨?_, ?_, e1, e2⟩
  · refine (hu.sinh.arctan).congr_deriv ?_
    rw [hsq]; field_simp
  · rw [e1, e2]
    refine ((hasDerivAt_const t κ).fun_div hu.cosh hc.ne').congr_deriv ?_
    field_simp
    ring

/-- A satellite that flies with the axis of a larger moment towards the Earth does not stay so: among the motions that
begin as close to it as one likes there is one that turns this axis away by a right angle. -/
theorem C181_sideways {sat : Satellite} {mass : ℝ} {dims : V3} {ab cd : ℝ} (hb : Built sat mass dims ab cd)
    (hmass : sat.mass ≠ 0) {D : V3} (hD : sat.totalMoment = Matrix.diagonal D) (h01 : D 0 < D 1) (h2 : 0 < D 2)
    {r n : ℝ} (hk : Spec.Kepler r n) (hr : 6378137 ≤ r) (c : JClock) {δ : ℝ} (hδ : 0 < δ) :
    ∃ st : ℝ → SatState sat.rw.n, Spec.Librating sat r n ![1, 0, 0] ![0, 1, 0] st ∧
      npNorm (Spec.across ![0, 1, 0] (sandwich (st 0).attrs.attitude ![1, 0, 0])) < δ ∧
      sandwich (st 0).attrs.attitude ![0, 0, 1] = ![0, 0, 1] ∧
      npNorm ((st 0).attrs.bodyAngVel - n • ![0, 0, 1]) < δ ∧
      ∃ T, 0 < T ∧ sandwich (st T).attrs.attitude (Spec.turning n ![1, 0, 0] ![0, 1, 0] T) ⬝ᵥ ![0, 1, 0] = 0 := by
  have hd : 0 < D 1 - D 0 := sub_pos.2 h01
  have hn2 : 0 < n ^ 2 := pow_pos hk.2.1 2
  set κ := Real.sqrt (3 * n ^ 2 * (D 1 - D 0) / D 2) with hκ
  have hκ2 : κ ^ 2 = 3 * n ^ 2 * (D 1 - D 0) / D 2 := Real.sq_sqrt (by positivity)
  have hκ0 : 0 < κ := Real.sqrt_pos.2 (by positivity)
  set t₀ := (1 + κ) / δ / κ with ht₀
  have hu : κ * (0 - t₀) = -((1 + κ) / δ) := by rw [ht₀]; field_simp; ring
  have hbig : (1 + κ) / δ < Real.cosh (κ * (0 - t₀)) := by
    rw [hu, Real.cosh_neg]
    exact lt_of_le_of_lt (Real.self_le_sinh_iff.2 (by positivity)) (Real.sinh_lt_cosh _)
  have hc := Real.cosh_pos (κ * (0 - t₀))
  have hsmall : (1 + κ) / Real.cosh (κ * (0 - t₀)) < δ := by
    rw [div_lt_iff₀ hδ] at hbig
    rw [div_lt_iff₀ hc]; linarith
  have hpl : Spec.Plane ![1, 0, 0] ![0, 1, 0] := xy_plane
  obtain ⟨st, hst, hat⟩ := librating_planar hb hmass hD hk hr c (fun t => (separatrix (κ := κ) t₀ t).1)
    (fun t => (separatrix (κ := κ) t₀ t).2.1) (by intro t; rw [hκ2]; field_simp)
  have hR : ∀ t, sandwich (st t).attrs.attitude (Spec.turning n ![1, 0, 0] ![0, 1, 0] t) =
      ![Real.cos (Real.arctan (Real.sinh (κ * (t - t₀)))), -Real.sin (Real.arctan (Real.sinh (κ * (t - t₀)))), 0] := by
    intro t
    have e : n * t - (n * t + Real.arctan (Real.sinh (κ * (t - t₀)))) = -Real.arctan (Real.sinh (κ * (t - t₀))) := by
      ring
    rw [(hat t).1, xy_turning, zTurn_circle, e, Real.cos_neg, Real.sin_neg]
  have hx : (![1, 0, 0] : V3) = Spec.turning n ![1, 0, 0] ![0, 1, 0] 0 := by
    rw [xy_turning]; simp
  refine ⟨st, hst, ?_, ?_, ?_, t₀, by positivity, ?_⟩
  · rw [hx, hR, (separatrix t₀ 0).2.2.1, (separatrix t₀ 0).2.2.2]
    have e : Spec.across ![0, 1, 0] (![1 / Real.cosh (κ * (0 - t₀)),
        -(Real.sinh (κ * (0 - t₀)) / Real.cosh (κ * (0 - t₀))), 0] : V3) =
        ![1 / Real.cosh (κ * (0 - t₀)), 0, 0] := by
      apply vec3_ext <;> simp [Spec.across]
    rw [e]
    refine lt_of_le_of_lt ?_ hsmall
    have h1 : npNorm (![1 / Real.cosh (κ * (0 - t₀)), 0, 0] : V3) ^ 2 = (1 / Real.cosh (κ * (0 - t₀))) ^ 2 := by
      rw [npNorm_sq_dot, npDot_eq_dotProduct, Matrix.vec3_dotProduct]; simp; ring
    have h3 : npNorm (![1 / Real.cosh (κ * (0 - t₀)), 0, 0] : V3) = 1 / Real.cosh (κ * (0 - t₀)) :=
      (pow_left_inj₀ (npNorm_nonneg _) (by positivity) two_ne_zero).1 h1
    rw [h3]
    gcongr; linarith
  · rw [(hat 0).1, zTurn_axis]
  · have e : (st 0).attrs.bodyAngVel - n • ![0, 0, 1] = ![0, 0, κ / Real.cosh (κ * (0 - t₀))] := by
      rw [(hat 0).2]; apply vec3_ext <;> simp
    rw [e]
    refine lt_of_le_of_lt ?_ hsmall
    have h1 : npNorm (![0, 0, κ / Real.cosh (κ * (0 - t₀))] : V3) ^ 2 = (κ / Real.cosh (κ * (0 - t₀))) ^ 2 := by
      rw [npNorm_sq_dot, npDot_eq_dotProduct, Matrix.vec3_dotProduct]; simp; ring
    have h3 : npNorm (![0, 0, κ / Real.cosh (κ * (0 - t₀))] : V3) = κ / Real.cosh (κ * (0 - t₀)) :=
      (pow_left_inj₀ (npNorm_nonneg _) (by positivity) two_ne_zero).1 h1
    rw [h3]
    gcongr; linarith
  · rw [hR]
    simp

theorem kepler_exists {r : ℝ} (hr : 0 < r) : ∃ n, Spec.Kepler r n := by
  refine ⟨Real.sqrt (6.6743e-11 * 5.9733328e24 / r ^ 3), hr, Real.sqrt_pos.2 (by positivity), ?_⟩
  rw [Real.sq_sqrt (by positivity)]
  field_simp

/-- The hypotheses of `C181_libration` are met by a satellite that swings away towards a right angle, and those
of its second part by one that keeps its long axis towards the Earth exactly. Those of `C181_sideways` are met too. -/
example : ∃ (sat : Satellite) (D : V3) (r n : ℝ), Built sat 2 ![0.1, 0.1, 0.2] 0.8 2.2 ∧ sat.mass ≠ 0 ∧
    sat.totalMoment.PosDef ∧ sat.totalMoment = Matrix.diagonal D ∧ D 0 < D 1 ∧ 0 < D 2 ∧ 6378137 ≤ r ∧
    Spec.Kepler r n ∧ Spec.Plane ![1, 0, 0] ![0, 1, 0] ∧
    Spec.Principal sat.totalMoment (Pi.single 0 1) 0.006214 0.012414 0.012514 ∧
    Spec.Principal sat.totalMoment (Pi.single 2 1) 0.012514 0.006214 0.012414 ∧
    (∃ st, Spec.Librating sat r n ![1, 0, 0] ![0, 1, 0] st ∧ ∀ t, 0 ≤ t →
      (st t).attrs.bodyAngVel ≠ n • ![0, 0, 1]) ∧
    ∃ st, Spec.Librating sat r n ![1, 0, 0] ![0, 1, 0] st ∧
      (st 0).attrs.bodyAngVel = n • sandwich (st 0).attrs.attitude (![1, 0, 0] ⨯₃ ![0, 1, 0]) ∧
      sandwich (st 0).attrs.attitude (Spec.turning n ![1, 0, 0] ![0, 1, 0] 0) = Pi.single 0 1 := by
  obtain ⟨sat, hb, hpd, -, hI, -, -⟩ := exSatP ![0.0062, 0.0124, 0.0125] (by intro i; fin_cases i <;> norm_num) true []
  have hD : sat.totalMoment = Matrix.diagonal ![0.006214, 0.012414, 0.012514] := by
    rw [hI]; congr 1; apply vec3_ext <;> norm_num
  have hmass : sat.mass ≠ 0 := by
    obtain ⟨P, p, rd, rw', nMt, mt, ins, h⟩ := hb
    obtain ⟨-, -, e⟩ := satInit_eq h
    rw [e]; norm_num
  obtain ⟨n, hk⟩ := kepler_exists (r := 6800000) (by norm_num)
  have hr : (6378137 : ℝ) ≤ 6800000 := by norm_num
  have hn2 : 0 < n ^ 2 := pow_pos hk.2.1 2
  have h1 := principal_diagonal (d := ![0.006214, 0.012414, 0.012514]) (i := 0) (m := 0.012414) (M := 0.012514)
    (by intro j hj; fin_cases j <;> simp at hj ⊢ <;> norm_num)
  have h3 := principal_diagonal (d := ![0.006214, 0.012414, 0.012514]) (i := 2) (m := 0.006214) (M := 0.012414)
    (by intro j hj; fin_cases j <;> simp at hj ⊢ <;> norm_num)
  refine ⟨sat, _, _, n, hb, hmass, hpd, hD, by norm_num, by norm_num, hr, hk, xy_plane, by rw [hD]; simpa using h1,
    by rw [hD]; simpa using h3, ?_, ?_⟩
  · set κ := Real.sqrt (3 * n ^ 2 * (0.012414 - 0.006214) / 0.012514) with hκ
    have hκ2 : κ ^ 2 = 3 * n ^ 2 * (0.012414 - 0.006214) / 0.012514 := Real.sq_sqrt (by norm_num; positivity)
    have hκ0 : 0 < κ := Real.sqrt_pos.2 (by norm_num; positivity)
    obtain ⟨st, hst, hat⟩ := librating_planar hb hmass hD hk hr ⟨0, 0⟩ (fun t => (separatrix (κ := κ) 0 t).1)
      (fun t => (separatrix (κ := κ) 0 t).2.1) (by intro t; rw [hκ2]; simp; ring)
    refine ⟨st, hst, fun t _ h => ?_⟩
    rw [(hat t).2] at h
    have h' := congrFun h 2
    have : 0 < κ / Real.cosh (κ * (t - 0)) := div_pos hκ0 (Real.cosh_pos _)
    simp at h' this
    rcases h' with h' | h' <;> [linarith; exact absurd h' (Real.cosh_pos _).ne']
  · obtain ⟨st, hst, hat⟩ := librating_planar hb hmass hD hk hr ⟨0, 0⟩ (θ := fun _ => 0) (Ω := fun _ => 0)
      (Ω' := fun _ => 0) (fun t => hasDerivAt_const t 0) (fun t => hasDerivAt_const t 0) (by intro t; simp)
    refine ⟨st, hst, ?_, ?_⟩
    · rw [(hat 0).1, (hat 0).2, xy_cross, zTurn_axis]
      apply vec3_ext <;> simp
    · rw [(hat 0).1, xy_turning, zTurn_circle]
      apply vec3_ext <;> simp

end Adcs
