import Verif.Props.Period

set_option autoImplicit false

/-! # C190: the energy of satellites in the high-fidelity field -/

namespace Adcs

open Env Dyn JDay

/-- Specification: kinetic and potential energy per mass in the field of the zonal potential. -/
noncomputable def Spec.zonalEnergy (x v : V3) : ℝ :=
  (v ⬝ᵥ v) / 2 - geopotential Spec.mu 6.378137e6 1.08262668355e-3 (-2.53265648533e-6) (-1.61962159137e-6) x

/-- The full claim: satellites that move in the high-fidelity field, outside of the Earth, keep their energy. -/
def C190_claim : Prop := ∀ (x v : ℝ → V3) (lo hi : ℝ), Spec.Orbit true x v lo hi →
  (∀ t ∈ Set.Ioo lo hi, 6.378137e6 ≤ npNorm (x t)) →
    ∀ s ∈ Set.Ioo lo hi, ∀ t ∈ Set.Ioo lo hi, Spec.zonalEnergy (x s) (v s) = Spec.zonalEnergy (x t) (v t)

theorem geopotential_differentiable (μ R J2 J3 J4 : ℝ) {p : V3} (hp : p ≠ 0) :
    DifferentiableAt ℝ (geopotential μ R J2 J3 J4) p := by
  refine ContDiffAt.differentiableAt (n := 1) ?_ (by simp)
  have hr0 := (npNorm_pos hp).ne'
  have hn : ContDiffAt ℝ 1 (fun x : V3 => npNorm x) p := contDiffAt_npNorm 1 hp
  have h2 : ContDiffAt ℝ 1 (fun x : V3 => x 2) p := (contDiff_apply ℝ ℝ (2 : Fin 3)).contDiffAt
  have hu : ContDiffAt ℝ 1 (fun x : V3 => x 2 / npNorm x) p := h2.div hn hr0
  have hk : ContDiffAt ℝ 1 (fun x : V3 => R / npNorm x) p := contDiffAt_const.div hn hr0
  have hm : ContDiffAt ℝ 1 (fun x : V3 => μ / npNorm x) p := contDiffAt_const.div hn hr0
  unfold geopotential legendre2 legendre3 legendre4
  fun_prop

theorem geopotential_curve (μ R J2 J3 J4 : ℝ) {x : ℝ → V3} {v : V3} {t : ℝ} (hx : x t ≠ 0) (h : HasDerivAt x v t) :
    HasDerivAt (fun t => geopotential μ R J2 J3 J4 (x t)) (geoGradient μ R J2 J3 J4 (x t) ⬝ᵥ v) t := by
  have hd := geopotential_differentiable μ R J2 J3 J4 hx
  have h1 := hd.hasFDerivAt.comp_hasDerivAt t h
  have line : HasDerivAt (fun s : ℝ => x t + s • v) v 0 := by
    simpa using ((hasDerivAt_id (0 : ℝ)).smul_const v).const_add (x t)
  have h2 : HasDerivAt (fun s : ℝ => geopotential μ R J2 J3 J4 (x t + s • v))
      (fderiv ℝ (geopotential μ R J2 J3 J4) (x t) v) 0 := by
    have hd' : HasFDerivAt (geopotential μ R J2 J3 J4) (fderiv ℝ (geopotential μ R J2 J3 J4) (x t))
        (x t + (0 : ℝ) • v) := by simpa using hd.hasFDerivAt
    exact hd'.comp_hasDerivAt 0 line
  rw [← h2.unique (geoGradient_isGradient μ R J2 J3 J4 hx v)]
  exact h1

/-- What the wrong signs do to the energy. -/
noncomputable def wrongPower (x v : V3) : ℝ :=
  -(Plain.MU / npNorm x ^ 2 * signError x) * ((x 0 * v 0 + x 1 * v 1) / npNorm x)

theorem zonal_rate {x v : ℝ → V3} {lo hi t : ℝ} (hO : Spec.Orbit true x v lo hi) (ht : t ∈ Set.Ioo lo hi) :
    HasDerivAt (fun t => Spec.zonalEnergy (x t) (v t)) (wrongPower (x t) (v t)) t := by
  obtain ⟨h1, a, ha, h2⟩ := hO t ht
  have hx := gravity_ok ha
  obtain ⟨b, hb, e⟩ := code_eq hx
  rw [ha, Except.ok.injEq] at hb
  subst hb
  have hi := hasDerivAt_pi.1 h2
  have hk : HasDerivAt (fun t => (v t ⬝ᵥ v t) / 2) (a ⬝ᵥ v t) t := by
    have := ((((hi 0).mul (hi 0)).add ((hi 1).mul (hi 1))).add ((hi 2).mul (hi 2))).div_const 2
    refine (this.congr_deriv (g' := a ⬝ᵥ v t) (by rw [Matrix.vec3_dotProduct]; ring)).congr_of_eventuallyEq ?_
    exact Filter.Eventually.of_forall fun s => by simp [Matrix.vec3_dotProduct]
  refine (hk.fun_sub (geopotential_curve Spec.mu 6.378137e6 1.08262668355e-3 (-2.53265648533e-6)
    (-1.61962159137e-6) hx h1)).congr_deriv ?_
  have e2 : geoGradient Spec.mu 6.378137e6 1.08262668355e-3 (-2.53265648533e-6) (-1.61962159137e-6) (x t) =
    trueField (x t) := rfl
  rw [e2, e, ← sub_dotProduct]
  simp only [wrongPower, Matrix.vec3_dotProduct, Pi.sub_apply, Pi.smul_apply, smul_eq_mul, Matrix.cons_val_zero,
    Matrix.cons_val_one, cons3_2]
  ring

/-- C190 fails: a satellite over the equator that moves upwards loses or gains energy. -/
theorem C190_energy_fails : ¬ C190_claim := by
  intro hc
  have hnorm : npNorm (![7000000, 0, 0] : V3) = 7000000 := by
    rw [npNorm, Fin.sum_univ_three]; simp
  obtain ⟨x, v, ε, hε, hx0, hv0, hO⟩ := C141_exists true (x0 := ![7000000, 0, 0])
    (fun h => by simpa using congrFun h 0) ![1000, 0, 0]
  have h00 : (0 : ℝ) ∈ Set.Ioo (-ε) ε := ⟨by linarith, hε⟩
  have hcont : ContinuousAt (fun t => npNorm (x t)) 0 := by
    obtain ⟨h1, a, ha, -⟩ := hO 0 h00
    exact (hasDerivAt_norm_curve (gravity_ok ha) h1).continuousAt
  have hev : ∀ᶠ t in nhds (0 : ℝ), (6.378137e6 : ℝ) < npNorm (x t) :=
    hcont.eventually_const_lt (by simp only [hx0, hnorm]; norm_num)
  obtain ⟨δ, hδ, hball⟩ := Metric.eventually_nhds_iff.1 hev
  set η := min ε δ with hη
  have hη0 : 0 < η := lt_min hε hδ
  have hO' : Spec.Orbit true x v (-η) η := fun t ht =>
    hO t ⟨by linarith [ht.1, min_le_left ε δ], by linarith [ht.2, min_le_left ε δ]⟩
  have h0η : (0 : ℝ) ∈ Set.Ioo (-η) η := ⟨by linarith, hη0⟩
  have key := hc x v (-η) η hO' (fun t ht => (hball (by
    rw [Real.dist_eq, sub_zero, abs_lt]
    exact ⟨by linarith [ht.1, min_le_right ε δ], by linarith [ht.2, min_le_right ε δ]⟩)).le) 0 h0η
  have h1 := zonal_rate hO' h0η
  have h2 : HasDerivAt (fun t => Spec.zonalEnergy (x t) (v t)) 0 0 :=
    (hasDerivAt_const (0 : ℝ) (Spec.zonalEnergy (x 0) (v 0))).congr_of_eventuallyEq
      (Filter.mem_of_superset (isOpen_Ioo.mem_nhds h0η) fun t ht => (key t ht).symm)
  have h3 := h1.unique h2
  rw [hx0, hv0] at h3
  have hμ := MU_pos
  simp only [wrongPower, signError, hnorm, Matrix.cons_val_zero, Matrix.cons_val_one, cons3_2, Plain.J3, Plain.J4,
    Plain.earthRad] at h3
  norm_num at h3
  exact hμ.ne' h3

theorem signError_le {x : V3} (hr : 6.378137e6 ≤ npNorm x) : |signError x| ≤ 1e-4 := by
  have hr0 : 0 < npNorm x := lt_of_lt_of_le (by norm_num) hr
  have hu : |x 2 / npNorm x| ≤ 1 := by
    rw [abs_div, abs_of_pos hr0, div_le_one hr0]
    refine abs_le_of_sq_le_sq ?_ hr0.le
    rw [npNorm3_sq]; nlinarith [sq_nonneg (x 0), sq_nonneg (x 1)]
  have hk : Plain.earthRad / npNorm x ≤ 1 := by rw [div_le_one hr0]; exact hr
  have hk0 : 0 ≤ Plain.earthRad / npNorm x := div_nonneg (by norm_num [Plain.earthRad]) hr0.le
  simp only [signError]
  generalize x 2 / npNorm x = u at *
  generalize Plain.earthRad / npNorm x = k at *
  obtain ⟨u1, u2⟩ := abs_le.1 hu
  have hu2 : u ^ 2 ≤ 1 := by nlinarith
  have c1 : |7 * u ^ 3 - 3 * u| ≤ 4 := by
    rw [show 7 * u ^ 3 - 3 * u = u * (7 * u ^ 2 - 3) by ring, abs_mul]
    have : |7 * u ^ 2 - 3| ≤ 4 := by rw [abs_le]; constructor <;> nlinarith [sq_nonneg u]
    nlinarith [abs_nonneg u, abs_nonneg (7 * u ^ 2 - 3)]
  have c2 : |3 - 42 * u ^ 2 + 63 * u ^ 4| ≤ 24 := by
    have : u ^ 4 = u ^ 2 * u ^ 2 := by ring
    rw [this]
    have hw : 0 ≤ u ^ 2 := sq_nonneg u
    generalize u ^ 2 = w at *
    rw [abs_le]; constructor <;> nlinarith [sq_nonneg (w - 1 / 3)]
  have k3 : k ^ 3 ≤ 1 := pow_le_one₀ hk0 hk
  have k4 : k ^ 4 ≤ 1 := pow_le_one₀ hk0 hk
  have d1 : |5 * Plain.J3 * k ^ 3 * (7 * u ^ 3 - 3 * u)| ≤ 5.1e-5 := by
    rw [abs_mul, abs_mul, abs_of_nonneg (pow_nonneg hk0 3)]
    have : |5 * Plain.J3| ≤ 1.27e-5 := by rw [Plain.J3, abs_le]; constructor <;> norm_num
    calc |5 * Plain.J3| * k ^ 3 * |7 * u ^ 3 - 3 * u| ≤ 1.27e-5 * 1 * 4 := by gcongr
      _ ≤ 5.1e-5 := by norm_num
  have d2 : |5 / 4 * Plain.J4 * k ^ 4 * (3 - 42 * u ^ 2 + 63 * u ^ 4)| ≤ 4.9e-5 := by
    rw [abs_mul, abs_mul, abs_of_nonneg (pow_nonneg hk0 4)]
    have : |5 / 4 * Plain.J4| ≤ 2.03e-6 := by rw [Plain.J4, abs_le]; constructor <;> norm_num
    calc |5 / 4 * Plain.J4| * k ^ 4 * |3 - 42 * u ^ 2 + 63 * u ^ 4| ≤ 2.03e-6 * 1 * 24 := by gcongr
      _ ≤ 4.9e-5 := by norm_num
  refine (abs_add_le _ _).trans ?_
  linarith

/-- C190 (partial): the power that the wrong signs add is at most a ten-thousandth of the weight times the speed. -/
theorem C190_rate_partial {x v : ℝ → V3} {lo hi t : ℝ} (hO : Spec.Orbit true x v lo hi) (ht : t ∈ Set.Ioo lo hi)
    (hr : 6.378137e6 ≤ npNorm (x t)) : ∃ p, HasDerivAt (fun t => Spec.zonalEnergy (x t) (v t)) p t ∧
      |p| ≤ 1e-4 * (Spec.mu / npNorm (x t) ^ 2) * npNorm (v t) := by
  refine ⟨_, zonal_rate hO ht, ?_⟩
  have hr0 : 0 < npNorm (x t) := lt_of_lt_of_le (by norm_num) hr
  have h1 := signError_le hr
  have h2 : |(x t 0 * v t 0 + x t 1 * v t 1) / npNorm (x t)| ≤ npNorm (v t) := by
    rw [abs_div, abs_of_pos hr0, div_le_iff₀ hr0]
    refine abs_le_of_sq_le_sq ?_ (mul_nonneg (npNorm_nonneg _) hr0.le)
    rw [mul_pow, npNorm3_sq, npNorm3_sq]
    nlinarith [sq_nonneg (x t 0 * v t 1 - x t 1 * v t 0), sq_nonneg (x t 2), sq_nonneg (v t 2),
      mul_nonneg (sq_nonneg (v t 2)) (sq_nonneg (x t 0)), mul_nonneg (sq_nonneg (v t 2)) (sq_nonneg (x t 1)),
      mul_nonneg (sq_nonneg (v t 2)) (sq_nonneg (x t 2)), mul_nonneg (sq_nonneg (v t 0)) (sq_nonneg (x t 2)),
      mul_nonneg (sq_nonneg (v t 1)) (sq_nonneg (x t 2))]
  have hμ : 0 < Spec.mu := mu_eq ▸ MU_pos
  rw [wrongPower, mu_eq, abs_mul, abs_neg, abs_mul, abs_of_nonneg (by positivity : 0 ≤ Spec.mu / npNorm (x t) ^ 2)]
  calc Spec.mu / npNorm (x t) ^ 2 * |signError (x t)| * |(x t 0 * v t 0 + x t 1 * v t 1) / npNorm (x t)|
      ≤ Spec.mu / npNorm (x t) ^ 2 * 1e-4 * npNorm (v t) := by gcongr
    _ = _ := by ring

/-- C190 (partial): so in a time `T`, with a speed of at most `V`, the energy changes by at most a ten-thousandth of
`g V T`, where `g` is the gravity on the ground. -/
theorem C190_drift_partial {x v : ℝ → V3} {lo hi V : ℝ} (hO : Spec.Orbit true x v lo hi)
    (hr : ∀ t ∈ Set.Ioo lo hi, 6.378137e6 ≤ npNorm (x t)) (hV : ∀ t ∈ Set.Ioo lo hi, npNorm (v t) ≤ V) {s t : ℝ}
    (hs : s ∈ Set.Ioo lo hi) (ht : t ∈ Set.Ioo lo hi) :
    |Spec.zonalEnergy (x t) (v t) - Spec.zonalEnergy (x s) (v s)| ≤
      1e-4 * (Spec.mu / 6.378137e6 ^ 2) * V * |t - s| := by
  have hμ : 0 < Spec.mu := mu_eq ▸ MU_pos
  have hV0 : 0 ≤ V := (npNorm_nonneg _).trans (hV s hs)
  have := (convex_Ioo lo hi).norm_image_sub_le_of_norm_hasDerivWithin_le
    (f := fun t => Spec.zonalEnergy (x t) (v t)) (f' := fun t => wrongPower (x t) (v t))
    (C := 1e-4 * (Spec.mu / 6.378137e6 ^ 2) * V) (x := s) (y := t)
    (fun u hu => (zonal_rate hO hu).hasDerivWithinAt) (fun u hu => by
      obtain ⟨p, hp, hb⟩ := C190_rate_partial hO hu (hr u hu)
      rw [(zonal_rate hO hu).unique hp, Real.norm_eq_abs]
      refine hb.trans ?_
      have := hr u hu
      have := hV u hu
      have := npNorm_nonneg (v u)
      gcongr) hs ht
  simpa only [Real.norm_eq_abs] using this

/-- The factors of the high-fidelity acceleration across and along the Earth's axis. -/
noncomputable def zonalAcross (r z : ℝ) : ℝ :=
  let u := z / r
  let k := Plain.earthRad / r
  let c := -Plain.MU / r ^ 2
  c * (1 / r * (1 + 3 / 2 * Plain.J2 * k ^ 2 * (1 - 5 * u ^ 2)
    + 5 / 2 * Plain.J3 * k ^ 3 * (7 * u ^ 3 - 3 * u) + 5 / 8 * Plain.J4 * k ^ 4 * (3 - 42 * u ^ 2 + 63 * u ^ 4)))
noncomputable def zonalAlong (r z : ℝ) : ℝ :=
  let u := z / r
  let k := Plain.earthRad / r
  let c := -Plain.MU / r ^ 2
  c * (u + 3 / 2 * Plain.J2 * k ^ 2 * (3 - 5 * u ^ 2) * u
    + 3 / 2 * Plain.J3 * k ^ 3 * (10 * u ^ 2 - 35 / 3 * u ^ 4 - 1)
    - 5 / 8 * Plain.J4 * k ^ 4 * (15 - 70 * u ^ 2 + 63 * u ^ 4) * u)

theorem zonal_form {p : V3} (hp : p ≠ 0) : Plain.gravityAccel true p (npNorm p) =
    .ok ![zonalAcross (npNorm p) (p 2) * p 0, zonalAcross (npNorm p) (p 2) * p 1, zonalAlong (npNorm p) (p 2)] := by
  have hr := npNorm_pos hp
  simp only [Plain.gravityAccel, npDiv, if_neg (pow_pos hr 2).ne', if_true, Plain.hiFiGravity, if_neg hr.ne',
    Except.ok.injEq]
  apply vec3_ext <;>
  · simp only [zonalAcross, zonalAlong, Pi.smul_apply, Pi.add_apply, smul_eq_mul,
      Matrix.cons_val_zero, Matrix.cons_val_one, cons3_2]
    ring

/-- Specification: the mirror image in the plane through the Earth's axis with the unit normal `w`. -/
def Spec.mirror (w x : V3) : V3 := x - (2 * (w ⬝ᵥ x)) • w

theorem mirror_norm {w : V3} (hw : w ⬝ᵥ w = 1) (x : V3) : npNorm (Spec.mirror w x) = npNorm x := by
  refine (sq_eq_sq₀ (npNorm_nonneg _) (npNorm_nonneg _)).1 ?_
  rw [npNorm3_sq, npNorm3_sq]
  rw [Matrix.vec3_dotProduct] at hw
  simp only [Spec.mirror, Pi.sub_apply, Pi.smul_apply, smul_eq_mul, Matrix.vec3_dotProduct]
  linear_combination 4 * (w 0 * x 0 + w 1 * x 1 + w 2 * x 2) ^ 2 * hw

theorem mirror_deriv {w : V3} {x : ℝ → V3} {v : V3} {t : ℝ} (h : HasDerivAt x v t) :
    HasDerivAt (fun s => Spec.mirror w (x s)) (Spec.mirror w v) t := by
  have hi := hasDerivAt_pi.1 h
  refine hasDerivAt_pi.2 fun i => ?_
  simp only [Spec.mirror, Pi.sub_apply, Pi.smul_apply, smul_eq_mul, Matrix.vec3_dotProduct]
  exact (hi i).fun_sub (((((hi 0).const_mul (w 0)).fun_add ((hi 1).const_mul (w 1))).fun_add
    ((hi 2).const_mul (w 2))).const_mul 2 |>.mul_const (w i))

/-- The mirror image of a motion, backwards, is a motion. -/
theorem mirror_orbit {w : V3} (hw : w ⬝ᵥ w = 1) (hw2 : w 2 = 0) {x v : ℝ → V3} {t0 h : ℝ}
    (hO : Spec.Orbit true x v (t0 - h) (t0 + h)) :
    Spec.Orbit true (fun t => Spec.mirror w (x (2 * t0 - t))) (fun t => -Spec.mirror w (v (2 * t0 - t)))
      (t0 - h) (t0 + h) := by
  intro t ht
  obtain ⟨h1, a, ha, h2⟩ := hO (2 * t0 - t) ⟨by linarith [ht.2], by linarith [ht.1]⟩
  have hne := gravity_ok ha
  have hne' : Spec.mirror w (x (2 * t0 - t)) ≠ 0 := by
    intro e
    have := mirror_norm hw (x (2 * t0 - t))
    rw [e, npNorm_eq_zero.2 rfl] at this
    exact (npNorm_pos hne).ne this
  have r1 := (mirror_deriv (w := w) h1).scomp t ((hasDerivAt_id t).const_sub (2 * t0))
  have r2 := ((mirror_deriv (w := w) h2).scomp t ((hasDerivAt_id t).const_sub (2 * t0))).fun_neg
  refine ⟨r1.congr_deriv (by simp), Spec.mirror w a, ?_, r2.congr_deriv (by simp)⟩
  rw [zonal_form hne, Except.ok.injEq] at ha
  rw [zonal_form hne', Except.ok.injEq, mirror_norm hw]
  subst ha
  apply vec3_ext <;>
  · simp only [Spec.mirror, Pi.sub_apply, Pi.smul_apply, smul_eq_mul, Matrix.vec3_dotProduct, hw2,
      Matrix.cons_val_zero, Matrix.cons_val_one, cons3_2]
    ring_nf

theorem mirror_energy {w : V3} (hw : w ⬝ᵥ w = 1) (hw2 : w 2 = 0) (x v : V3) :
    Spec.zonalEnergy (Spec.mirror w x) (-Spec.mirror w v) = Spec.zonalEnergy x v := by
  have e2 : (Spec.mirror w x) 2 = x 2 := by simp [Spec.mirror, hw2]
  have e3 : (-Spec.mirror w v) ⬝ᵥ (-Spec.mirror w v) = v ⬝ᵥ v := by
    have h1 := mirror_norm hw v
    have h2 := npNorm3_sq (Spec.mirror w v)
    rw [h1, npNorm3_sq] at h2
    simp only [Matrix.vec3_dotProduct, Pi.neg_apply]
    linarith
  simp only [Spec.zonalEnergy, geopotential, mirror_norm hw, e2, e3]

/-- C190 (partial): the change of the energy is undone where the motion is its own mirror image. A satellite that
crosses a plane through the Earth's axis at right angles has, any time after this, the energy that it had the same
time before. -/
theorem C190_mirror_partial {w : V3} (hw : w ⬝ᵥ w = 1) (hw2 : w 2 = 0) {x v : ℝ → V3} {t0 h : ℝ}
    (hO : Spec.Orbit true x v (t0 - h) (t0 + h)) (hx : w ⬝ᵥ x t0 = 0) (hv : ∃ k : ℝ, v t0 = k • w) {s : ℝ}
    (hs : |s| < h) :
    x (t0 + s) = Spec.mirror w (x (t0 - s)) ∧ v (t0 + s) = -Spec.mirror w (v (t0 - s)) ∧
    Spec.zonalEnergy (x (t0 + s)) (v (t0 + s)) = Spec.zonalEnergy (x (t0 - s)) (v (t0 - s)) := by
  obtain ⟨k, hk⟩ := hv
  have hs' := abs_lt.1 hs
  have h0 : t0 ∈ Set.Ioo (t0 - h) (t0 + h) := ⟨by linarith [abs_nonneg s], by linarith [abs_nonneg s]⟩
  have et : 2 * t0 - t0 = t0 := by ring
  have key := C189_unique hO (mirror_orbit hw hw2 hO) h0
    (by simp only [et, Spec.mirror, hx]; simp)
    (by
      simp only [et, Spec.mirror, hk, dotProduct_smul, hw, smul_eq_mul, mul_one]
      module) (t0 + s) ⟨by linarith, by linarith⟩
  have es : 2 * t0 - (t0 + s) = t0 - s := by ring
  simp only [es] at key
  refine ⟨key.1, key.2, ?_⟩
  rw [key.1, key.2, mirror_energy hw hw2]

/-- A satellite at the northernmost point of its orbit, 800 km up, crosses a plane through the Earth's axis. -/
example : ∃ (x v : ℝ → V3) (h : ℝ), 0 < h ∧ Spec.Orbit true x v (0 - h) (0 + h) ∧ x 0 = ![6000000, 0, 4000000] ∧
    6.378137e6 ≤ npNorm (x 0) ∧ ![0, 1, 0] ⬝ᵥ x 0 = 0 ∧ ∃ k : ℝ, v 0 = k • ![0, 1, 0] := by
  obtain ⟨x, v, h, hh, hx, hv, hO⟩ := C141_exists true (x0 := ![6000000, 0, 4000000])
    (fun h => by simpa using congrFun h 0) ![0, 7450, 0]
  refine ⟨x, v, h, hh, by simpa using hO, hx, ?_, by simp [hx], 7450, by simp [hv]⟩
  rw [hx, npNorm, Fin.sum_univ_three]
  refine Real.le_sqrt_of_sq_le ?_
  simp only [Matrix.cons_val_zero, Matrix.cons_val_one, cons3_2]
  norm_num

end Adcs
