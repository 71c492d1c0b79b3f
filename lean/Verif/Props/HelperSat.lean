import Verif.Model.Examples
import Verif.Props.LimitedRuns

set_option autoImplicit false

/-! # C206: the satellite of the examples -/

namespace Adcs

open Str Sens JDay Quat Vec Dyn Ctl Spec Set Filter Topology Examples
open scoped Matrix

/-! ## The claim -/

/-- The claim: both `make_satellite` functions give the same satellite, and the currents that the examples simulate are
within the limits of its torquers. -/
def C206_claim : Prop :=
  (∀ (stop : ℝ) (gains : Fin 2 → ℝ), ∃ sat, makeSatellite stop gains = .ok sat ∧
    makeSatelliteTemplate stop gains = .ok sat) ∧
  ∀ torquers, myTorquers = .ok torquers → ∀ i, |exampleCurrents i| ≤ (torquers i).maxA

/-! ## The wheels -/

theorem givenAxis_eq (k : Fin 4) : ∃ a b : ℝ, a ^ 2 = 1 ∧ b ^ 2 = 1 ∧ givenAxis k = ![a * (√6 / 4), b * (√6 / 4), 1 / 2] := by
  have hp : givenAxis k = pyramid (Real.pi / 6) (Real.pi / 4) k := by
    have e1 : Real.sin (Real.pi / 3) = Real.cos (Real.pi / 6) := by rw [Real.sin_pi_div_three, Real.cos_pi_div_six]
    have e2 : Real.cos (Real.pi / 3) = Real.sin (Real.pi / 6) := by rw [Real.cos_pi_div_three, Real.sin_pi_div_six]
    rw [givenAxis, pyramid, e1, e2, mul_div_assoc]
  obtain ⟨e0, e1, e2, e3⟩ := pyramid_eq (Real.pi / 6) (Real.pi / 4)
  have h6 : √3 / 2 * (√2 / 2) = √6 / 4 := by
    rw [show (6 : ℝ) = 3 * 2 by norm_num, Real.sqrt_mul (by norm_num)]; ring
  rw [Real.cos_pi_div_six, Real.sin_pi_div_six, Real.cos_pi_div_four, Real.sin_pi_div_four] at e0 e1 e2 e3
  rw [hp]
  fin_cases k
  · exact ⟨1, 1, by norm_num, by norm_num, by rw [one_mul, ← h6]; exact e0⟩
  · exact ⟨-1, 1, by norm_num, by norm_num, by rw [one_mul, ← h6, neg_one_mul, ← mul_neg]; exact e1⟩
  · exact ⟨-1, -1, by norm_num, by norm_num, by rw [← h6, neg_one_mul, ← mul_neg]; exact e2⟩
  · exact ⟨1, -1, by norm_num, by norm_num, by rw [one_mul, ← h6, neg_one_mul, ← mul_neg]; exact e3⟩

theorem axes_gram : ∑ k, npOuter (givenAxis k) (givenAxis k) = Matrix.diagonal ![3 / 2, 3 / 2, 1] := by
  have hp : ∀ k, givenAxis k = pyramid (Real.pi / 6) (Real.pi / 4) k := by
    intro k
    have e1 : Real.sin (Real.pi / 3) = Real.cos (Real.pi / 6) := by rw [Real.sin_pi_div_three, Real.cos_pi_div_six]
    have e2 : Real.cos (Real.pi / 3) = Real.sin (Real.pi / 6) := by rw [Real.cos_pi_div_three, Real.sin_pi_div_six]
    rw [givenAxis, pyramid, e1, e2, mul_div_assoc]
  obtain ⟨e0, e1, e2, e3⟩ := pyramid_eq (Real.pi / 6) (Real.pi / 4)
  rw [Real.cos_pi_div_six, Real.sin_pi_div_six, Real.cos_pi_div_four, Real.sin_pi_div_four] at e0 e1 e2 e3
  have h3 : √3 * √3 = 3 := Real.mul_self_sqrt (by norm_num)
  have h2 : √2 * √2 = 2 := Real.mul_self_sqrt (by norm_num)
  rw [Fin.sum_univ_four, hp, hp, hp, hp, e0, e1, e2, e3]
  ext i j
  fin_cases i <;> fin_cases j <;> simp [npOuter, Matrix.diagonal] <;> ring_nf <;>
    first
    | done
    | (rw [show √3 ^ 2 = 3 by rw [sq, h3], show √2 ^ 2 = 2 by rw [sq, h2]]; norm_num)
    | norm_num

theorem axes_dist (x : V3) (k : Fin 4) :
    (npPinv (axisMat givenAxis) *ᵥ x) k = givenAxis k ⬝ᵥ ![2 / 3 * x 0, 2 / 3 * x 1, x 2] := by
  have hg : axisMat givenAxis * (axisMat givenAxis)ᵀ = Matrix.diagonal ![3 / 2, 3 / 2, 1] := by
    rw [← axes_gram]
    ext i j
    simp [Matrix.mul_apply, axisMat, npOuter, Matrix.sum_apply]
  have hi : (Matrix.diagonal ![3 / 2, 3 / 2, 1] : M3)⁻¹ = Matrix.diagonal ![2 / 3, 2 / 3, 1] := by
    apply Matrix.inv_eq_right_inv
    rw [Matrix.diagonal_mul_diagonal, ← Matrix.diagonal_one]
    congr 1
    apply vec3_ext <;> norm_num
  rw [npPinv, hg, hi, ← Matrix.mulVec_mulVec, axisMat_transpose_mulVec]
  congr 1
  apply vec3_ext <;> simp [Matrix.mulVec_diagonal]

theorem axes_share (x : V3) (k : Fin 4) : ((npPinv (axisMat givenAxis) *ᵥ x) k) ^ 2 ≤ 7 / 12 * npNorm x ^ 2 := by
  obtain ⟨a, b, ha, hb, e⟩ := givenAxis_eq k
  have h6 : √6 ^ 2 = 6 := Real.sq_sqrt (by norm_num)
  rw [axes_dist, e, Matrix.vec3_dotProduct, npNorm3_sq]
  simp only [Matrix.cons_val_zero, Matrix.cons_val_one, cons3_2]
  have hc : ∀ u v w y0 y1 y2 : ℝ, (u * y0 + v * y1 + w * y2) ^ 2 ≤ (u ^ 2 + v ^ 2 + w ^ 2) * (y0 ^ 2 + y1 ^ 2 + y2 ^ 2) := by
    intro u v w y0 y1 y2
    linarith only [sq_nonneg (u * y1 - v * y0), sq_nonneg (u * y2 - w * y0), sq_nonneg (v * y2 - w * y1)]
  have := hc (a * (√6 / 4) * (2 / 3)) (b * (√6 / 4) * (2 / 3)) (1 / 2) (x 0) (x 1) (x 2)
  have e1 : (a * (√6 / 4) * (2 / 3)) ^ 2 + (b * (√6 / 4) * (2 / 3)) ^ 2 + (1 / 2) ^ 2 = 7 / 12 := by
    linear_combination √6 ^ 2 / 36 * (ha + hb) + 1 / 18 * h6
  rw [e1] at this
  refine le_trans (le_of_eq ?_) this
  ring

theorem myRw_ok : ∃ rw, myRwSystem = .ok rw := by
  refine (C39_constructible givenAxis (fun _ => 1.64023e-6) (fun _ => 1.02562e-6) (fun _ => by norm_num) 0.0005 true).2 ?_
  intro x hx
  have h := axes_gram
  have h1 : (∑ k, npOuter (givenAxis k) (givenAxis k)) *ᵥ x = 0 := by
    rw [Matrix.sum_mulVec]
    refine Finset.sum_eq_zero fun k _ => ?_
    funext i
    have : (npOuter (givenAxis k) (givenAxis k) *ᵥ x) i = givenAxis k i * (givenAxis k ⬝ᵥ x) := by
      simp [npOuter, Matrix.mulVec, dotProduct, Finset.mul_sum, mul_assoc]
    rw [this, hx k, mul_zero]; rfl
  rw [h] at h1
  apply vec3_ext
  · have := congrFun h1 0; simpa [Matrix.mulVec_diagonal] using this
  · have := congrFun h1 1; simpa [Matrix.mulVec_diagonal] using this
  · have := congrFun h1 2; simpa [Matrix.mulVec_diagonal] using this

theorem myRw_moments {rw' : RWSystem} (h : myRwSystem = .ok rw') :
    rw'.parallelMoment = Matrix.diagonal ![1.64023e-6 * (3 / 2), 1.64023e-6 * (3 / 2), 1.64023e-6] ∧
    rw'.orthogonalMoment = Matrix.diagonal ![1.02562e-6 * (5 / 2), 1.02562e-6 * (5 / 2), 1.02562e-6 * 3] := by
  have e := rwInit_eq h
  subst e
  constructor
  · show ∑ i, ((1.64023e-6 : ℝ) • npOuter (givenAxis i) (givenAxis i)) = _
    rw [← Finset.smul_sum, axes_gram, ← Matrix.diagonal_smul]
    congr 1
    apply vec3_ext <;> simp
  · show ∑ i, ((1.02562e-6 : ℝ) • ((1 : M3) - npOuter (givenAxis i) (givenAxis i))) = _
    rw [← Finset.smul_sum, Finset.sum_sub_distrib, axes_gram, Finset.sum_const, Finset.card_univ, Fintype.card_fin,
      ← Matrix.diagonal_one, ← Matrix.diagonal_smul, Matrix.diagonal_sub, ← Matrix.diagonal_smul]
    congr 1
    apply vec3_ext <;> simp <;> norm_num

theorem myTorquers_ok : ∃ t, myTorquers = .ok t ∧ (t 0).maxA = 0.0625 ∧ (t 1).maxA = 0.0625 ∧ (t 2).maxA = 0.2887 ∧
    (t 0).axis = ![1, 0, 0] ∧ (t 1).axis = ![0, 1, 0] ∧ (t 2).axis = ![0, 0, 1] ∧
    (t 0).mtType = "LinearRod" ∧ (t 1).mtType = "LinearRod" ∧ (t 2).mtType = "Square" := by
  have h : ∀ i : Fin 3, (![Magnetorquer.init "LinearRod" ![1, 0, 0] 0.0625, Magnetorquer.init "LinearRod" ![0, 1, 0] 0.0625,
      Magnetorquer.init "Square" ![0, 0, 1] 0.2887] : Fin 3 → Py Magnetorquer) i = .ok
        ((![⟨"LinearRod", ![1, 0, 0], 0.0625, npNorm (fun i => (![1, 0, 0] : V3) i * (1.87 * 0.0625)), some 6.28⟩,
          ⟨"LinearRod", ![0, 1, 0], 0.0625, npNorm (fun i => (![0, 1, 0] : V3) i * (1.87 * 0.0625)), some 6.28⟩,
          ⟨"Square", ![0, 0, 1], 0.2887, npNorm (fun i => (![0, 0, 1] : V3) i * 0.2887 * 1.584), some 14.9⟩] :
          Fin 3 → Magnetorquer) i) := by
    intro i
    fin_cases i <;> simp [Magnetorquer.init, mtActuate]
  exact ⟨_, pyForall_ok.2 h, rfl, rfl, rfl, rfl, rfl, rfl, rfl, rfl, rfl⟩

/-! ## The satellite -/

/-- The principal moments of the satellite with its wheels. -/
noncomputable def helperMoments : V3 :=
  ![1.378574142e-2 + 1.02562e-6 * (5 / 2) + 1.64023e-6 * (3 / 2),
    1.378854578e-2 + 1.02562e-6 * (5 / 2) + 1.64023e-6 * (3 / 2), 5.49370596e-3 + 1.02562e-6 * 3 + 1.64023e-6]

/-- What `make_satellite` gives. -/
theorem helper_sat {stop : ℝ} {gains : Fin 2 → ℝ} {sat : Satellite} (h : makeSatellite stop gains = .ok sat) :
    Built sat 3 ![0.1, 0.1, 0.2] 0.84 1 ∧ myRwSystem = .ok sat.rw ∧ sat.totalMoment = Matrix.diagonal helperMoments := by
  obtain ⟨t, ht, -⟩ := myTorquers_ok
  obtain ⟨rw', hrw⟩ := myRw_ok
  rw [makeSatellite, ht] at h
  simp only [hrw] at h
  have h' := h
  obtain ⟨-, -, e⟩ := satInit_eq h
  obtain ⟨m1, m2⟩ := myRw_moments hrw
  refine ⟨⟨principalMoments, fun i => principalMoments i * 0.1, false, rw', 3, t, myInstruments stop gains, ?_⟩, ?_, ?_⟩
  · rw [show (3 : ℝ) = 3.0 by norm_num, show (1 : ℝ) = 1.0 by norm_num]; exact h'
  · rw [e]; exact hrw
  · have e1 : sat.totalMoment = redMoment principalMoments (fun i => principalMoments i * 0.1) false rw' + rw'.parallelMoment := by
      rw [e]
    rw [e1, redMoment, if_neg (by simp), m1, m2, Matrix.diagonal_add, Matrix.diagonal_add]
    congr 1
    apply vec3_ext <;> simp [principalMoments, helperMoments]

theorem helper_range (i : Fin 3) : 0.005 ≤ helperMoments i ∧ helperMoments i ≤ 0.0138 := by
  fin_cases i <;> simp [helperMoments] <;> norm_num

theorem helper_limited {stop : ℝ} {gains : Fin 2 → ℝ} {sat : Satellite} (h : makeSatellite stop gains = .ok sat) :
    LimitedWheels sat 0.0005 :=
  ⟨4, givenAxis, _, _, fun _ => by norm_num, (helper_sat h).2.1⟩

theorem helper_pos {stop : ℝ} {gains : Fin 2 → ℝ} {sat : Satellite} (h : makeSatellite stop gains = .ok sat) :
    sat.totalMoment.PosDef := by
  rw [(helper_sat h).2.2]
  exact Matrix.PosDef.diagonal fun i => by linarith [(helper_range i).1]

theorem helper_inertia {stop : ℝ} {gains : Fin 2 → ℝ} {sat : Satellite} (h : makeSatellite stop gains = .ok sat) (x : V3) :
    npNorm (sat.totalMoment *ᵥ x) ≤ 0.0138 * npNorm x := by
  rw [(helper_sat h).2.2]
  refine abs_le_of_sq_le_sq' ?_ (by have := npNorm_nonneg x; positivity) |>.2
  rw [mul_pow, npNorm3_sq, npNorm3_sq]
  simp only [Matrix.mulVec_diagonal]
  have hk : ∀ i, (helperMoments i * x i) ^ 2 ≤ 0.0138 ^ 2 * x i ^ 2 := fun i => by
    rw [mul_pow]
    exact mul_le_mul_of_nonneg_right (pow_le_pow_left₀ (by linarith [(helper_range i).1]) (helper_range i).2 2) (sq_nonneg _)
  linarith [hk 0, hk 1, hk 2]

theorem helper_shares {stop : ℝ} {gains : Fin 2 → ℝ} {sat : Satellite} (h : makeSatellite stop gains = .ok sat) (x : V3)
    (i : Fin sat.rw.n) : |(sat.rw.distribution *ᵥ x) i| ≤ √(7 / 12) * npNorm x := by
  obtain ⟨-, hrw, -⟩ := helper_sat h
  have e := rwInit_eq hrw
  obtain ⟨r, hr⟩ : ∃ r, r = sat.rw := ⟨_, rfl⟩
  rw [← hr] at e
  revert i
  rw [← hr]
  subst e
  intro i
  refine abs_le_of_sq_le_sq ?_ (by have := npNorm_nonneg x; positivity)
  rw [mul_pow, Real.sq_sqrt (by norm_num)]
  exact axes_share x i

/-- **C206** (the part that holds). The function of the examples gives a satellite: its inertia is diagonal, although
products of inertia are given (C93), and is what the numbers say for the body and the four wheels. -/
theorem C206_builds_partial (stop : ℝ) (gains : Fin 2 → ℝ) : ∃ sat, makeSatellite stop gains = .ok sat ∧
    sat.mass = 3 ∧ sat.totalMoment = Matrix.diagonal ![0.013790765815, 0.013793570175, 0.00549842305] := by
  obtain ⟨t, ht, -⟩ := myTorquers_ok
  obtain ⟨rw', hrw⟩ := myRw_ok
  obtain ⟨m1, m2⟩ := myRw_moments hrw
  have hsat : ∃ sat, makeSatellite stop gains = .ok sat := by
    rw [makeSatellite, ht]
    simp only [hrw]
    apply satInit_ok
    · rw [redMoment, if_neg (by simp), m2, Matrix.diagonal_add, Matrix.det_diagonal, Fin.prod_univ_three]
      simp [principalMoments]; norm_num
    · rw [redMoment, if_neg (by simp), m1, m2, Matrix.diagonal_add, Matrix.diagonal_add, Matrix.det_diagonal,
        Fin.prod_univ_three]
      simp [principalMoments]; norm_num
  obtain ⟨sat, hs⟩ := hsat
  obtain ⟨hb, -, hm⟩ := helper_sat hs
  refine ⟨sat, hs, hb.mass_eq.1, hm.trans ?_⟩
  congr 1
  apply vec3_ext <;> simp [helperMoments] <;> norm_num

/-- **C206** (the part that holds). The wheels produce every torque up to `0.0005 √(12/7)` (0.65 mN m) exactly, and of
every greater size there is one that they do not. -/
theorem C206_torque_partial (stop : ℝ) (gains : Fin 2 → ℝ) (sat : Satellite) (h : makeSatellite stop gains = .ok sat) :
    (∀ cmd, npNorm cmd ≤ 0.0005 * √(12 / 7) → ∃ a, sat.rw.accelerations cmd = .ok a ∧ sat.rw.torque a = cmd) ∧
    ∀ r, 0.0005 * √(12 / 7) < r → ∃ cmd, npNorm cmd = r ∧
      ¬ ∃ a, sat.rw.accelerations cmd = .ok a ∧ sat.rw.torque a = cmd := by
  obtain ⟨-, hrw, -⟩ := helper_sat h
  have hs1 : √(7 / 12 : ℝ) * √(12 / 7) = 1 := by
    rw [← Real.sqrt_mul (by norm_num)]; norm_num
  have hs0 : 0 < √(7 / 12 : ℝ) := by positivity
  constructor
  · intro cmd hc
    obtain ⟨a, k, h1, -, hk1, h4, -, h6⟩ :=
      delivered_shares (ax := givenAxis) (fun _ => by norm_num) (by norm_num : (0 : ℝ) ≤ 0.0005) hrw cmd
    have : k = 1 := le_antisymm hk1 (h6 1 zero_le_one le_rfl fun i => by
      rw [one_mul]
      refine (helper_shares h cmd i).trans ?_
      nlinarith)
    exact ⟨a, h1, by rw [h4, this, one_smul]⟩
  · intro r hr
    obtain ⟨e1, e2, he1, he2, e⟩ := givenAxis_eq 0
    have h6 : √6 ^ 2 = 6 := Real.sq_sqrt (by norm_num)
    have hr0 : 0 < r := lt_trans (by positivity) hr
    set u : V3 := ![e1 * (√6 / 6), e2 * (√6 / 6), 1 / 2] with hu
    have hun : npNorm u = √(7 / 12) := by
      rw [npNorm, Fin.sum_univ_three]
      congr 1
      simp only [hu, Matrix.cons_val_zero, Matrix.cons_val_one, cons3_2]
      linear_combination √6 ^ 2 / 36 * (he1 + he2) + 1 / 18 * h6
    have hcn : npNorm ((r / √(7 / 12)) • u) = r := by
      rw [npNorm_smul, hun, abs_of_pos (by positivity)]
      field_simp
    refine ⟨(r / √(7 / 12)) • u, hcn, ?_⟩
    rintro ⟨a', h1', h2'⟩
    obtain ⟨a, k, h1, -, -, h4, h5, -⟩ :=
      delivered (ax := givenAxis) (fun _ => by norm_num) (by norm_num : (0 : ℝ) ≤ 0.0005) hrw ((r / √(7 / 12)) • u)
    rw [h1] at h1'
    rw [← Except.ok.inj h1', h4] at h2'
    have hne : (r / √(7 / 12)) • u ≠ 0 := by
      intro h0
      rw [h0] at hcn
      have : npNorm (0 : V3) = 0 := by simp [npNorm]
      linarith
    have hk : k = 1 := smul_left_injective ℝ hne (h2'.trans (one_smul ℝ _).symm)
    have := h5 0
    rw [hk, one_mul, axes_dist, e, Matrix.vec3_dotProduct] at this
    have ev : (![e1 * (√6 / 4), e2 * (√6 / 4), 1 / 2] : V3) 0 * (![2 / 3 * ((r / √(7 / 12)) • u) 0,
        2 / 3 * ((r / √(7 / 12)) • u) 1, ((r / √(7 / 12)) • u) 2] : V3) 0 +
        (![e1 * (√6 / 4), e2 * (√6 / 4), 1 / 2] : V3) 1 * (![2 / 3 * ((r / √(7 / 12)) • u) 0,
        2 / 3 * ((r / √(7 / 12)) • u) 1, ((r / √(7 / 12)) • u) 2] : V3) 1 +
        (![e1 * (√6 / 4), e2 * (√6 / 4), 1 / 2] : V3) 2 * (![2 / 3 * ((r / √(7 / 12)) • u) 0,
        2 / 3 * ((r / √(7 / 12)) • u) 1, ((r / √(7 / 12)) • u) 2] : V3) 2 = r / √(7 / 12) * (7 / 12) := by
      simp only [Matrix.cons_val_zero, Matrix.cons_val_one, cons3_2, Pi.smul_apply, smul_eq_mul, hu]
      linear_combination r / √(7 / 12) * (√6 ^ 2 / 36 * (he1 + he2) + 1 / 18 * h6)
    rw [ev] at this
    have hq : r / √(7 / 12) * (7 / 12) = r * √(7 / 12) := by
      have := Real.mul_self_sqrt (by norm_num : (0 : ℝ) ≤ 7 / 12)
      field_simp
      linarith
    rw [hq, abs_of_pos (by positivity)] at this
    nlinarith

theorem unit_sub_sq {x y : V4} (hx : npNorm x = 1) (hy : npNorm y = 1) : npNorm (x - y) ^ 2 ≤ 4 := by
  have h1 := npNorm_eq_one.1 hx
  have h2 := npNorm_eq_one.1 hy
  rw [npNorm_sq]
  calc ∑ i, (x - y) i ^ 2 ≤ ∑ i, (2 * x i ^ 2 + 2 * y i ^ 2) := Finset.sum_le_sum fun i _ => by
        have : (x - y) i = x i - y i := rfl
        rw [this]; linarith only [sq_nonneg (x i + y i)]
    _ = 4 := by rw [Finset.sum_add_distrib, ← Finset.mul_sum, ← Finset.mul_sum, h1, h2]; norm_num

theorem run_no_switch {c : RwController} {qc : V4} {tr0 tr : Trigger} {st0 st : SatState c.sat.rw.n} {t : ℝ} {n : ℕ}
    (h : Spec.WheelRun c qc tr0 st0 t tr st n) (hn : n = 0) : tr = tr0 := by
  induction h with
  | start => rfl
  | flow _ _ _ _ _ _ _ _ ih => exact ih hn
  | switch _ _ _ _ => omega

/-- **C206** (the part that holds). A controller with the damping of the manager and a natural frequency up to 0.06
brings the satellite from rest to any commanded attitude, whatever its attitude was, if the wheels hold no more than
0.5 mN m s: the error falls exponentially, with at most three switches of the sign. (With `obj_avoidance` on, a run is
one without objects in the way, as in C140.) -/
theorem C206_points_partial (natFreq : ℝ) (hf : 0 < natFreq) (hf' : natFreq ≤ 0.06) :
    ∃ k > 0, ∀ (stop : ℝ) (gains : Fin 2 → ℝ) (sat : Satellite), makeSatellite stop gains = .ok sat →
      ∀ (model : CtlModel) (c : RwController), model.sat = sat → RwController.init model 0.707 natFreq = .ok c →
      ∀ (av : Bool) (qc : V4), npNorm qc = 1 → ∀ (tr : Trigger) (st0 st : SatState c.sat.rw.n) (t : ℝ) (n : ℕ),
      npNorm st0.attrs.attitude = 1 → st0.attrs.bodyAngVel = 0 →
      npNorm (c.sat.rw.momentum st0.attrs.wheelVel) ≤ 0.0005 →
      Spec.WheelRun { c with objAvoidance := av } qc c.trigger st0 t tr st n →
      n ≤ 3 ∧ (tr.memory = 1 ∨ tr.memory = -1) ∧
        Spec.trackError c.alpha tr.memory qc st ≤ 648 * natFreq ^ 2 * Real.exp (-k * t) := by
  obtain ⟨k, hk, hall⟩ := C205_near (alpha := 2 * natFreq ^ 2) (gamma := 2 * 0.707 * natFreq) (hw := 0.3) (by positivity)
    (by positivity) (by norm_num) (by norm_num)
  refine ⟨k, hk, ?_⟩
  rintro stop gains sat hsat model c hm hc av qc hqc tr st0 st t n hu hw0 hB hrun
  obtain ⟨ha, hal, hga, hhw, hmem, hcs⟩ := C69_gains model 0.707 natFreq c hc
  rw [hm] at hcs
  subst hcs
  obtain ⟨hb, -, -⟩ := helper_sat hsat
  have hmom : npNorm (Spec.totalMomentum c.sat st0) ≤ 0.0005 := by
    rw [Spec.totalMomentum, hw0, Matrix.mulVec_zero, zero_add]; exact hB
  have herr : Spec.trackError (2 * natFreq ^ 2) c.trigger.memory qc st0 ≤ 8 * natFreq ^ 2 := by
    rw [Spec.trackError, hw0, hmem, one_smul, zero_dotProduct]
    have h1 := unit_sub_sq hu hqc
    nlinarith [sq_nonneg natFreq]
  have hV : √(7 / 12) * (√(2 * (8.0802 * natFreq ^ 2)) * 0.0005 + 0.0138 * (√(2 * natFreq ^ 2 * (8.0802 * natFreq ^ 2)) +
      2 * 0.707 * natFreq * √(2 * (8.0802 * natFreq ^ 2)))) ≤ 0.0005 := by
    have e1 : √(2 * (8.0802 * natFreq ^ 2)) = 4.02 * natFreq := by
      rw [show 2 * (8.0802 * natFreq ^ 2) = (4.02 * natFreq) ^ 2 by ring, Real.sqrt_sq (by positivity)]
    have e2 : √(2 * natFreq ^ 2 * (8.0802 * natFreq ^ 2)) = 4.02 * natFreq ^ 2 := by
      rw [show 2 * natFreq ^ 2 * (8.0802 * natFreq ^ 2) = (4.02 * natFreq ^ 2) ^ 2 by ring, Real.sqrt_sq (by positivity)]
    have e3 : √(7 / 12) ≤ 0.764 := by
      rw [Real.sqrt_le_left (by norm_num)]; norm_num
    rw [e1, e2]
    have hf2 : natFreq ^ 2 ≤ 0.0036 := by nlinarith
    have h0 : 4.02 * natFreq * 0.0005 + 0.0138 * (4.02 * natFreq ^ 2 + 2 * 0.707 * natFreq * (4.02 * natFreq)) ≤ 0.00061 := by
      nlinarith
    have h00 : 0 ≤ 4.02 * natFreq * 0.0005 + 0.0138 * (4.02 * natFreq ^ 2 + 2 * 0.707 * natFreq * (4.02 * natFreq)) := by
      positivity
    calc _ ≤ 0.764 * 0.00061 := mul_le_mul e3 h0 h00 (by norm_num)
      _ ≤ 0.0005 := by norm_num
  have hf2 : 0 < natFreq ^ 2 := by positivity
  obtain ⟨h1, h2, h3⟩ := hall { c with objAvoidance := av } hal hga 3 ![0.1, 0.1, 0.2] 0.84 1 hb (by norm_num) 0.0005 (by norm_num) (helper_limited hsat)
    0.0138 (√(7 / 12)) 0.0005 (8.0802 * natFreq ^ 2) (by norm_num) (by positivity) (helper_inertia hsat) (helper_shares hsat) hV
    qc hqc c.trigger tr st0 st t n hhw (Or.inl hmem) hu hmom (by nlinarith) hrun
  have hn : n ≤ 3 := by
    have : (4 * (2 * natFreq ^ 2) * 0.3 * n : ℝ) ≤ 8 * natFreq ^ 2 := h3.trans herr
    have h4 : (n : ℝ) < 4 := by
      by_contra h5
      push Not at h5
      nlinarith
    have : n < 4 := by exact_mod_cast h4
    omega
  refine ⟨hn, h1, ?_⟩
  rw [hal]
  refine h2.trans ?_
  have h3n : (3 : ℝ) ^ (n + 1) ≤ 81 := by
    calc (3 : ℝ) ^ (n + 1) ≤ 3 ^ 4 := pow_le_pow_right₀ (by norm_num) (by omega)
      _ = 81 := by norm_num
  have he : 0 ≤ Real.exp (-k * t) * Spec.trackError (2 * natFreq ^ 2) c.trigger.memory qc st0 := by
    refine mul_nonneg (Real.exp_pos _).le ?_
    rw [Spec.trackError, hw0, zero_dotProduct]
    positivity
  calc _ ≤ 81 * (Real.exp (-k * t) * Spec.trackError (2 * natFreq ^ 2) c.trigger.memory qc st0) :=
        mul_le_mul_of_nonneg_right h3n he
    _ ≤ 81 * (Real.exp (-k * t) * (8 * natFreq ^ 2)) := by
        have := (Real.exp_pos (-k * t)).le
        gcongr
    _ = _ := by ring

/-- **C206** (the part that holds). With the gains of the manager (0.707, 0.1) the same is known of states whose error
is less: from rest, attitudes up to 102 degrees from the command (`npNorm (q - qc) ^ 2 < 0.75`). -/
theorem C206_manager_partial :
    ∃ k > 0, ∀ (stop : ℝ) (gains : Fin 2 → ℝ) (sat : Satellite), makeSatellite stop gains = .ok sat →
      ∀ (model : CtlModel) (c : RwController), model.sat = sat → RwController.init model 0.707 0.1 = .ok c →
      ∀ (av : Bool) (qc : V4), npNorm qc = 1 → ∀ (tr : Trigger) (st0 st : SatState c.sat.rw.n) (t : ℝ) (n : ℕ),
      npNorm st0.attrs.attitude = 1 → npNorm (Spec.totalMomentum c.sat st0) ≤ 0.0004 →
      st0.attrs.bodyAngVel ⬝ᵥ st0.attrs.bodyAngVel / 2 + 0.02 * npNorm (st0.attrs.attitude - qc) ^ 2 < 0.015 →
      Spec.WheelRun { c with objAvoidance := av } qc c.trigger st0 t tr st n →
      n = 0 ∧ st.attrs.bodyAngVel ⬝ᵥ st.attrs.bodyAngVel / 2 + 0.02 * npNorm (st.attrs.attitude - qc) ^ 2 ≤
        0.045 * Real.exp (-k * t) := by
  obtain ⟨k, hk, hall⟩ := C205_near (alpha := 0.02) (gamma := 0.1414) (hw := 0.3) (by norm_num)
    (by norm_num) (by norm_num) (by norm_num)
  refine ⟨k, hk, ?_⟩
  rintro stop gains sat hsat model c hm hc av qc hqc tr st0 st t n hu hmom herr hrun
  obtain ⟨ha, hal, hga, hhw, hmem, hcs⟩ := C69_gains model 0.707 0.1 c hc
  rw [hm] at hcs
  subst hcs
  obtain ⟨hb, -, -⟩ := helper_sat hsat
  have hV : √(7 / 12) * (√(2 * 0.015) * 0.0004 + 0.0138 * (√(0.02 * 0.015) + 0.1414 * √(2 * 0.015))) ≤ 0.0005 := by
    have e1 : √(2 * 0.015 : ℝ) ≤ 0.17321 := by rw [Real.sqrt_le_left (by norm_num)]; norm_num
    have e2 : √(0.02 * 0.015 : ℝ) ≤ 0.017321 := by rw [Real.sqrt_le_left (by norm_num)]; norm_num
    have e3 : √(7 / 12 : ℝ) ≤ 0.764 := by rw [Real.sqrt_le_left (by norm_num)]; norm_num
    have h0 := Real.sqrt_nonneg (2 * 0.015)
    have h1 := Real.sqrt_nonneg (0.02 * 0.015)
    have h2 : √(2 * 0.015) * 0.0004 + 0.0138 * (√(0.02 * 0.015) + 0.1414 * √(2 * 0.015)) ≤ 0.00065 := by
      norm_num at e1 e2 ⊢
      linarith
    calc √(7 / 12) * (√(2 * 0.015) * 0.0004 + 0.0138 * (√(0.02 * 0.015) + 0.1414 * √(2 * 0.015))) ≤ 0.764 * 0.00065 :=
          mul_le_mul e3 h2 (by positivity) (by norm_num)
      _ ≤ (0.0005 : ℝ) := by norm_num
  have herr' : Spec.trackError 0.02 c.trigger.memory qc st0 < 0.015 := by
    rw [Spec.trackError, hmem, one_smul]; exact herr
  obtain ⟨h1, h2, h3⟩ := hall { c with objAvoidance := av } (hal.trans (by norm_num)) (hga.trans (by norm_num)) 3 ![0.1, 0.1, 0.2] 0.84 1 hb (by norm_num)
    0.0005 (by norm_num) (helper_limited hsat)
    0.0138 (√(7 / 12)) 0.0004 0.015 (by norm_num) (by positivity) (helper_inertia hsat) (helper_shares hsat) hV
    qc hqc c.trigger tr st0 st t n hhw (Or.inl hmem) hu hmom herr' hrun
  have hn : n = 0 := by
    have : (4 * 0.02 * 0.3 * n : ℝ) < 0.024 := by linarith
    have h4 : (n : ℝ) < 1 := by linarith
    have : n < 1 := by exact_mod_cast h4
    omega
  refine ⟨hn, ?_⟩
  subst hn
  have htr := run_no_switch hrun rfl
  rw [htr, hmem, zero_add, pow_one] at h2
  rw [Spec.trackError, one_smul] at h2
  rw [Spec.trackError, one_smul] at h2
  refine h2.trans ?_
  have := Real.exp_pos (-k * t)
  nlinarith

/-- Such runs exist: from rest, turned by half a turn, for an hour. -/
example : ∃ (sat : Satellite) (model : CtlModel) (c : RwController) (st0 st : SatState c.sat.rw.n) (tr : Trigger) (n : ℕ),
    makeSatellite 0 0 = .ok sat ∧ model.sat = sat ∧ RwController.init model 0.707 0.06 = .ok c ∧
    npNorm st0.attrs.attitude = 1 ∧ st0.attrs.attitude = ![0, 1, 0, 0] ∧ st0.attrs.bodyAngVel = 0 ∧
    npNorm (c.sat.rw.momentum st0.attrs.wheelVel) ≤ 0.0005 ∧
    Spec.WheelRun { c with objAvoidance := false } ![1, 0, 0, 0] c.trigger st0 3600 tr st n := by
  obtain ⟨sat, hsat, -⟩ := C206_builds_partial 0 0
  set model : CtlModel := ⟨sat, some exClock, some fun _ _ => .ok ![1, 0, 0]⟩ with hmodel
  have hc : RwController.init model 0.707 0.06 =
      .ok ⟨sat, exClock, some fun _ _ => .ok ![1, 0, 0], true, Trigger.init 1 0.3, 2 * 0.06 ^ 2, 2 * 0.707 * 0.06,
        sat.instruments.map fun i => setGains i Real.pi (2 * 0.06 ^ 2 * 1)⟩ := by
    unfold RwController.init
    simp only [hmodel]
    rw [if_neg (by norm_num)]
  obtain ⟨c, hc'⟩ : ∃ c : RwController, c = ⟨sat, exClock, some fun _ _ => .ok ![1, 0, 0], true, Trigger.init 1 0.3,
    2 * 0.06 ^ 2, 2 * 0.707 * 0.06, sat.instruments.map fun i => setGains i Real.pi (2 * 0.06 ^ 2 * 1)⟩ := ⟨_, rfl⟩
  rw [← hc'] at hc
  obtain ⟨ha, hal, hga, hhw, hmem, hcs⟩ := C69_gains model 0.707 0.06 c hc
  obtain ⟨-, c1, st1, -⟩ := exLoop 0 0 []
  have hcs' : c.sat = sat := hcs
  subst hcs'
  set x : SatState c.sat.rw.n := { arr := exRaw c.sat.rw.n, clock := none, attrs := { st1.attrs with wheelVel := 0 } } with hx
  set st0 := withSpin x ![0, 1, 0, 0] 0 0 with hst0
  have hq1 : npNorm (![1, 0, 0, 0] : V4) = 1 := npNorm_vec4 (by norm_num)
  have hq0 : npNorm (![0, 1, 0, 0] : V4) = 1 := npNorm_vec4 (by norm_num)
  have hm0 : c.sat.rw.momentum 0 = 0 := by
    funext i; simp [RWSystem.momentum, Wheel.momentum]
  have h00 : npNorm (0 : V3) = 0 := by simp [npNorm]
  have hV : √(7 / 12) * (√(2 * 0.03) * 0.0005 + 0.0138 * (√(c.alpha * 0.03) + c.gamma * √(2 * 0.03))) ≤ 0.0005 := by
    rw [hal, hga]
    have e1 : √(2 * 0.03 : ℝ) ≤ 0.245 := by rw [Real.sqrt_le_left (by norm_num)]; norm_num
    have e2 : √(2 * 0.06 ^ 2 * 0.03 : ℝ) ≤ 0.0148 := by rw [Real.sqrt_le_left (by norm_num)]; norm_num
    have e3 : √(7 / 12 : ℝ) ≤ 0.764 := by rw [Real.sqrt_le_left (by norm_num)]; norm_num
    have h2 : √(2 * 0.03) * 0.0005 + 0.0138 * (√(2 * 0.06 ^ 2 * 0.03) + 2 * 0.707 * 0.06 * √(2 * 0.03)) ≤ 0.00065 := by
      norm_num at e1 e2 ⊢
      linarith
    calc √(7 / 12) * (√(2 * 0.03) * 0.0005 + 0.0138 * (√(2 * 0.06 ^ 2 * 0.03) + 2 * 0.707 * 0.06 * √(2 * 0.03)))
        ≤ 0.764 * 0.00065 := mul_le_mul e3 h2 (by positivity) (by norm_num)
      _ ≤ (0.0005 : ℝ) := by norm_num
  obtain ⟨hb, -, -⟩ := helper_sat hsat
  obtain ⟨tr, st, n, hr⟩ := C205_exists { c with objAvoidance := false } ha (by show 0 < c.gamma; rw [hga]; norm_num) hb
    (by norm_num) (T := 0.0005) (by norm_num) (helper_limited hsat) rfl ⟨0, 0, 0, 0, 0, 0, 0⟩
    [sandwich 0 ![1, 0, 0], -Vec.normalizeV 0] (by rw [hc']; rfl) (by norm_num) (by positivity) (helper_inertia hsat)
    (helper_shares hsat) hV ![1, 0, 0, 0] hq1 c.trigger (by rw [hhw]; norm_num) (Or.inl hmem) st0 hq0
    (by
      show npNorm (c.sat.totalMoment *ᵥ 0 + c.sat.rw.momentum 0) ≤ 0.0005
      rw [Matrix.mulVec_zero, hm0, add_zero, h00]; norm_num)
    (by
      show (0 : V3) ⬝ᵥ 0 / 2 + c.alpha * npNorm (![0, 1, 0, 0] - c.trigger.memory • ![1, 0, 0, 0]) ^ 2 < 0.03
      have h1 := unit_sub_sq hq0 hq1
      rw [hmem, one_smul, hal, zero_dotProduct]
      nlinarith) 3600 (by norm_num)
  exact ⟨c.sat, model, c, st0, st, tr, n, hsat, rfl, hc, hq0, rfl, rfl, by
    show npNorm (c.sat.rw.momentum 0) ≤ 0.0005
    rw [hm0, h00]; norm_num, hr⟩

/-! ## What does not hold -/

/-- `template_objects.make_satellite` raises `UnboundLocalError`. -/
theorem C206_template (stop : ℝ) (gains : Fin 2 → ℝ) : makeSatelliteTemplate stop gains = .error .unboundLocal := by
  obtain ⟨t, ht, -⟩ := myTorquers_ok
  obtain ⟨rw', hrw⟩ := myRw_ok
  rw [makeSatelliteTemplate, ht]
  simp only [hrw]

/-- The current that the examples simulate is a million times what the torquer is allowed, and the moment that the
simulation takes for it is as much too great: nothing cuts it off. -/
theorem C206_current (torquers : Fin 3 → Magnetorquer) (h : myTorquers = .ok torquers) :
    10 ^ 6 * (torquers 2).maxA < |exampleCurrents 2| ∧
      ∃ m, sysActuate torquers exampleCurrents = .ok m ∧ npNorm m = 475200 := by
  obtain ⟨t, ht, m0, m1, m2, a0, a1, a2, t0, t1, t2⟩ := myTorquers_ok
  rw [h] at ht
  obtain rfl := Except.ok.inj ht
  refine ⟨by rw [m2]; simp [exampleCurrents]; norm_num, ![0, 0, 475200], ?_, ?_⟩
  · have hp : pyForall (fun i => (torquers i).actuate (exampleCurrents i)) = .ok ![0, 0, ![0, 0, 475200]] := by
      rw [pyForall_ok]
      intro i
      fin_cases i
      · simp [Magnetorquer.actuate, mtActuate, t0, a0, exampleCurrents]; rfl
      · simp [Magnetorquer.actuate, mtActuate, t1, a1, exampleCurrents]; rfl
      · simp [Magnetorquer.actuate, mtActuate, t2, a2, exampleCurrents]
        apply vec3_ext <;> norm_num
    rw [sysActuate, hp]
    show Except.ok (fun k => ∑ i, (![0, 0, ![0, 0, 475200]] : Fin 3 → V3) i k) = _
    congr 1
    funext k
    rw [Fin.sum_univ_three]
    simp
  · rw [npNorm, Fin.sum_univ_three]
    simp

/-- **C206** does not hold. -/
theorem C206_fails : ¬ C206_claim := by
  rintro ⟨h, -⟩
  obtain ⟨sat, -, h2⟩ := h 0 0
  rw [C206_template] at h2
  cases h2

/-- The second part does not hold either. -/
theorem C206_current_fails : ¬ ∀ torquers, myTorquers = .ok torquers → ∀ i, |exampleCurrents i| ≤ (torquers i).maxA := by
  intro h
  obtain ⟨t, ht, -, -, m2, -⟩ := myTorquers_ok
  have h1 := (C206_current t ht).1
  have h2 := h t ht 2
  rw [m2] at h1 h2
  norm_num at h1
  linarith

end Adcs
