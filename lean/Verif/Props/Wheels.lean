import Verif.Proofs.Wheels
import Mathlib.Algebra.Order.Star.Real
import Mathlib.Analysis.SpecialFunctions.Trigonometric.Basic

set_option autoImplicit false

/-! # C39-C42: reaction wheels and inertia -/

namespace Adcs

open Str Vec
open scoped Matrix

/-- The torque of wheel accelerations, in terms of the torque `par i * a i` of each wheel. -/
theorem torque_eq {n : ℕ} {ax : Fin n → V3} {par orth : Fin n → ℝ} (a : Fin n → ℝ) :
    ∑ i, (mkWheels ax par orth i).torque (a i) = axisMat ax *ᵥ (fun i => par i * a i) := by
  rw [axisMat_mulVec]
  apply Finset.sum_congr rfl
  intro i _
  funext k
  simp only [mkWheels, Wheel.init, Wheel.torque, Pi.smul_apply, smul_eq_mul]; ring

/-- Least squares: among all wheel torques with the same effect, the pseudo-inverse gives the smallest. -/
theorem pinv_least {n : ℕ} {A : Matrix (Fin 3) (Fin n) ℝ} (h : (A * Aᵀ).det ≠ 0) (cmd : V3)
    (t : Fin n → ℝ) (ht : A *ᵥ t = cmd) :
    (npPinv A *ᵥ cmd) ⬝ᵥ (npPinv A *ᵥ cmd) ≤ t ⬝ᵥ t := by
  set p := npPinv A *ᵥ cmd with hp
  have hAp : A *ᵥ p = cmd := by rw [hp, Matrix.mulVec_mulVec, pinv_right h, Matrix.one_mulVec]
  have hort : p ⬝ᵥ (t - p) = 0 := by
    have : p = Aᵀ *ᵥ ((A * Aᵀ)⁻¹ *ᵥ cmd) := by rw [hp, npPinv, ← Matrix.mulVec_mulVec]
    rw [this, dotProduct_comm, Matrix.dotProduct_mulVec, Matrix.vecMul_transpose, ← this,
      Matrix.mulVec_sub, ht, hAp, sub_self, zero_dotProduct]
  have : t ⬝ᵥ t = p ⬝ᵥ p + (t - p) ⬝ᵥ (t - p) := by
    have e : t = p + (t - p) := by abel
    conv_lhs => rw [e]
    rw [add_dotProduct, dotProduct_add, dotProduct_add, dotProduct_comm (t - p) p, hort]; ring
  rw [this]
  have : 0 ≤ (t - p) ⬝ᵥ (t - p) := Finset.sum_nonneg fun i _ => mul_self_nonneg _
  linarith

/-- `C39`: a system that can be constructed and is not torque limited realises every commanded torque
exactly, and with the least sum of squared wheel torques. -/
theorem C39_allocation {n : ℕ} (ax : Fin n → V3) (par orth : Fin n → ℝ) (hp : ∀ i, par i ≠ 0)
    (maxT : ℝ) (s : RWSystem) (hs : RWSystem.init (mkWheels ax par orth) maxT false = .ok s) (cmd : V3) :
    ∃ a, s.accelerations cmd = .ok a ∧ s.torque a = cmd ∧
      ∀ t : Fin s.n → ℝ, ∑ i, t i • (s.wheels i).axis = cmd →
        ∑ i, ((s.wheels i).parScalar * a i) ^ 2 ≤ ∑ i, t i ^ 2 := by
  have hsp := rwInit_spans hs
  obtain rfl := rwInit_eq hs
  have hA : (Matrix.of fun i j => (mkWheels ax par orth j).axis i) = axisMat ax := rfl
  refine ⟨fun i => (npPinv (axisMat ax) *ᵥ cmd) i / par i, ?_, ?_, ?_⟩
  · simp only [RWSystem.accelerations, RWSystem.wheelTorques]
    simp only [Bool.false_eq_true, if_false]
    rw [pyForall_ok]
    intro i
    simp [Wheel.acceleration, npDiv, mkWheels, Wheel.init, hp i]
    rfl
  · simp only [RWSystem.torque]
    rw [torque_eq]
    have : (fun i => par i * ((npPinv (axisMat ax) *ᵥ cmd) i / par i)) = npPinv (axisMat ax) *ᵥ cmd := by
      funext i; exact mul_div_cancel₀ _ (hp i)
    rw [this, Matrix.mulVec_mulVec, pinv_right hsp, Matrix.one_mulVec]
  · intro t ht
    have h1 := pinv_least hsp cmd t (by rw [axisMat_mulVec]; exact ht)
    have h2 : ∀ i, (mkWheels ax par orth i).parScalar *
        ((npPinv (axisMat ax) *ᵥ cmd) i / par i) = (npPinv (axisMat ax) *ᵥ cmd) i :=
      fun i => mul_div_cancel₀ _ (hp i)
    simp only [h2]
    simpa [dotProduct, sq] using h1

/-- `C39`: positive moments and axes that span space are enough for the constructor to succeed; no
other axes can be used. -/
theorem C39_constructible {n : ℕ} (ax : Fin n → V3) (par orth : Fin n → ℝ) (hp : ∀ i, 0 < par i)
    (maxT : ℝ) (lim : Bool) :
    (∃ s, RWSystem.init (mkWheels ax par orth) maxT lim = .ok s) ↔
      ∀ x : V3, (∀ i, ax i ⬝ᵥ x = 0) → x = 0 := by
  constructor
  · rintro ⟨s, hs⟩ x hx
    by_contra hne
    apply rwInit_spans hs
    apply Matrix.exists_mulVec_eq_zero_iff.1
    refine ⟨x, hne, ?_⟩
    rw [← Matrix.mulVec_mulVec]
    have : (axisMat ax)ᵀ *ᵥ x = 0 := by
      funext i; rw [axisMat_transpose_mulVec, hx i]; rfl
    rw [this, Matrix.mulVec_zero]
  · intro h
    have hd : (axisMat ax * (axisMat ax)ᵀ).det ≠ 0 :=
      det_ne_zero_of_inj fun x hx => h x (gram_ker ax hx)
    have := (parMoment_posDef ax par orth hp hd).det_pos
    simp only [RWSystem.init, npInv, if_neg this.ne']
    exact ⟨_, rfl⟩

/-- `C40`: with torque limiting, no wheel exceeds the limit and the realised torque is a non-negative
fraction of the command, all of it when no wheel is over the limit. -/
theorem C40_limited {n : ℕ} (ax : Fin n → V3) (par orth : Fin n → ℝ) (hp : ∀ i, par i ≠ 0)
    (maxT : ℝ) (hT : 0 ≤ maxT) (s : RWSystem)
    (hs : RWSystem.init (mkWheels ax par orth) maxT true = .ok s) (cmd : V3) :
    ∃ (a : Fin s.n → ℝ) (k : ℝ), s.accelerations cmd = .ok a ∧ (∀ i, |(s.wheels i).parScalar * a i| ≤ maxT) ∧
      0 ≤ k ∧ k ≤ 1 ∧ s.torque a = k • cmd ∧
      ((∀ i, |(s.distribution *ᵥ cmd) i| ≤ maxT) → s.torque a = cmd) := by
  have hsp := rwInit_spans hs
  obtain rfl := rwInit_eq hs
  have hA : (Matrix.of fun i j => (mkWheels ax par orth j).axis i) = axisMat ax := rfl
  set T := npPinv (axisMat ax) *ᵥ cmd with hTdef
  rcases n with _ | n
  · exfalso
    apply hsp
    have : axisMat ax * (axisMat ax)ᵀ = 0 := by ext i j; simp [Matrix.mul_apply]
    rw [this]; simp
  obtain ⟨y, hy, hle, hsame, k, hk0, hk1, hyk, -⟩ := C01_saturation T maxT hT
  have hAT : axisMat ax *ᵥ T = cmd := by
    rw [hTdef, Matrix.mulVec_mulVec, pinv_right hsp, Matrix.one_mulVec]
  have hpar : ∀ i, (mkWheels ax par orth i).parScalar = par i := fun _ => rfl
  have htor : ∑ i, (mkWheels ax par orth i).torque (y i / par i) = axisMat ax *ᵥ y := by
    rw [torque_eq]
    congr 1; funext i; exact mul_div_cancel₀ _ (hp i)
  refine ⟨fun i => y i / par i, k, ?_, ?_, hk0, hk1, ?_, ?_⟩
  · simp only [RWSystem.accelerations, RWSystem.wheelTorques]
    simp only [if_true, hA, ← hTdef, hy]
    rw [pyForall_ok]
    intro i
    simp [Wheel.acceleration, npDiv, mkWheels, Wheel.init, hp i]
  · intro i
    simp only [hpar]
    rw [mul_div_cancel₀ _ (hp i)]; exact hle i
  · simp only [RWSystem.torque]
    rw [htor, hyk, Matrix.mulVec_smul, hAT]
  · intro h
    simp only [RWSystem.torque]
    rw [htor, hsame h, hAT]

/-- Axes of the pyramid: inclination `θ` above the plane, azimuths 90 degrees apart. -/
noncomputable def pyramid (θ φ : ℝ) (i : Fin 4) : V3 :=
  ![Real.cos θ * Real.cos (φ + i * (Real.pi / 2)), Real.cos θ * Real.sin (φ + i * (Real.pi / 2)),
    Real.sin θ]

theorem pyramid_eq (θ φ : ℝ) :
    pyramid θ φ 0 = ![Real.cos θ * Real.cos φ, Real.cos θ * Real.sin φ, Real.sin θ] ∧
    pyramid θ φ 1 = ![Real.cos θ * -Real.sin φ, Real.cos θ * Real.cos φ, Real.sin θ] ∧
    pyramid θ φ 2 = ![Real.cos θ * -Real.cos φ, Real.cos θ * -Real.sin φ, Real.sin θ] ∧
    pyramid θ φ 3 = ![Real.cos θ * Real.sin φ, Real.cos θ * -Real.cos φ, Real.sin θ] := by
  have e2 : φ + 2 * (Real.pi / 2) = φ + Real.pi := by ring
  have e3 : φ + 3 * (Real.pi / 2) = (φ + Real.pi / 2) + Real.pi := by ring
  refine ⟨?_, ?_, ?_, ?_⟩
  · simp [pyramid]
  · simp [pyramid, Real.cos_add_pi_div_two, Real.sin_add_pi_div_two]
  · simp only [pyramid, Fin.coe_ofNat_eq_mod]
    norm_num only [Nat.cast_ofNat]
    rw [e2, Real.cos_add_pi, Real.sin_add_pi]
  · simp only [pyramid, Fin.coe_ofNat_eq_mod]
    norm_num only [Nat.cast_ofNat]
    rw [e3, Real.cos_add_pi, Real.sin_add_pi, Real.cos_add_pi_div_two, Real.sin_add_pi_div_two]
    simp

/-- Four identical wheels on the pyramid are a system, whatever the angles strictly between the limits. -/
theorem pyramid_spans (θ φ : ℝ) (h1 : Real.cos θ ≠ 0) (h2 : Real.sin θ ≠ 0) (x : V3)
    (hx : ∀ i, pyramid θ φ i ⬝ᵥ x = 0) : x = 0 := by
  obtain ⟨e0, e1, e2, e3⟩ := pyramid_eq θ φ
  have g0 := hx 0; have g1 := hx 1; have g2 := hx 2
  rw [e0] at g0; rw [e1] at g1; rw [e2] at g2
  simp only [Matrix.vec3_dotProduct] at g0 g1 g2
  simp at g0 g1 g2
  have hcs := Real.sin_sq_add_cos_sq φ
  have hz : x 2 = 0 := by
    have : Real.sin θ * x 2 = 0 := by linear_combination (g0 + g2) / 2
    exact (mul_eq_zero.1 this).resolve_left h2
  have ha : Real.cos φ * x 0 + Real.sin φ * x 1 = 0 := by
    have : Real.cos θ * (Real.cos φ * x 0 + Real.sin φ * x 1) = 0 := by rw [hz] at g0; linear_combination g0
    exact (mul_eq_zero.1 this).resolve_left h1
  have hb : -Real.sin φ * x 0 + Real.cos φ * x 1 = 0 := by
    have : Real.cos θ * (-Real.sin φ * x 0 + Real.cos φ * x 1) = 0 := by
      rw [hz] at g1; linear_combination g1
    exact (mul_eq_zero.1 this).resolve_left h1
  apply vec3_ext
  · simp only [Pi.zero_apply]
    linear_combination Real.cos φ * ha - Real.sin φ * hb - x 0 * hcs
  · simp only [Pi.zero_apply]
    linear_combination Real.sin φ * ha + Real.cos φ * hb - x 1 * hcs
  · exact hz

/-- `C41`: on the pyramid, exactly the multiples of (-1, 1, -1, 1) produce no torque and change no net
momentum. -/
theorem C41_null_motion (θ φ : ℝ) (hθ0 : 0 < θ) (hθ1 : θ < Real.pi / 2) (J : ℝ) (hJ : 0 < J)
    (orth : Fin 4 → ℝ) (maxT : ℝ) (lim : Bool) :
    ∃ s : RWSystem, RWSystem.init (mkWheels (pyramid θ φ) (fun _ => J) orth) maxT lim = .ok s ∧
      ∃ hn : s.n = 4, ∀ a : Fin 4 → ℝ,
        (s.torque (fun i => a (Fin.cast hn i)) = 0 ↔ ∃ c : ℝ, a = c • ![-1, 1, -1, 1]) ∧
        (∀ w : Fin 4 → ℝ, s.momentum (fun i => (w + a) (Fin.cast hn i)) =
            s.momentum (fun i => w (Fin.cast hn i)) ↔ ∃ c : ℝ, a = c • ![-1, 1, -1, 1]) := by
  have hc : Real.cos θ ≠ 0 := (Real.cos_pos_of_mem_Ioo ⟨by linarith, hθ1⟩).ne'
  have hsn : Real.sin θ ≠ 0 := (Real.sin_pos_of_pos_of_lt_pi hθ0 (by linarith [Real.pi_pos])).ne'
  obtain ⟨s, hs⟩ := (C39_constructible (pyramid θ φ) (fun _ => J) orth (fun _ => hJ) maxT lim).2
    (fun x hx => pyramid_spans θ φ hc hsn x hx)
  obtain rfl := rwInit_eq hs
  refine ⟨_, hs, rfl, ?_⟩
  intro a
  obtain ⟨e0, e1, e2, e3⟩ := pyramid_eq θ φ
  have hkey : axisMat (pyramid θ φ) *ᵥ (fun i => J * a i) = 0 ↔ ∃ c : ℝ, a = c • ![-1, 1, -1, 1] := by
    rw [axisMat_mulVec, Fin.sum_univ_four, e0, e1, e2, e3]
    have hcs := Real.sin_sq_add_cos_sq φ
    constructor
    · intro h
      have g0 := congrFun h 0; have g1 := congrFun h 1; have g2 := congrFun h 2
      simp at g0 g1 g2
      have k2 : a 0 + a 1 + a 2 + a 3 = 0 := by
        have : J * Real.sin θ * (a 0 + a 1 + a 2 + a 3) = 0 := by linear_combination g2
        exact (mul_eq_zero.1 this).resolve_left (mul_ne_zero hJ.ne' hsn)
      have hJc : J * Real.cos θ ≠ 0 := mul_ne_zero hJ.ne' hc
      have k0 : a 0 - a 2 = 0 := by
        have : J * Real.cos θ * (a 0 - a 2) = 0 := by
          linear_combination Real.cos φ * g0 + Real.sin φ * g1 - J * Real.cos θ * (a 0 - a 2) * hcs
        exact (mul_eq_zero.1 this).resolve_left hJc
      have k1 : a 1 - a 3 = 0 := by
        have : J * Real.cos θ * (a 1 - a 3) = 0 := by
          linear_combination -Real.sin φ * g0 + Real.cos φ * g1 - J * Real.cos θ * (a 1 - a 3) * hcs
        exact (mul_eq_zero.1 this).resolve_left hJc
      refine ⟨a 1, ?_⟩
      apply vec4_ext <;> simp <;> linarith
    · rintro ⟨c, rfl⟩
      apply vec3_ext <;> simp
  have hmom : ∀ w : Fin 4 → ℝ, ∑ i, (mkWheels (pyramid θ φ) (fun _ => J) orth i).momentum (w i) =
      axisMat (pyramid θ φ) *ᵥ (fun i => J * w i) := fun w => torque_eq w
  constructor
  · simp only [RWSystem.torque]
    rw [← hkey, ← torque_eq (orth := orth)]
    rfl
  · intro w
    change ∑ i, (mkWheels (pyramid θ φ) (fun _ => J) orth i).momentum ((w + a) i) =
      ∑ i, (mkWheels (pyramid θ φ) (fun _ => J) orth i).momentum (w i) ↔ _
    rw [hmom, hmom, ← hkey]
    have : (fun i => J * (w + a) i) = (fun i => J * w i) + (fun i => J * a i) := by
      funext i; simp only [Pi.add_apply]; ring
    rw [this, Matrix.mulVec_add, add_eq_left]

/-- The commands of the pyramid are a non-trivial case of C39 and C40. -/
example : ∃ s, RWSystem.init (mkWheels (pyramid (Real.pi / 4) 0) (fun _ => 1.64023e-6)
    (fun _ => 1.02562e-6)) 7e-3 true = .ok s ∧ (0 : ℝ) ≤ 7e-3 := by
  have hπ := Real.pi_pos
  obtain ⟨s, hs, -⟩ := C41_null_motion (Real.pi / 4) 0 (by linarith) (by linarith) 1.64023e-6
    (by norm_num) (fun _ => 1.02562e-6) 7e-3 true
  exact ⟨s, hs, by norm_num⟩

/-! ## Inertia -/

theorem orth_quadratic (a x : V3) (ha : npNorm a = 1) : 0 ≤ x ⬝ᵥ (x - (a ⬝ᵥ x) • a) := by
  have h := npNorm_eq_one.1 ha
  rw [Fin.sum_univ_three] at h
  rw [dotProduct_sub, dotProduct_smul, smul_eq_mul, dotProduct_comm x a]
  simp only [Matrix.vec3_dotProduct]
  have : x 0 * x 0 + x 1 * x 1 + x 2 * x 2 -
      (a 0 * x 0 + a 1 * x 1 + a 2 * x 2) * (a 0 * x 0 + a 1 * x 1 + a 2 * x 2) =
      (a 0 * x 1 - a 1 * x 0) ^ 2 + (a 0 * x 2 - a 2 * x 0) ^ 2 + (a 1 * x 2 - a 2 * x 1) ^ 2 := by
    linear_combination -(x 0 ^ 2 + x 1 ^ 2 + x 2 ^ 2) * h
  rw [this]; positivity

theorem orthMoment_posSemidef {n : ℕ} (ax : Fin n → V3) (par orth : Fin n → ℝ) (ha : ∀ i, npNorm (ax i) = 1)
    (ho : ∀ i, 0 ≤ orth i) : (∑ i, (mkWheels ax par orth i).orthogonalMoment).PosSemidef := by
  apply Matrix.PosSemidef.of_dotProduct_mulVec_nonneg
  · rw [Matrix.IsHermitian]
    ext i j
    simp only [Matrix.conjTranspose_apply, Matrix.sum_apply, star_trivial, mkWheels, Wheel.init,
      npOuter, Matrix.smul_apply, Matrix.of_apply, Matrix.sub_apply]
    apply Finset.sum_congr rfl; intro k _; simp [mul_comm, Matrix.one_apply, eq_comm]
  · intro x
    rw [orthMoment_mulVec, star_trivial, dotProduct_sum]
    apply Finset.sum_nonneg
    intro i _
    rw [dotProduct_smul]
    exact mul_nonneg (ho i) (orth_quadratic (ax i) x (ha i))

theorem parMoment_posSemidef {n : ℕ} (ax : Fin n → V3) (par orth : Fin n → ℝ) (hp : ∀ i, 0 ≤ par i) :
    (∑ i, (mkWheels ax par orth i).parallelMoment).PosSemidef := by
  apply Matrix.PosSemidef.of_dotProduct_mulVec_nonneg
  · rw [Matrix.IsHermitian]
    ext i j
    simp only [Matrix.conjTranspose_apply, Matrix.sum_apply, star_trivial, mkWheels, Wheel.init,
      npOuter, Matrix.smul_apply, Matrix.of_apply]
    apply Finset.sum_congr rfl; intro k _; simp [mul_comm]
  · intro x
    rw [parMoment_mulVec, star_trivial, dotProduct_sum]
    apply Finset.sum_nonneg
    intro i _
    rw [dotProduct_smul, smul_eq_mul, dotProduct_comm x, mul_assoc]
    exact mul_nonneg (hp i) (mul_self_nonneg _)

/-- `C42`: for positive principal moments, unit axes and non-negative wheel moments the constructor of
the satellite succeeds without products of inertia; both inertia matrices are symmetric positive
definite and the stored inverses are their inverses. -/
theorem C42_inertia {n : ℕ} (ax : Fin n → V3) (par orth : Fin n → ℝ) (ha : ∀ i, npNorm (ax i) = 1)
    (hp : ∀ i, 0 ≤ par i) (ho : ∀ i, 0 ≤ orth i) (maxT : ℝ) (lim : Bool) (rw : RWSystem)
    (hrw : RWSystem.init (mkWheels ax par orth) maxT lim = .ok rw)
    (mass : ℝ) (dims : V3) (ab cd : ℝ) (principal products : V3) (hP : ∀ i, 0 < principal i)
    {nMt : ℕ} (mt : Fin nMt → Magnetorquer) (ins : List Instrument) :
    ∃ sat, Satellite.init mass dims ab cd principal products false rw mt ins = .ok sat ∧
      sat.totalMoment.PosDef ∧ sat.reducedMoment.PosDef ∧
      sat.totalMoment * sat.invTotMoment = 1 ∧ sat.reducedMoment * sat.invRedMoment = 1 ∧
      sat.totalMoment = Matrix.diagonal principal +
        ∑ i, (orth i • ((1 : M3) - Matrix.vecMulVec (ax i) (ax i)) + par i • Matrix.vecMulVec (ax i) (ax i)) := by
  have ho' : rw.orthogonalMoment = ∑ i, (mkWheels ax par orth i).orthogonalMoment := by
    rw [rwInit_eq hrw]
  have hp' : rw.parallelMoment = ∑ i, (mkWheels ax par orth i).parallelMoment := by
    rw [rwInit_eq hrw]
  have hred : (redMoment principal products false rw).PosDef := by
    simp only [redMoment, Bool.false_eq_true, if_false]
    rw [ho']
    exact (Matrix.PosDef.diagonal hP).add_posSemidef (orthMoment_posSemidef ax par orth ha ho)
  have htot : (redMoment principal products false rw + rw.parallelMoment).PosDef := by
    rw [hp']
    exact hred.add_posSemidef (parMoment_posSemidef ax par orth hp)
  obtain ⟨sat, hsat⟩ := satInit_ok mass dims ab cd principal products false rw mt ins
    hred.det_pos.ne' htot.det_pos.ne'
  refine ⟨sat, hsat, ?_⟩
  obtain ⟨-, -, e⟩ := satInit_eq hsat
  have e1 : sat.totalMoment = redMoment principal products false rw + rw.parallelMoment := by rw [e]
  have e2 : sat.reducedMoment = redMoment principal products false rw := by rw [e]
  have e3 : sat.invTotMoment = (redMoment principal products false rw + rw.parallelMoment)⁻¹ := by rw [e]
  have e4 : sat.invRedMoment = (redMoment principal products false rw)⁻¹ := by rw [e]
  rw [e1, e2, e3, e4]
  refine ⟨htot, hred, Matrix.mul_nonsing_inv _ (isUnit_iff_ne_zero.2 htot.det_pos.ne'),
    Matrix.mul_nonsing_inv _ (isUnit_iff_ne_zero.2 hred.det_pos.ne'), ?_⟩
  simp only [redMoment, Bool.false_eq_true, if_false, ho', hp']
  simp only [mkWheels, Wheel.init, Finset.sum_add_distrib]
  rw [add_assoc]
  rfl

/-- `C42`: products of inertia, when used, enter symmetrically in the order xy, xz, yz. -/
theorem C42_products (p : V3) :
    productMatrix p = !![0, p 0, p 1; p 0, 0, p 2; p 1, p 2, 0] := by
  ext i j
  fin_cases i <;> fin_cases j <;> simp [productMatrix]

/-- `C42`, with products: the total inertia is the one without plus that matrix. -/
theorem C42_with_products {n : ℕ} (ax : Fin n → V3) (par orth : Fin n → ℝ) (maxT : ℝ) (lim : Bool)
    (rw : RWSystem) (hrw : RWSystem.init (mkWheels ax par orth) maxT lim = .ok rw)
    (mass : ℝ) (dims : V3) (ab cd : ℝ) (principal products : V3)
    {nMt : ℕ} (mt : Fin nMt → Magnetorquer) (ins : List Instrument) (sat : Satellite)
    (h : Satellite.init mass dims ab cd principal products true rw mt ins = .ok sat) :
    sat.totalMoment.IsSymm ∧ sat.totalMoment = Matrix.diagonal principal +
        !![0, products 0, products 1; products 0, 0, products 2; products 1, products 2, 0] +
        ∑ i, (orth i • ((1 : M3) - Matrix.vecMulVec (ax i) (ax i)) + par i • Matrix.vecMulVec (ax i) (ax i)) := by
  obtain rfl := rwInit_eq hrw
  have e : sat.totalMoment = Matrix.diagonal principal +
        !![0, products 0, products 1; products 0, 0, products 2; products 1, products 2, 0] +
        ∑ i, (orth i • ((1 : M3) - Matrix.vecMulVec (ax i) (ax i)) + par i • Matrix.vecMulVec (ax i) (ax i)) := by
    obtain ⟨-, -, rfl⟩ := satInit_eq h
    simp only [redMoment, if_true, mkWheels, Wheel.init, Finset.sum_add_distrib, C42_products]
    have : ∀ i, npOuter (ax i) (ax i) = Matrix.vecMulVec (ax i) (ax i) := fun _ => rfl
    simp only [this]
    abel
  refine ⟨?_, e⟩
  rw [e]
  have h1 : (Matrix.diagonal principal).IsSymm := Matrix.isSymm_diagonal _
  have h2 : (!![0, products 0, products 1; products 0, 0, products 2; products 1, products 2, 0] : M3).IsSymm := by
    rw [Matrix.IsSymm]; ext i j; fin_cases i <;> fin_cases j <;> rfl
  apply (h1.add h2).add
  rw [Matrix.IsSymm, Matrix.transpose_sum]
  apply Finset.sum_congr rfl
  intro i _
  simp [Matrix.transpose_vecMulVec]

/-- The hypotheses of `C42_inertia` are met by the satellite of the shipped example: three orthogonal
wheels. -/
example : ∃ rw, RWSystem.init (mkWheels (n := 3) ![![1, 0, 0], ![0, 1, 0], ![0, 0, 1]] (fun _ => 1e-6)
    (fun _ => 1e-6)) 1 true = .ok rw ∧ ∀ i : Fin 3, npNorm ((![![1, 0, 0], ![0, 1, 0], ![0, 0, 1]] : Fin 3 → V3) i) = 1 := by
  obtain ⟨s, hs⟩ := (C39_constructible (n := 3) ![![1, 0, 0], ![0, 1, 0], ![0, 0, 1]] (fun _ => 1e-6)
    (fun _ => 1e-6) (by intro i; norm_num) 1 true).2 (by
      intro x hx
      have h0 := hx 0; have h1 := hx 1; have h2 := hx 2
      simp at h0 h1 h2
      exact vec3_ext h0 h1 h2)
  refine ⟨s, hs, ?_⟩
  intro i; fin_cases i <;> exact npNorm_vec3 (by norm_num)

end Adcs
