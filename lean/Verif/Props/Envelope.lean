import Verif.Props.Wheels

set_option autoImplicit false

/-! # C187: torque is given up only when the wheels cannot produce it -/

namespace Adcs

open Str Vec
open scoped Matrix

/-- The wheels can produce a torque: there are torques of the single wheels, each within the limit, whose
sum is that torque. -/
def Spec.Producible (s : RWSystem) (cmd : V3) : Prop :=
  ∃ t : Fin s.n → ℝ, (∀ i, |t i| ≤ s.maxT) ∧ ∑ i, t i • (s.wheels i).axis = cmd

/-- The claim: a torque that the wheels can produce is produced. -/
def C187_claim : Prop :=
  ∀ (n : ℕ) (ax : Fin n → V3) (par orth : Fin n → ℝ) (maxT : ℝ) (s : RWSystem), (∀ i, 0 < par i) → 0 < maxT →
    RWSystem.init (mkWheels ax par orth) maxT true = .ok s → ∀ cmd, Spec.Producible s cmd →
      ∃ a, s.accelerations cmd = .ok a ∧ s.torque a = cmd

/-- What `accelerations` delivers: the torque times the largest factor that keeps every wheel within the
limit. -/
theorem delivered {n : ℕ} {ax : Fin n → V3} {par orth : Fin n → ℝ} (hp : ∀ i, par i ≠ 0) {maxT : ℝ} (hT : 0 ≤ maxT)
    {s : RWSystem} (hs : RWSystem.init (mkWheels ax par orth) maxT true = .ok s) (cmd : V3) :
    ∃ (a : Fin s.n → ℝ) (k : ℝ), s.accelerations cmd = .ok a ∧ 0 ≤ k ∧ k ≤ 1 ∧ s.torque a = k • cmd ∧
      (∀ i, |k * (npPinv (axisMat ax) *ᵥ cmd) i| ≤ maxT) ∧
      ∀ k' : ℝ, 0 ≤ k' → k' ≤ 1 → (∀ i, |k' * (npPinv (axisMat ax) *ᵥ cmd) i| ≤ maxT) → k' ≤ k := by
  have hsp := rwInit_spans hs
  obtain rfl := rwInit_eq hs
  have hA : (Matrix.of fun i j => (mkWheels ax par orth j).axis i) = axisMat ax := rfl
  set T := npPinv (axisMat ax) *ᵥ cmd with hTdef
  rcases n with _ | n
  · exfalso
    apply hsp
    have : axisMat ax * (axisMat ax)ᵀ = 0 := by ext i j; simp [Matrix.mul_apply]
    rw [this]; simp
  obtain ⟨y, hy, hle, -, k, hk0, hk1, hyk, hmax⟩ := C01_saturation T maxT hT
  have hAT : axisMat ax *ᵥ T = cmd := by
    rw [hTdef, Matrix.mulVec_mulVec, pinv_right hsp, Matrix.one_mulVec]
  have htor : ∑ i, (mkWheels ax par orth i).torque (y i / par i) = axisMat ax *ᵥ y := by
    rw [torque_eq]
    congr 1; funext i; exact mul_div_cancel₀ _ (hp i)
  refine ⟨fun i => y i / par i, k, ?_, hk0, hk1, ?_, ?_, ?_⟩
  · simp only [RWSystem.accelerations, RWSystem.wheelTorques]
    simp only [if_true, hA, ← hTdef, hy]
    rw [pyForall_ok]
    intro i
    simp [Wheel.acceleration, npDiv, mkWheels, Wheel.init, hp i]
  · simp only [RWSystem.torque]
    rw [htor, hyk, Matrix.mulVec_smul, hAT]
  · intro i; have := hle i; rwa [hyk] at this
  · intro k' h0 h1 h; exact hmax k' h0 h1 h

/-- Wheels that need at most `c` times the limit deliver at least `1 / c` of the torque. -/
theorem delivered_fraction {n : ℕ} {ax : Fin n → V3} {par orth : Fin n → ℝ} (hp : ∀ i, par i ≠ 0) {maxT : ℝ}
    (hT : 0 ≤ maxT) {s : RWSystem} (hs : RWSystem.init (mkWheels ax par orth) maxT true = .ok s) (cmd : V3) {c : ℝ}
    (hc : 1 ≤ c) (h : ∀ i, |(npPinv (axisMat ax) *ᵥ cmd) i| ≤ c * maxT) :
    ∃ (a : Fin s.n → ℝ) (k : ℝ), s.accelerations cmd = .ok a ∧ 1 / c ≤ k ∧ k ≤ 1 ∧ s.torque a = k • cmd := by
  obtain ⟨a, k, h1, -, h3, h4, -, h5⟩ := delivered hp hT hs cmd
  have hc0 : 0 < c := by linarith
  refine ⟨a, k, h1, h5 (1 / c) (by positivity) ((div_le_one hc0).2 hc) fun i => ?_, h3, h4⟩
  rw [abs_mul, abs_of_pos (by positivity : 0 < 1 / c), div_mul_eq_mul_div, one_mul, div_le_iff₀ hc0, mul_comm]
  exact h i

theorem producible_iff {n : ℕ} {ax : Fin n → V3} {par orth : Fin n → ℝ} {maxT : ℝ} {lim : Bool} {s : RWSystem}
    (hs : RWSystem.init (mkWheels ax par orth) maxT lim = .ok s) (cmd : V3) :
    Spec.Producible s cmd ↔ ∃ t : Fin n → ℝ, (∀ i, |t i| ≤ maxT) ∧ axisMat ax *ᵥ t = cmd := by
  obtain rfl := rwInit_eq hs
  simp only [axisMat_mulVec]
  rfl

/-- **C187** (the part that holds). Of a torque that `n` wheels in any arrangement can produce, at least the part
`1 / √n` is produced, in the right direction. -/
theorem C187_any_partial {n : ℕ} (ax : Fin n → V3) (par orth : Fin n → ℝ) (hp : ∀ i, par i ≠ 0) (maxT : ℝ)
    (hT : 0 ≤ maxT) (s : RWSystem) (hs : RWSystem.init (mkWheels ax par orth) maxT true = .ok s) (cmd : V3)
    (h : Spec.Producible s cmd) :
    ∃ (a : Fin s.n → ℝ) (k : ℝ), s.accelerations cmd = .ok a ∧ 1 / √n ≤ k ∧ k ≤ 1 ∧ s.torque a = k • cmd := by
  obtain ⟨t, ht, he⟩ := (producible_iff hs cmd).1 h
  have hsp := rwInit_spans hs
  have hn : 1 ≤ n := by
    by_contra h0
    obtain rfl : n = 0 := by omega
    apply hsp
    have : axisMat ax * (axisMat ax)ᵀ = 0 := by ext i j; simp [Matrix.mul_apply]
    rw [this]; simp
  refine delivered_fraction hp hT hs cmd (Real.one_le_sqrt.2 (by exact_mod_cast hn)) fun i => ?_
  have h1 := pinv_least hsp cmd t he
  have h2 : (npPinv (axisMat ax) *ᵥ cmd) i ^ 2 ≤ (npPinv (axisMat ax) *ᵥ cmd) ⬝ᵥ (npPinv (axisMat ax) *ᵥ cmd) := by
    rw [sq]
    exact Finset.single_le_sum (f := fun j => (npPinv (axisMat ax) *ᵥ cmd) j * (npPinv (axisMat ax) *ᵥ cmd) j)
      (fun j _ => mul_self_nonneg _) (Finset.mem_univ i)
  have h3 : t ⬝ᵥ t ≤ n * maxT ^ 2 := by
    calc t ⬝ᵥ t = ∑ j, t j * t j := rfl
      _ ≤ ∑ _j : Fin n, maxT ^ 2 := Finset.sum_le_sum fun j _ => by
          rw [← sq]; exact sq_le_sq' (abs_le.1 (ht j)).1 (abs_le.1 (ht j)).2
      _ = n * maxT ^ 2 := by simp
  refine abs_le_of_sq_le_sq ?_ (by positivity)
  rw [mul_pow, Real.sq_sqrt (by positivity)]
  linarith

/-- On the pyramid the pseudo-inverse gives the torques without null motion. -/
theorem pyramid_pinv (θ φ : ℝ) (hc : Real.cos θ ≠ 0) (hsn : Real.sin θ ≠ 0) (p : Fin 4 → ℝ)
    (h0 : -p 0 + p 1 - p 2 + p 3 = 0) :
    npPinv (axisMat (pyramid θ φ)) *ᵥ (axisMat (pyramid θ φ) *ᵥ p) = p := by
  set A := axisMat (pyramid θ φ) with hA
  have hcs := Real.sin_sq_add_cos_sq φ
  obtain ⟨e0, e1, e2, e3⟩ := pyramid_eq θ φ
  -- the torques are `Aᵀ x`
  set x : V3 := ![((p 0 - p 2) * Real.cos φ - (p 1 - p 3) * Real.sin φ) / (2 * Real.cos θ),
    ((p 0 - p 2) * Real.sin φ + (p 1 - p 3) * Real.cos φ) / (2 * Real.cos θ),
    (p 0 + p 2) / (2 * Real.sin θ)] with hx
  have hAx : Aᵀ *ᵥ x = p := by
    funext i
    rw [axisMat_transpose_mulVec]
    fin_cases i
    · show pyramid θ φ 0 ⬝ᵥ x = p 0
      rw [e0, Matrix.vec3_dotProduct]
      simp only [hx, Matrix.cons_val_zero, Matrix.cons_val_one, cons3_2]
      field_simp
      linear_combination (p 0 - p 2) * hcs
    · show pyramid θ φ 1 ⬝ᵥ x = p 1
      rw [e1, Matrix.vec3_dotProduct]
      simp only [hx, Matrix.cons_val_zero, Matrix.cons_val_one, cons3_2]
      field_simp
      linear_combination (p 1 - p 3) * hcs - h0
    · show pyramid θ φ 2 ⬝ᵥ x = p 2
      rw [e2, Matrix.vec3_dotProduct]
      simp only [hx, Matrix.cons_val_zero, Matrix.cons_val_one, cons3_2]
      field_simp
      linear_combination -(p 0 - p 2) * hcs
    · show pyramid θ φ 3 ⬝ᵥ x = p 3
      rw [e3, Matrix.vec3_dotProduct]
      simp only [hx, Matrix.cons_val_zero, Matrix.cons_val_one, cons3_2]
      field_simp
      linear_combination -(p 1 - p 3) * hcs - h0
  have hdet : (A * Aᵀ).det ≠ 0 := by
    intro hd
    obtain ⟨v, hv, hv0⟩ := Matrix.exists_mulVec_eq_zero_iff.2 hd
    apply hv
    apply pyramid_spans θ φ hc hsn
    have h1 : (Aᵀ *ᵥ v) ⬝ᵥ (Aᵀ *ᵥ v) = 0 := by
      rw [Matrix.dotProduct_mulVec, Matrix.vecMul_transpose, Matrix.mulVec_mulVec, hv0, zero_dotProduct]
    have h2 := dotProduct_self_eq_zero.1 h1
    intro i
    rw [← axisMat_transpose_mulVec, ← hA, h2]; rfl
  conv_lhs => rw [← hAx]
  rw [Matrix.mulVec_mulVec, npPinv, Matrix.mulVec_mulVec, Matrix.mul_assoc, Matrix.mul_assoc Aᵀ,
    Matrix.nonsing_inv_mul _ (isUnit_iff_ne_zero.2 hdet), Matrix.mul_one, hAx]

/-- The null motion has no torque. -/
theorem pyramid_null (θ φ : ℝ) (p : Fin 4 → ℝ) (c : ℝ) :
    axisMat (pyramid θ φ) *ᵥ (p + c • ![-1, 1, -1, 1]) = axisMat (pyramid θ φ) *ᵥ p := by
  obtain ⟨e0, e1, e2, e3⟩ := pyramid_eq θ φ
  rw [Matrix.mulVec_add, Matrix.mulVec_smul]
  have : axisMat (pyramid θ φ) *ᵥ ![-1, 1, -1, 1] = 0 := by
    rw [axisMat_mulVec, Fin.sum_univ_four, e0, e1, e2, e3]
    apply vec3_ext <;> simp
  rw [this, smul_zero, add_zero]

/-- The pseudo-inverse takes the null motion out of torques. -/
theorem pyramid_project (θ φ : ℝ) (hc : Real.cos θ ≠ 0) (hsn : Real.sin θ ≠ 0) (t : Fin 4 → ℝ) :
    npPinv (axisMat (pyramid θ φ)) *ᵥ (axisMat (pyramid θ φ) *ᵥ t) =
      t + ((t 0 - t 1 + t 2 - t 3) / 4) • ![-1, 1, -1, 1] := by
  rw [← pyramid_null θ φ t ((t 0 - t 1 + t 2 - t 3) / 4)]
  apply pyramid_pinv θ φ hc hsn
  simp
  ring

/-- **C187** (the part that holds). On the pyramid at least two thirds of a torque that the wheels can produce are
produced, in the right direction. -/
theorem C187_pyramid_partial (θ φ : ℝ) (hc : Real.cos θ ≠ 0) (hsn : Real.sin θ ≠ 0) (par orth : Fin 4 → ℝ)
    (hp : ∀ i, par i ≠ 0) (maxT : ℝ) (hT : 0 ≤ maxT) (s : RWSystem)
    (hs : RWSystem.init (mkWheels (pyramid θ φ) par orth) maxT true = .ok s) (cmd : V3) (h : Spec.Producible s cmd) :
    ∃ (a : Fin s.n → ℝ) (k : ℝ), s.accelerations cmd = .ok a ∧ 2 / 3 ≤ k ∧ k ≤ 1 ∧ s.torque a = k • cmd := by
  obtain ⟨t, ht, rfl⟩ := (producible_iff hs cmd).1 h
  obtain ⟨a, k, h1, h2, h3, h4⟩ := delivered_fraction hp hT hs (axisMat (pyramid θ φ) *ᵥ t) (c := 3 / 2) (by norm_num) (by
    rw [pyramid_project θ φ hc hsn]
    have g := fun i => abs_le.1 (ht i)
    intro i
    rw [abs_le]
    have g0 := g 0; have g1 := g 1; have g2 := g 2; have g3 := g 3
    fin_cases i <;> simp <;> constructor <;> linarith [g0.1, g0.2, g1.1, g1.2, g2.1, g2.2, g3.1, g3.2])
  exact ⟨a, k, h1, by linarith [h2, show (1 : ℝ) / (3 / 2) = 2 / 3 by norm_num], h3, h4⟩

/-- And the third is lost for some torques on every pyramid, although the wheels can produce them. -/
theorem C187_third (θ φ : ℝ) (hc : Real.cos θ ≠ 0) (hsn : Real.sin θ ≠ 0) (par orth : Fin 4 → ℝ)
    (hp : ∀ i, par i ≠ 0) (maxT : ℝ) (hT : 0 < maxT) (s : RWSystem)
    (hs : RWSystem.init (mkWheels (pyramid θ φ) par orth) maxT true = .ok s) :
    ∃ cmd, cmd ≠ 0 ∧ Spec.Producible s cmd ∧
      ∃ a : Fin s.n → ℝ, s.accelerations cmd = .ok a ∧ s.torque a = (2 / 3 : ℝ) • cmd := by
  set t : Fin 4 → ℝ := ![maxT, maxT, -maxT, maxT] with ht
  have hproj := pyramid_project θ φ hc hsn t
  have hP : Spec.Producible s (axisMat (pyramid θ φ) *ᵥ t) := by
    refine (producible_iff hs _).2 ⟨t, fun i => ?_, rfl⟩
    fin_cases i <;> simp [ht, abs_of_pos hT]
  obtain ⟨a, k, h1, h2, h3, h4, h5, -⟩ := delivered hp hT.le hs (axisMat (pyramid θ φ) *ᵥ t)
  obtain ⟨a', k', g1, g2, -, g4⟩ := C187_pyramid_partial θ φ hc hsn par orth hp maxT hT.le s hs _ hP
  have hne : axisMat (pyramid θ φ) *ᵥ t ≠ 0 := by
    intro h0
    rw [h0, Matrix.mulVec_zero] at hproj
    have := congrFun hproj 0
    simp [ht] at this
    linarith
  have ea : a' = a := by rw [h1] at g1; exact (Except.ok.inj g1).symm
  have ek : k' = k := by
    rw [ea, h4] at g4
    exact (smul_left_injective ℝ hne g4).symm
  have hk : k ≤ 2 / 3 := by
    have h6 := h5 0
    rw [hproj] at h6
    have e : (t + ((t 0 - t 1 + t 2 - t 3) / 4) • ![-1, 1, -1, 1] : Fin 4 → ℝ) 0 = 3 / 2 * maxT := by
      simp [ht]; ring
    rw [e] at h6
    have h7 := (le_abs_self _).trans h6
    have : k * (3 / 2) ≤ 1 := by
      have : (k * (3 / 2)) * maxT ≤ 1 * maxT := by linarith
      exact le_of_mul_le_mul_right this hT
    linarith
  refine ⟨_, hne, hP, a, h1, ?_⟩
  rw [h4, le_antisymm hk (ek ▸ g2)]

/-- **C187** does not hold. -/
theorem C187_fails : ¬ C187_claim := by
  intro h
  have hc : Real.cos (Real.pi / 6) ≠ 0 := by rw [Real.cos_pi_div_six]; positivity
  have hsn : Real.sin (Real.pi / 6) ≠ 0 := by rw [Real.sin_pi_div_six]; norm_num
  obtain ⟨s, hs⟩ := (C39_constructible (pyramid (Real.pi / 6) (Real.pi / 4)) (fun _ => 1) 0 (fun _ => one_pos) 1 true).2
    (fun x hx => pyramid_spans _ _ hc hsn x hx)
  obtain ⟨cmd, hne, hP, a, ha, ht⟩ := C187_third _ _ hc hsn _ _ (fun _ => one_ne_zero) 1 one_pos s hs
  obtain ⟨a', ha', ht'⟩ := h 4 _ _ _ 1 s (fun _ => one_pos) one_pos hs cmd hP
  rw [ha] at ha'
  rw [← Except.ok.inj ha', ht] at ht'
  have : ((2 / 3 : ℝ) • cmd) = (1 : ℝ) • cmd := by rw [ht', one_smul]
  have := smul_left_injective ℝ hne this
  norm_num at this

/-- **C187** (the part that holds). Exactly which torques the pyramid delivers in full: `u` and `v` are the components
along the azimuths of the wheels. -/
theorem C187_envelope_partial (θ φ : ℝ) (hc : 0 < Real.cos θ) (hsn : 0 < Real.sin θ) (par orth : Fin 4 → ℝ)
    (hp : ∀ i, par i ≠ 0) (maxT : ℝ) (hT : 0 ≤ maxT) (s : RWSystem)
    (hs : RWSystem.init (mkWheels (pyramid θ φ) par orth) maxT true = .ok s) (cmd : V3) :
    (∃ a, s.accelerations cmd = .ok a ∧ s.torque a = cmd) ↔
      max |Real.cos φ * cmd 0 + Real.sin φ * cmd 1| |-Real.sin φ * cmd 0 + Real.cos φ * cmd 1| / (2 * Real.cos θ) +
        |cmd 2| / (4 * Real.sin θ) ≤ maxT := by
  set u := Real.cos φ * cmd 0 + Real.sin φ * cmd 1 with hu
  set v := -Real.sin φ * cmd 0 + Real.cos φ * cmd 1 with hv
  have hcs := Real.sin_sq_add_cos_sq φ
  obtain ⟨e0, e1, e2, e3⟩ := pyramid_eq θ φ
  set α := 1 / (2 * Real.cos θ) with hα
  set z := cmd 2 / (4 * Real.sin θ) with hz
  have hα0 : 0 < α := by positivity
  set p : Fin 4 → ℝ := ![α * u + z, α * v + z, -(α * u) + z, -(α * v) + z] with hpd
  have hAp : axisMat (pyramid θ φ) *ᵥ p = cmd := by
    rw [axisMat_mulVec, Fin.sum_univ_four, e0, e1, e2, e3]
    have hc' := hc.ne'
    have hs' := hsn.ne'
    apply vec3_ext
    · simp [hpd, hα]
      field_simp
      rw [hu, hv]
      linear_combination 2 * cmd 0 * hcs
    · simp [hpd, hα]
      field_simp
      rw [hu, hv]
      linear_combination 2 * cmd 1 * hcs
    · simp [hpd, hz]
      field_simp
      ring
  have hpinv : npPinv (axisMat (pyramid θ φ)) *ᵥ cmd = p := by
    rw [← hAp]
    apply pyramid_pinv θ φ hc.ne' hsn.ne'
    simp [hpd]; ring
  obtain ⟨a, k, h1, h2, h3, h4, h5, h6⟩ := delivered hp hT hs cmd
  rw [hpinv] at h5 h6
  -- the greatest torque of a wheel
  have hmax : (∀ i, |p i| ≤ maxT) ↔ max |u| |v| / (2 * Real.cos θ) + |cmd 2| / (4 * Real.sin θ) ≤ maxT := by
    have ez : |cmd 2| / (4 * Real.sin θ) = |z| := by
      rw [hz, abs_div, abs_of_pos (by positivity : 0 < 4 * Real.sin θ)]
    have eu : max |u| |v| / (2 * Real.cos θ) = max |α * u| |α * v| := by
      rw [abs_mul, abs_mul, abs_of_pos hα0, ← mul_max_of_nonneg _ _ hα0.le, hα]; ring
    rw [ez, eu]
    have key : ∀ x : ℝ, (|x + z| ≤ maxT ∧ |-x + z| ≤ maxT) ↔ |x| + |z| ≤ maxT := by
      intro x
      constructor
      · rintro ⟨g1, g2⟩
        rw [abs_le] at g1 g2
        rcases abs_cases x with ⟨hx, -⟩ | ⟨hx, -⟩ <;> rcases abs_cases z with ⟨hz, -⟩ | ⟨hz, -⟩ <;> rw [hx, hz] <;>
          linarith [g1.1, g1.2, g2.1, g2.2]
      · intro g
        exact ⟨(abs_add_le _ _).trans g, by have := abs_add_le (-x) z; rw [abs_neg] at this; exact this.trans g⟩
    rw [← sub_nonneg, show maxT - (max |α * u| |α * v| + |z|) = maxT - |z| - max |α * u| |α * v| by ring, sub_nonneg,
      max_le_iff, le_sub_iff_add_le, le_sub_iff_add_le, ← key, ← key]
    constructor
    · intro h
      exact ⟨⟨h 0, h 2⟩, ⟨h 1, h 3⟩⟩
    · rintro ⟨⟨g0, g2⟩, ⟨g1, g3⟩⟩ i
      fin_cases i
      exacts [g0, g1, g2, g3]
  rw [← hmax]
  constructor
  · rintro ⟨a', h, ht⟩
    rw [h1] at h
    rw [← Except.ok.inj h, h4] at ht
    by_cases h0 : cmd = 0
    · have : p = 0 := by rw [← hpinv, h0, Matrix.mulVec_zero]
      intro i; rw [this]; simpa using hT
    · have hk : k = 1 := by
        have : k • cmd = (1 : ℝ) • cmd := by rw [ht, one_smul]
        exact smul_left_injective ℝ h0 this
      intro i
      have := h5 i
      rwa [hk, one_mul] at this
  · intro h
    have hk : k = 1 := le_antisymm h3 (h6 1 zero_le_one le_rfl fun i => by rw [one_mul]; exact h i)
    exact ⟨a, h1, by rw [h4, hk, one_smul]⟩

/-- The wheels of the satellite: 60 degrees from the axis, 45 degrees between x and y. One millinewton metre about z
is delivered in full, a tenth more is not. -/
example : ∃ s, RWSystem.init (mkWheels (pyramid (Real.pi / 6) (Real.pi / 4)) (fun _ => 1.64023e-6) fun _ => 1.02562e-6)
      0.0005 true = .ok s ∧ (∃ a, s.accelerations ![0, 0, 0.001] = .ok a ∧ s.torque a = ![0, 0, 0.001]) ∧
      ¬ ∃ a, s.accelerations ![0, 0, 0.0011] = .ok a ∧ s.torque a = ![0, 0, 0.0011] := by
  have hc : 0 < Real.cos (Real.pi / 6) := by rw [Real.cos_pi_div_six]; positivity
  have hsn : 0 < Real.sin (Real.pi / 6) := by rw [Real.sin_pi_div_six]; norm_num
  obtain ⟨s, hs⟩ := (C39_constructible (pyramid (Real.pi / 6) (Real.pi / 4)) (fun _ => 1.64023e-6) (fun _ => 1.02562e-6)
    (fun _ => by norm_num) 0.0005 true).2 (fun x hx => pyramid_spans _ _ hc.ne' hsn.ne' x hx)
  refine ⟨s, hs, ?_, ?_⟩ <;>
    rw [C187_envelope_partial _ _ hc hsn _ _ (fun _ => by norm_num) _ (by norm_num) s hs, Real.sin_pi_div_six] <;>
    simp <;> norm_num [abs_of_pos]

end Adcs
