import Verif.Model.Environment
import Verif.Props.State

set_option autoImplicit false

/-! # C46, C47, C48, C50, C51, C52: environment models -/

namespace Adcs

open JDay Fr Dyn Env
open scoped Matrix

/-! ## C46: relative velocity -/

/-- Specification: velocity relative to an atmosphere turning with angular velocity `(0, 0, Ω)`. -/
noncomputable def corotating (Ω : ℝ) (x v : V3) : V3 := v - (![0, 0, Ω] : V3) ⨯₃ x

/-- The full claim, for the class taking position and velocity. -/
def RelativeVelocityClaim : Prop := ∀ x v, Plain.relativeVel x v = corotating Plain.earthRotation x v

/-- The sign of the second component is wrong: an object at rest relative to the Earth on the x axis is
given a relative velocity. -/
theorem C46_relative_velocity_fails : ¬ RelativeVelocityClaim := by
  intro h
  have := congrFun (h ![1, 0, 0] 0) 1
  norm_num [Plain.relativeVel, corotating, cross_apply, Plain.earthRotation] at this

/-- A point of the atmosphere at 7000 km on the x axis (moving with the Earth) is reported to move at
more than 1000 m/s, and it is off by `2 Ω x` everywhere. -/
theorem C46_corotating_point (x : V3) :
    Plain.relativeVel x ((![0, 0, Plain.earthRotation] : V3) ⨯₃ x) = ![0, 2 * Plain.earthRotation * x 0, 0] := by
  apply vec3_ext <;> simp [Plain.relativeVel, cross_apply]
  ring

/-- What holds: first and third components are right, the second is off by `2 Ω x`; so the claim is true
exactly on the plane `x = 0`. Missing: the sign in the second component. -/
theorem C46_relative_velocity_partial (x v : V3) :
    Plain.relativeVel x v = corotating Plain.earthRotation x v + ![0, 2 * Plain.earthRotation * x 0, 0] ∧
    (Plain.relativeVel x v = corotating Plain.earthRotation x v ↔ x 0 = 0) := by
  have e : Plain.relativeVel x v =
      corotating Plain.earthRotation x v + ![0, 2 * Plain.earthRotation * x 0, 0] := by
    apply vec3_ext <;> simp only [Plain.relativeVel, corotating, cross_apply, Pi.sub_apply, Pi.add_apply,
      Matrix.cons_val_zero, Matrix.cons_val_one, cons3_2] <;> ring
  refine ⟨e, ?_⟩
  rw [e]
  constructor
  · intro h
    have := congrFun h 1
    simpa [show Plain.earthRotation ≠ 0 by norm_num [Plain.earthRotation]] using this
  · intro h; apply vec3_ext <;> simp [h]

/-- The state-based class computes the same. -/
theorem C46_orbital {n : ℕ} {s : SatState n} (h : Consistent s) :
    Orb.relativeVel s = corotating 7.2921158553e-5 s.arr.pos s.arr.vel +
      ![0, 2 * 7.2921158553e-5 * s.arr.pos 0, 0] := by
  have := (C46_relative_velocity_partial s.arr.pos s.arr.vel).1
  rw [← h.x, ← h.v] at this ⊢
  exact this

/-! ## C47: atmospheric density -/

/-- The base heights (m) and densities (kg/m³) of the bands (Markley & Crassidis, table D.1). -/
noncomputable def densityTable : List (ℝ × ℝ) :=
  [(250000, 7.248e-11), (300000, 2.418e-11), (350000, 9.158e-12), (400000, 3.727e-12),
   (450000, 1.585e-12)]

/-- Positive and strictly decreasing on 250-500 km, and an exception elsewhere. -/
structure DensityShape (d : ℝ → Py ℝ) : Prop where
  defined : ∀ h, 250000 ≤ h → h < 500000 → ∃ ρ, 0 < ρ ∧ d h = .ok ρ
  decreasing : ∀ h₁ h₂ ρ₁ ρ₂, h₁ < h₂ → d h₁ = .ok ρ₁ → d h₂ = .ok ρ₂ → ρ₂ < ρ₁
  raises : ∀ h, h < 250000 ∨ 500000 ≤ h → ∃ e, d h = .error e

/-- The full claim. -/
def DensityClaim (d : ℝ → Py ℝ) : Prop := DensityShape d ∧ ∀ p ∈ densityTable, d p.1 = .ok p.2

/-- One exponential band. -/
noncomputable def band (ρ h₀ H h : ℝ) : ℝ := ρ * Real.exp ((h₀ - h) / H)

theorem band_pos {ρ h₀ H h : ℝ} (hρ : 0 < ρ) : 0 < band ρ h₀ H h := mul_pos hρ (Real.exp_pos _)

theorem band_anti {ρ h₀ H h h' : ℝ} (hρ : 0 < ρ) (hH : 0 < H) (hh : h < h') :
    band ρ h₀ H h' < band ρ h₀ H h := by
  unfold band
  apply mul_lt_mul_of_pos_left _ hρ
  apply Real.exp_lt_exp.2
  apply div_lt_div_of_pos_right _ hH
  linarith

/-- `(1 - x/n)^n ≤ exp(-x)`. -/
theorem exp_lower (x : ℝ) (n : ℕ) (hn : 0 < n) (hx : x / n ≤ 1) : (1 - x / n) ^ n ≤ Real.exp (-x) := by
  have h1 : 1 - x / n ≤ Real.exp (-(x / n)) := Real.one_sub_le_exp_neg _
  have h2 : (1 - x / n) ^ n ≤ Real.exp (-(x / n)) ^ n :=
    pow_le_pow_left₀ (by linarith) h1 n
  rw [← Real.exp_nat_mul] at h2
  have : (n : ℝ) * -(x / n) = -x := by
    have : (n : ℝ) ≠ 0 := by exact_mod_cast hn.ne'
    field_simp
  rwa [this] at h2

theorem jump1 : 2.418 * 10 ^ (-11 : ℤ) < band (7.248 * 10 ^ (-11 : ℤ)) 250000 46900 300000 := by
  have := exp_lower (50000 / 46900) 64 (by norm_num) (by norm_num)
  unfold band
  rw [show ((250000 : ℝ) - 300000) / 46900 = -(50000 / 46900) by norm_num]
  norm_num at this ⊢
  linarith

theorem jump2 : 9.158 * 10 ^ (-12 : ℤ) < band (2.418 * 10 ^ (-11 : ℤ)) 300000 52500 350000 := by
  have := exp_lower (50000 / 52500) 64 (by norm_num) (by norm_num)
  unfold band
  rw [show ((300000 : ℝ) - 350000) / 52500 = -(50000 / 52500) by norm_num]
  norm_num at this ⊢
  linarith

theorem jump3 : 3.727 * 10 ^ (-12 : ℤ) < band (9.158 * 10 ^ (-12 : ℤ)) 350000 56400 400000 := by
  have := exp_lower (50000 / 56400) 64 (by norm_num) (by norm_num)
  unfold band
  rw [show ((350000 : ℝ) - 400000) / 56400 = -(50000 / 56400) by norm_num]
  norm_num at this ⊢
  linarith

theorem jump4 : 1.585 * 10 ^ (-12 : ℤ) < band (3.727 * 10 ^ (-12 : ℤ)) 400000 59400 450000 := by
  have := exp_lower (50000 / 59400) 64 (by norm_num) (by norm_num)
  unfold band
  rw [show ((400000 : ℝ) - 450000) / 59400 = -(50000 / 59400) by norm_num]
  norm_num at this ⊢
  linarith

theorem band_base_le {ρ h₀ H h : ℝ} (hρ : 0 < ρ) (hH : 0 < H) (hh : h₀ ≤ h) : band ρ h₀ H h ≤ ρ := by
  unfold band
  have : Real.exp ((h₀ - h) / H) ≤ 1 := by
    rw [Real.exp_le_one_iff]
    exact div_nonpos_of_nonpos_of_nonneg (by linarith) hH.le
  nlinarith

theorem band_end {ρ h₀ H h b : ℝ} (hρ : 0 < ρ) (hH : 0 < H) (hh : h < b) :
    band ρ h₀ H b < band ρ h₀ H h := band_anti hρ hH hh

theorem density_ok {h ρ : ℝ} (hd : Plain.atmoDensity h = .ok ρ) :
    (250000 ≤ h ∧ h < 300000 ∧ ρ = band (7.248 * 10 ^ (-11 : ℤ)) 250000 46900 h) ∨
    (300000 ≤ h ∧ h < 350000 ∧ ρ = band (2.418 * 10 ^ (-11 : ℤ)) 300000 52500 h) ∨
    (350000 ≤ h ∧ h < 400000 ∧ ρ = band (9.158 * 10 ^ (-12 : ℤ)) 350000 56400 h) ∨
    (400000 ≤ h ∧ h < 450000 ∧ ρ = band (3.727 * 10 ^ (-12 : ℤ)) 400000 59400 h) ∨
    (450000 ≤ h ∧ h < 500000 ∧ ρ = band (1.585 * 10 ^ (-12 : ℤ)) 400000 62200 h) := by
  unfold Plain.atmoDensity at hd
  unfold band
  split_ifs at hd with h1 h2 h3 h4 h5
  · exact Or.inl ⟨h1.1, h1.2, (Except.ok.inj hd).symm⟩
  · exact Or.inr (Or.inl ⟨h2.1, h2.2, (Except.ok.inj hd).symm⟩)
  · exact Or.inr (Or.inr (Or.inl ⟨h3.1, h3.2, (Except.ok.inj hd).symm⟩))
  · exact Or.inr (Or.inr (Or.inr (Or.inl ⟨h4.1, h4.2, (Except.ok.inj hd).symm⟩)))
  · exact Or.inr (Or.inr (Or.inr (Or.inr ⟨h5.1, h5.2, (Except.ok.inj hd).symm⟩)))

theorem c1 : (0:ℝ) < 7.248 * 10 ^ (-11 : ℤ) := by positivity
theorem c2 : (0:ℝ) < 2.418 * 10 ^ (-11 : ℤ) := by positivity
theorem c3 : (0:ℝ) < 9.158 * 10 ^ (-12 : ℤ) := by positivity
theorem c4 : (0:ℝ) < 3.727 * 10 ^ (-12 : ℤ) := by positivity
theorem c5 : (0:ℝ) < 1.585 * 10 ^ (-12 : ℤ) := by positivity

theorem density_decreasing {h₁ h₂ ρ₁ ρ₂ : ℝ} (hlt : h₁ < h₂) (d₁ : Plain.atmoDensity h₁ = .ok ρ₁)
    (d₂ : Plain.atmoDensity h₂ = .ok ρ₂) : ρ₂ < ρ₁ := by
  have j1 := jump1; have j2 := jump2; have j3 := jump3; have j4 := jump4
  have o12 : (2.418 : ℝ) * 10 ^ (-11 : ℤ) < 7.248 * 10 ^ (-11 : ℤ) := by norm_num
  have o23 : (9.158 : ℝ) * 10 ^ (-12 : ℤ) < 2.418 * 10 ^ (-11 : ℤ) := by norm_num
  have o34 : (3.727 : ℝ) * 10 ^ (-12 : ℤ) < 9.158 * 10 ^ (-12 : ℤ) := by norm_num
  have o45 : (1.585 : ℝ) * 10 ^ (-12 : ℤ) < 3.727 * 10 ^ (-12 : ℤ) := by norm_num
  have lo1 : ∀ h, h < 300000 → band (7.248 * 10 ^ (-11 : ℤ)) 250000 46900 300000 <
      band (7.248 * 10 ^ (-11 : ℤ)) 250000 46900 h := fun h hh => band_anti c1 (by norm_num) hh
  have lo2 : ∀ h, h < 350000 → band (2.418 * 10 ^ (-11 : ℤ)) 300000 52500 350000 <
      band (2.418 * 10 ^ (-11 : ℤ)) 300000 52500 h := fun h hh => band_anti c2 (by norm_num) hh
  have lo3 : ∀ h, h < 400000 → band (9.158 * 10 ^ (-12 : ℤ)) 350000 56400 400000 <
      band (9.158 * 10 ^ (-12 : ℤ)) 350000 56400 h := fun h hh => band_anti c3 (by norm_num) hh
  have lo4 : ∀ h, h < 450000 → band (3.727 * 10 ^ (-12 : ℤ)) 400000 59400 450000 <
      band (3.727 * 10 ^ (-12 : ℤ)) 400000 59400 h := fun h hh => band_anti c4 (by norm_num) hh
  have up2 : ∀ h, 300000 ≤ h → band (2.418 * 10 ^ (-11 : ℤ)) 300000 52500 h ≤ 2.418 * 10 ^ (-11 : ℤ) :=
    fun h hh => band_base_le c2 (by norm_num) hh
  have up3 : ∀ h, 350000 ≤ h → band (9.158 * 10 ^ (-12 : ℤ)) 350000 56400 h ≤ 9.158 * 10 ^ (-12 : ℤ) :=
    fun h hh => band_base_le c3 (by norm_num) hh
  have up4 : ∀ h, 400000 ≤ h → band (3.727 * 10 ^ (-12 : ℤ)) 400000 59400 h ≤ 3.727 * 10 ^ (-12 : ℤ) :=
    fun h hh => band_base_le c4 (by norm_num) hh
  have up5 : ∀ h, 450000 ≤ h → band (1.585 * 10 ^ (-12 : ℤ)) 400000 62200 h ≤ 1.585 * 10 ^ (-12 : ℤ) :=
    fun h hh => band_base_le c5 (by norm_num) (by linarith)
  rcases density_ok d₁ with ⟨a, b, rfl⟩ | ⟨a, b, rfl⟩ | ⟨a, b, rfl⟩ | ⟨a, b, rfl⟩ | ⟨a, b, rfl⟩ <;>
  rcases density_ok d₂ with ⟨a', b', rfl⟩ | ⟨a', b', rfl⟩ | ⟨a', b', rfl⟩ | ⟨a', b', rfl⟩ | ⟨a', b', rfl⟩ <;>
  first
    | exact band_anti c1 (by norm_num) hlt
    | exact band_anti c2 (by norm_num) hlt
    | exact band_anti c3 (by norm_num) hlt
    | exact band_anti c4 (by norm_num) hlt
    | exact band_anti c5 (by norm_num) hlt
    | (exfalso; linarith)
    | (have x1 := lo1 h₁ b; have y2 := up2 h₂ a'; linarith)
    | (have x1 := lo1 h₁ b; have y2 := up3 h₂ a'; linarith)
    | (have x1 := lo1 h₁ b; have y2 := up4 h₂ a'; linarith)
    | (have x1 := lo1 h₁ b; have y2 := up5 h₂ a'; linarith)
    | (have x1 := lo2 h₁ b; have y2 := up3 h₂ a'; linarith)
    | (have x1 := lo2 h₁ b; have y2 := up4 h₂ a'; linarith)
    | (have x1 := lo2 h₁ b; have y2 := up5 h₂ a'; linarith)
    | (have x1 := lo3 h₁ b; have y2 := up4 h₂ a'; linarith)
    | (have x1 := lo3 h₁ b; have y2 := up5 h₂ a'; linarith)
    | (have x1 := lo4 h₁ b; have y2 := up5 h₂ a'; linarith)

/-- Density is positive and strictly decreasing with height on 250-500 km, also across the band
boundaries, and the call raises elsewhere. -/
theorem C47_shape : DensityShape Plain.atmoDensity := by
  refine ⟨?_, fun _ _ _ _ => density_decreasing, ?_⟩
  · intro h h1 h2
    unfold Plain.atmoDensity
    split_ifs with a b c d e
    · exact ⟨_, band_pos c1, rfl⟩
    · exact ⟨_, band_pos c2, rfl⟩
    · exact ⟨_, band_pos c3, rfl⟩
    · exact ⟨_, band_pos c4, rfl⟩
    · exact ⟨_, band_pos (h₀ := 400000) c5, rfl⟩
    · exfalso
      push Not at a b c d e
      have := a h1; have := b this; have := c this; have := d this; have := e this; linarith
  · intro h hh
    refine ⟨.unboundLocal, ?_⟩
    unfold Plain.atmoDensity
    rw [if_neg, if_neg, if_neg, if_neg, if_neg] <;>
    · rintro ⟨a, b⟩; rcases hh with c | c <;> linarith

/-- The band 450-500 km decays from 400 km instead of 450 km. -/
theorem C47_top_band : Plain.atmoDensity 450000 = .ok (1.585e-12 * Real.exp (-50000 / 62200)) ∧
    1.585e-12 * Real.exp (-50000 / 62200) < 1.585e-12 / 2 := by
  constructor
  · unfold Plain.atmoDensity
    rw [if_neg (by norm_num), if_neg (by norm_num), if_neg (by norm_num), if_neg (by norm_num),
      if_pos (by norm_num)]
    norm_num
  · have h : Real.exp (50000 / 62200) > 2 := by
      have := Real.quadratic_le_exp_of_nonneg (x := 50000 / 62200) (by norm_num)
      norm_num at this ⊢
      linarith
    rw [show (-50000 : ℝ) / 62200 = -(50000 / 62200) by norm_num, Real.exp_neg]
    have h2 : (Real.exp (50000 / 62200))⁻¹ < 1 / 2 := by
      rw [inv_lt_comm₀ (by linarith) (by norm_num)]; norm_num at h ⊢; exact h
    linarith

/-- So the full claim is false: at the base of the top band the density is less than half the table's. -/
theorem C47_density_fails : ¬ DensityClaim Plain.atmoDensity := by
  rintro ⟨-, h⟩
  have h1 := h (450000, 1.585e-12) (by simp [densityTable])
  obtain ⟨h2, h3⟩ := C47_top_band
  rw [h2] at h1
  have := Except.ok.inj h1
  simp only at this
  linarith

/-- What holds: the shape, and the tabulated base density for the four lower bands. Missing: the base
height of the fifth. -/
theorem C47_density_partial : DensityShape Plain.atmoDensity ∧
    ∀ p ∈ densityTable, p.1 < 450000 → Plain.atmoDensity p.1 = .ok p.2 := by
  refine ⟨C47_shape, ?_⟩
  intro p hp hlt
  simp only [densityTable, List.mem_cons, List.not_mem_nil, or_false] at hp
  rcases hp with rfl | rfl | rfl | rfl | rfl
  · norm_num [Plain.atmoDensity]
  · norm_num [Plain.atmoDensity]
  · norm_num [Plain.atmoDensity]
  · norm_num [Plain.atmoDensity]
  · norm_num at hlt

/-- The state-based class is the same function of the geodetic height. -/
theorem C47_orbital {n : ℕ} (s : SatState n) : Orb.atmoDensity s = Plain.atmoDensity s.attrs.h := rfl

/-! ## C48: central gravity -/

theorem MU_pos : 0 < Plain.MU := by unfold Plain.MU Plain.gNewton Plain.earthMass; norm_num

/-- Without high fidelity the acceleration points to the centre with magnitude `MU / r²`. -/
theorem C48_inverse_square {x : V3} (hx : x ≠ 0) :
    ∃ a, Plain.gravityAccel false x (npNorm x) = .ok a ∧
      npNorm a = Plain.MU / (x 0 ^ 2 + x 1 ^ 2 + x 2 ^ 2) ∧ ∃ k : ℝ, k < 0 ∧ a = k • x := by
  have hr := npNorm_pos hx
  have hMU := MU_pos
  have e : Plain.gravityAccel false x (npNorm x) = .ok ((-(Plain.MU / npNorm x ^ 3)) • x) := by
    simp only [Plain.gravityAccel, npDiv, npVDiv, if_neg hr.ne', if_neg (pow_pos hr 2).ne',
      Bool.false_eq_true, if_false, Except.ok.injEq]
    funext i
    simp only [Pi.smul_apply, smul_eq_mul]
    field_simp
  refine ⟨_, e, ?_, _, neg_lt_zero.2 (div_pos hMU (pow_pos hr 3)), rfl⟩
  rw [npNorm_smul, abs_neg, abs_of_pos (div_pos hMU (pow_pos hr 3)), ← npNorm3_sq]
  field_simp

/-- The same for states (whose position is never zero). -/
theorem C48_orbital {n : ℕ} {a : Raw n} {c : JClock} {s : SatState n}
    (h : SatState.new a (some c) = .ok s) :
    a.pos ≠ 0 ∧ ∃ g, Orb.gravityAccel false s = .ok g ∧
      npNorm g = 6.6743e-11 * 5.9733328e24 / (a.pos 0 ^ 2 + a.pos 1 ^ 2 + a.pos 2 ^ 2) ∧
      ∃ k : ℝ, k < 0 ∧ g = k • a.pos := by
  obtain ⟨c', lat, long, hh, hc, hl, rfl⟩ := mkState_ok.1 h
  have h0 : a.pos ≠ 0 := by
    intro h0
    rw [h0, Matrix.mulVec_zero] at hl
    have : (0 : V3) = ![0, 0, 0] := by apply vec3_ext <;> rfl
    rw [this, C17_centre] at hl
    simp at hl
  exact ⟨h0, C48_inverse_square h0⟩

example : ∃ s : SatState 4, SatState.new (exRaw 4) (some exClock) = .ok s := by
  obtain ⟨s, h, -⟩ := exState 4; exact ⟨s, h⟩

/-! ## C50: magnetic field -/

/-- Specification: field of a dipole `m` at `x`. -/
noncomputable def dipole (m x : V3) : V3 :=
  let r := npNorm x
  (3 * (m ⬝ᵥ x) / r ^ 5) • x - (1 / r ^ 3) • m

/-- The dipole moment (T m³) in the Earth-fixed frame: IGRF-13 coefficients at the reference radius. -/
noncomputable def earthDipole : V3 := (6371200 ^ 3 * 1e-9 : ℝ) • ![-1450.9, 4652.5, -29404.8]

/-- The Earth-fixed dipole turned by the Earth's angle `θ` about its axis. -/
noncomputable def turned (θ : ℝ) (m : V3) : V3 :=
  ![Real.cos θ * m 0 - Real.sin θ * m 1, Real.sin θ * m 0 + Real.cos θ * m 1, m 2]

theorem earthDipole_eq : Orb.m = earthDipole := by
  unfold Orb.m earthDipole Orb.magRefRadius Orb.G11 Orb.H11 Orb.G10
  norm_num

theorem gci_orth (θ : ℝ) : (inertialToEcef θ)ᵀ * inertialToEcef θ = 1 := by
  have h := Real.sin_sq_add_cos_sq θ
  ext i j
  fin_cases i <;> fin_cases j <;>
    simp [inertialToEcef, Matrix.mul_apply, Fin.sum_univ_three] <;> grind

theorem gci_transpose_mulVec (θ : ℝ) (m : V3) : (inertialToEcef θ)ᵀ *ᵥ m = turned θ m := by
  apply vec3_ext <;>
    simp [inertialToEcef, turned, Matrix.mulVec, dotProduct, Fin.sum_univ_three] <;> ring

/-- At every state the field is that of the Earth's dipole turned by the Greenwich angle. -/
theorem C50_rotating_dipole {n : ℕ} {a : Raw n} {c : JClock} {s : SatState n}
    (h : SatState.new a (some c) = .ok s) :
    Orb.magneticField s = .ok (dipole (turned c.thetaGmst earthDipole) a.pos) := by
  have hne := (C48_orbital h).1
  obtain ⟨c', lat, long, hh, hc, hl, rfl⟩ := mkState_ok.1 h
  obtain rfl := Option.some.inj hc
  have hr := npNorm_pos hne
  simp only [Orb.magneticField, npVDiv, if_neg (pow_pos hr 5).ne', Except.ok.injEq, earthDipole_eq]
  have hdot : npDot earthDipole (inertialToEcef c.thetaGmst *ᵥ a.pos) =
      turned c.thetaGmst earthDipole ⬝ᵥ a.pos := by
    rw [npDot_eq_dotProduct, Matrix.dotProduct_mulVec, ← gci_transpose_mulVec, Matrix.mulVec_transpose]
  have hR : (fun i => ((3 * npDot earthDipole (inertialToEcef c.thetaGmst *ᵥ a.pos)) •
      (inertialToEcef c.thetaGmst *ᵥ a.pos) - npNorm a.pos ^ 2 • earthDipole) i / npNorm a.pos ^ 5) =
      (3 * (turned c.thetaGmst earthDipole ⬝ᵥ a.pos) / npNorm a.pos ^ 5) •
        (inertialToEcef c.thetaGmst *ᵥ a.pos) - (1 / npNorm a.pos ^ 3) • earthDipole := by
    rw [hdot]
    funext i
    simp only [Pi.sub_apply, Pi.smul_apply, smul_eq_mul]
    field_simp
  rw [hR, Matrix.mulVec_sub, Matrix.mulVec_smul, Matrix.mulVec_smul, Matrix.mulVec_mulVec, gci_orth,
    Matrix.one_mulVec, gci_transpose_mulVec]
  rfl

theorem turned_norm (θ : ℝ) (m : V3) : npNorm (turned θ m) = npNorm m := by
  unfold npNorm turned
  congr 1
  simp only [Fin.sum_univ_three]
  have h := Real.sin_sq_add_cos_sq θ
  simp
  linear_combination (m 0 ^ 2 + m 1 ^ 2) * h

theorem dipole_sq (m : V3) {x : V3} (hx : x ≠ 0) :
    npNorm (dipole m x) ^ 2 = (3 * (m ⬝ᵥ x) ^ 2 / npNorm x ^ 2 + npNorm m ^ 2) / npNorm x ^ 6 := by
  have hr := npNorm_pos hx
  have hx2 := npNorm3_sq x
  rw [npNorm3_sq, npNorm3_sq m]
  simp only [dipole, Pi.sub_apply, Pi.smul_apply, smul_eq_mul, Matrix.vec3_dotProduct]
  generalize npNorm x = r at *
  field_simp
  grind

/-- The magnitude lies between `|m|/r³` and `2|m|/r³`. -/
theorem C50_magnitude {n : ℕ} {a : Raw n} {c : JClock} {s : SatState n} {B : V3}
    (h : SatState.new a (some c) = .ok s) (hB : Orb.magneticField s = .ok B) :
    npNorm earthDipole / npNorm a.pos ^ 3 ≤ npNorm B ∧
      npNorm B ≤ 2 * npNorm earthDipole / npNorm a.pos ^ 3 := by
  have hne := (C48_orbital h).1
  rw [C50_rotating_dipole h] at hB
  obtain rfl := Except.ok.inj hB
  have hsq := dipole_sq (turned c.thetaGmst earthDipole) hne
  rw [turned_norm] at hsq
  have hm := turned_norm c.thetaGmst earthDipole
  generalize turned c.thetaGmst earthDipole = m at *
  have hr := npNorm_pos hne
  have hcs : (m ⬝ᵥ a.pos) ^ 2 ≤ npNorm m ^ 2 * npNorm a.pos ^ 2 := by
    rw [npNorm3_sq, npNorm3_sq, Matrix.vec3_dotProduct]
    have : (m 0 ^ 2 + m 1 ^ 2 + m 2 ^ 2) * (a.pos 0 ^ 2 + a.pos 1 ^ 2 + a.pos 2 ^ 2) -
      (m 0 * a.pos 0 + m 1 * a.pos 1 + m 2 * a.pos 2) ^ 2 =
      (m 0 * a.pos 1 - m 1 * a.pos 0) ^ 2 + (m 0 * a.pos 2 - m 2 * a.pos 0) ^ 2 +
        (m 1 * a.pos 2 - m 2 * a.pos 1) ^ 2 := by ring
    nlinarith [sq_nonneg (m 0 * a.pos 1 - m 1 * a.pos 0), sq_nonneg (m 0 * a.pos 2 - m 2 * a.pos 0),
      sq_nonneg (m 1 * a.pos 2 - m 2 * a.pos 1)]
  rw [hm] at hcs
  have hB0 := npNorm_nonneg (dipole m a.pos)
  have hE0 := npNorm_nonneg earthDipole
  constructor
  · apply le_of_sq_le_sq _ hB0
    rw [hsq, div_pow, ← pow_mul]
    apply div_le_div_of_nonneg_right _ (by positivity)
    have : 0 ≤ 3 * (m ⬝ᵥ a.pos) ^ 2 / npNorm a.pos ^ 2 := by positivity
    linarith
  · apply le_of_sq_le_sq _ (by positivity)
    rw [hsq, div_pow, ← pow_mul]
    apply div_le_div_of_nonneg_right _ (by positivity)
    have : 3 * (m ⬝ᵥ a.pos) ^ 2 / npNorm a.pos ^ 2 ≤ 3 * npNorm earthDipole ^ 2 := by
      rw [div_le_iff₀ (by positivity)]; nlinarith
    nlinarith

/-- The field is even in position and falls off with the inverse cube. -/
theorem C50_even_and_scaling (m x : V3) (k : ℝ) (hk : 0 < k) :
    dipole m (-x) = dipole m x ∧ dipole m (k • x) = (1 / k ^ 3) • dipole m x := by
  have hn : npNorm (-x) = npNorm x := by
    have := npNorm_smul (-1) x
    simpa using this
  constructor
  · unfold dipole
    rw [hn]
    simp only [dotProduct_neg, mul_neg, neg_div, smul_neg, neg_smul, neg_neg]
  · unfold dipole
    rw [npNorm_smul, abs_of_pos hk]
    funext i
    simp only [Pi.sub_apply, Pi.smul_apply, smul_eq_mul, dotProduct_smul]
    by_cases hx : npNorm x = 0
    · rw [hx]; simp
    · field_simp

/-- It co-rotates: turning position and Earth together turns the field. -/
theorem C50_corotates (θ φ : ℝ) (m x : V3) :
    dipole (turned (θ + φ) m) (turned φ x) = turned φ (dipole (turned θ m) x) := by
  unfold dipole
  rw [turned_norm]
  have h := Real.sin_sq_add_cos_sq φ
  have hd : turned (θ + φ) m ⬝ᵥ turned φ x = turned θ m ⬝ᵥ x := by
    simp only [Matrix.vec3_dotProduct, turned, Real.cos_add, Real.sin_add]
    simp
    generalize Real.sin φ = s at *
    generalize Real.cos φ = c at *
    generalize Real.sin θ = s' at *
    generalize Real.cos θ = c' at *
    linear_combination ((c' * m 0 - s' * m 1) * x 0 + (s' * m 0 + c' * m 1) * x 1) * h
  rw [hd]
  generalize turned θ m ⬝ᵥ x = d
  apply vec3_ext <;> simp only [turned, Real.cos_add, Real.sin_add, Pi.sub_apply, Pi.smul_apply,
    smul_eq_mul, Matrix.cons_val_zero, Matrix.cons_val_one, cons3_2] <;> ring

/-! ## C51: sun vector and shadow -/

theorem earthToSun_unit (jd : ℝ) : npNorm (Plain.earthToSun jd) = 1 := by
  unfold Plain.earthToSun
  apply npNorm_vec3
  generalize npRadians (23.439291 - _) = o
  generalize npRadians (pyMod _ 360 + _ + _) = l
  have h1 := Real.sin_sq_add_cos_sq o; have h2 := Real.sin_sq_add_cos_sq l
  linear_combination h2 + Real.sin l ^ 2 * h1

theorem le_or_lt_shadow {x s : V3} (hs : npNorm s = 1) {R : ℝ}
    (hx : R ^ 2 ≤ npDot x x) :
    npDot x s < -Real.sqrt (npDot x x - R ^ 2) ↔
      x ⬝ᵥ s < 0 ∧ npNorm (x - (x ⬝ᵥ s) • s) ^ 2 < R ^ 2 := by
  have h1 := npNorm_eq_one.1 hs
  rw [Fin.sum_univ_three] at h1
  have e : npNorm (x - (x ⬝ᵥ s) • s) ^ 2 = npDot x x - npDot x s ^ 2 := by
    rw [npNorm3_sq]
    simp only [Pi.sub_apply, Pi.smul_apply, smul_eq_mul, npDot3, Matrix.vec3_dotProduct]
    linear_combination (x 0 * s 0 + x 1 * s 1 + x 2 * s 2) ^ 2 * h1
  rw [e, ← npDot_eq_dotProduct]
  have hq := Real.sqrt_nonneg (npDot x x - R ^ 2)
  have hq2 := Real.sq_sqrt (show 0 ≤ npDot x x - R ^ 2 by linarith)
  set q := Real.sqrt (npDot x x - R ^ 2)
  constructor
  · intro h
    exact ⟨by linarith, by nlinarith⟩
  · rintro ⟨h2, h3⟩
    by_contra hc
    nlinarith

/-- `SRP_info` at any time and at any place other than the sun's. For a satellite outside the Earth
shadow is reported exactly inside the cylinder behind the Earth; inside the Earth it never is. -/
theorem C51_sun (c : JClock) (x : V3) (hx : x ≠ Plain.AU • Plain.earthToSun c.julianDate) :
    ∃ i, Plain.srpInfo c x = .ok i ∧ 0 < i.srp ∧ npNorm i.S = 1 ∧
      (∃ k : ℝ, 0 < k ∧ Plain.AU • Plain.earthToSun c.julianDate = x + k • i.S ∧
        i.srp = Plain.srpCoeff / k ^ 2) ∧
      (Plain.earthRad ≤ npNorm x → (i.inShadow = true ↔
        x ⬝ᵥ Plain.earthToSun c.julianDate < 0 ∧
        npNorm (x - (x ⬝ᵥ Plain.earthToSun c.julianDate) • Plain.earthToSun c.julianDate) <
          Plain.earthRad)) ∧
      (npNorm x < Plain.earthRad → i.inShadow = false) := by
  set s := Plain.earthToSun c.julianDate with hs
  have hu : npNorm s = 1 := earthToSun_unit _
  have hne : Plain.AU • s - x ≠ 0 := by
    intro h; exact hx (sub_eq_zero.1 h).symm
  have hpos := npNorm_pos hne
  have hdot : npDot (Plain.AU • s - x) (Plain.AU • s - x) = npNorm (Plain.AU • s - x) ^ 2 :=
    (npNorm_sq_dot _).symm
  have hR : 0 < Plain.earthRad := by unfold Plain.earthRad; norm_num
  refine ⟨_, by simp only [Plain.srpInfo, ← hs, npDiv, hdot, if_neg (pow_pos hpos 2).ne']; rfl,
    ?_, npNorm_normalize hne, ⟨npNorm (Plain.AU • s - x), hpos, ?_, rfl⟩, ?_, ?_⟩
  · apply div_pos _ (pow_pos hpos 2)
    unfold Plain.srpCoeff Plain.AU; norm_num
  · simp only
    rw [normalize_eq hne, smul_smul, mul_inv_cancel₀ hpos.ne', one_smul]; abel
  · intro hout
    have h2 : Plain.earthRad ^ 2 ≤ npDot x x := by
      rw [← npNorm_sq_dot]; exact pow_le_pow_left₀ hR.le hout 2
    have := le_or_lt_shadow hu h2
    simp only [npSqrt, if_neg (not_lt.2 (sub_nonneg.2 h2)), decide_eq_true_eq]
    rw [this]
    have hp := npNorm_nonneg (x - (x ⬝ᵥ s) • s)
    constructor
    · rintro ⟨a, b⟩; exact ⟨a, lt_of_pow_lt_pow_left₀ 2 hR.le b⟩
    · rintro ⟨a, b⟩; exact ⟨a, pow_lt_pow_left₀ b hp (by norm_num)⟩
  · intro hin
    have h2 : npDot x x - Plain.earthRad ^ 2 < 0 := by
      rw [← npNorm_sq_dot, sub_neg]; exact pow_lt_pow_left₀ hin (npNorm_nonneg _) (by norm_num)
    simp only [npSqrt, if_pos h2]

/-- A place in the shadow and one in the light at every time. -/
example (c : JClock) : ∃ i j, Plain.srpInfo c (-(7000000 : ℝ) • Plain.earthToSun c.julianDate) = .ok i ∧
    Plain.srpInfo c ((7000000 : ℝ) • Plain.earthToSun c.julianDate) = .ok j ∧
    i.inShadow = true ∧ j.inShadow = false := by
  set s := Plain.earthToSun c.julianDate with hs
  have hu : npNorm s = 1 := earthToSun_unit _
  have hs0 : s ≠ 0 := by intro h; rw [h, npNorm_eq_zero.2 rfl] at hu; norm_num at hu
  have hss : s ⬝ᵥ s = 1 := by
    have := npNorm_sq_dot s
    rw [hu, npDot_eq_dotProduct] at this; linarith
  have hk : ∀ k : ℝ, k ≠ Plain.AU → k • s ≠ Plain.AU • s := by
    intro k hk h
    exact hk (smul_left_injective ℝ hs0 h)
  obtain ⟨i, hi, -, -, -, h1, -⟩ := C51_sun c (-(7000000 : ℝ) • s)
    (hk _ (by unfold Plain.AU; norm_num))
  obtain ⟨j, hj, -, -, -, h2, -⟩ := C51_sun c ((7000000 : ℝ) • s)
    (hk _ (by unfold Plain.AU; norm_num))
  rw [← hs] at h1 h2
  have n1 : npNorm (-(7000000 : ℝ) • s) = 7000000 := by
    rw [npNorm_smul, hu]; norm_num
  have n2 : npNorm ((7000000 : ℝ) • s) = 7000000 := by
    rw [npNorm_smul, hu]; norm_num
  have hR : Plain.earthRad ≤ 7000000 := by unfold Plain.earthRad; norm_num
  refine ⟨i, j, hi, hj, ?_, ?_⟩
  · rw [h1 (by rw [n1]; exact hR)]
    rw [smul_dotProduct, hss]
    simp only [smul_eq_mul, mul_one, sub_self]
    rw [npNorm_eq_zero.2 rfl]
    unfold Plain.earthRad; norm_num
  · rw [Bool.eq_false_iff]
    intro hc
    have := ((h2 (by rw [n2]; exact hR)).1 hc).1
    rw [smul_dotProduct, hss] at this
    norm_num at this

/-! ## C52: the two classes agree -/

/-- The methods of `Environment` on a state's quantities give what those of `OrbitalEnvironment` give on
the state. -/
theorem C52_agree {n : ℕ} {a : Raw n} {c : JClock} {s : SatState n}
    (h : SatState.new a (some c) = .ok s) (hiFi : Bool) (coeff : ℝ) :
    Orb.relativeVel s = Plain.relativeVel a.pos a.vel ∧
    Orb.srpInfo s = Plain.srpInfo c a.pos ∧
    Orb.atmoDensity s = Plain.atmoDensity s.attrs.h ∧
    Orb.hiFiGravity s coeff = Plain.hiFiGravity a.pos (npNorm a.pos) coeff ∧
    Orb.gravityAccel hiFi s = Plain.gravityAccel hiFi a.pos (npNorm a.pos) ∧
    Orb.magneticField s =
      Plain.magneticField (inertialToEcef c.thetaGmst *ᵥ a.pos) (npNorm a.pos) (inertialToEcef c.thetaGmst) := by
  obtain ⟨c', lat, long, hh, hc, hl, rfl⟩ := mkState_ok.1 h
  obtain rfl := Option.some.inj hc
  exact ⟨rfl, rfl, rfl, rfl, rfl, rfl⟩

end Adcs
