import Verif.Props.Torquers
import Verif.Props.Dynamics

set_option autoImplicit false

/-! # C128-C129: what the magnetorquers draw and what limits them -/

namespace Adcs

open Str

/-- The coil resistances, in ohms. -/
noncomputable def coilResistance (mtType : String) : ℝ := if mtType = "Square" then 14.9 else 6.28

/-- A system in which every torquer came out of the constructor. -/
def Constructed {n : ℕ} (T : Fin n → Magnetorquer) : Prop :=
  ∀ i, ∃ ty ax A, Magnetorquer.init ty ax A = .ok (T i)

theorem init_fields {ty : String} {ax : V3} {A : ℝ} {t : Magnetorquer}
    (h : Magnetorquer.init ty ax A = .ok t) :
    t.mtType = ty ∧ t.axis = ax ∧ t.maxA = A ∧ t.R = some (coilResistance ty) ∧
    (ty = "Square" ∨ ty = "Rod" ∨ ty = "LinearRod") := by
  unfold Magnetorquer.init mtActuate at h
  by_cases h1 : ty = "Square"
  · subst h1
    simp only [if_true, Except.ok.injEq] at h
    subst h; simp [coilResistance]
  · by_cases h2 : ty = "Rod"
    · subst h2
      simp at h
      subst h; simp [coilResistance]
    · by_cases h3 : ty = "LinearRod"
      · subst h3
        simp at h
        subst h; simp [coilResistance]
      · simp [h1, h2, h3] at h

theorem coilResistance_pos (ty : String) : 0 < coilResistance ty := by
  unfold coilResistance; split_ifs <;> norm_num

/-- `C128`: the power of a system is the sum of the ohmic losses of its coils; it is always a number. -/
theorem C128_value {n : ℕ} (T : Fin n → Magnetorquer) (hT : Constructed T) (I : Fin n → ℝ) :
    sysPower T I = .ok (∑ i, coilResistance (T i).mtType * I i ^ 2) := by
  have h : ∀ i, (T i).power (I i) = .ok (coilResistance (T i).mtType * I i ^ 2) := by
    intro i
    obtain ⟨ty, ax, A, hi⟩ := hT i
    obtain ⟨h1, -, -, h2, -⟩ := init_fields hi
    simp [Magnetorquer.power, h2, h1]
  unfold sysPower
  rw [pyForall_ok.2 h]

/-- `C128`: the power is never negative and is zero only with every coil off. -/
theorem C128_zero {n : ℕ} (T : Fin n → Magnetorquer) (hT : Constructed T) (I : Fin n → ℝ) :
    ∃ P, sysPower T I = .ok P ∧ 0 ≤ P ∧ (P = 0 ↔ ∀ i, I i = 0) := by
  refine ⟨_, C128_value T hT I, ?_, ?_⟩
  · exact Finset.sum_nonneg fun i _ => mul_nonneg (coilResistance_pos _).le (sq_nonneg _)
  · rw [Finset.sum_eq_zero_iff_of_nonneg fun i _ => mul_nonneg (coilResistance_pos _).le (sq_nonneg _)]
    constructor
    · intro h i
      have := h i (Finset.mem_univ i)
      rcases mul_eq_zero.1 this with h | h
      · exact absurd h (coilResistance_pos _).ne'
      · exact pow_eq_zero_iff (two_ne_zero) |>.1 h
    · intro h i _; rw [h i]; ring

/-- `C128`: scaling all currents scales the power with the square; reversing them leaves it alone. -/
theorem C128_scale {n : ℕ} (T : Fin n → Magnetorquer) (hT : Constructed T) (I : Fin n → ℝ) (c P : ℝ)
    (h : sysPower T I = .ok P) : sysPower T (fun i => c * I i) = .ok (c ^ 2 * P) := by
  rw [C128_value T hT] at h ⊢
  cases h
  congr 1
  rw [Finset.mul_sum]
  exact Finset.sum_congr rfl fun i _ => by ring

/-- `C128`: currents that are smaller in every coil draw no more; in particular currents within the limits
of the torquers draw no more than the limits do. -/
theorem C128_mono {n : ℕ} (T : Fin n → Magnetorquer) (hT : Constructed T) (I J : Fin n → ℝ)
    (hIJ : ∀ i, |I i| ≤ |J i|) (P Q : ℝ) (hP : sysPower T I = .ok P) (hQ : sysPower T J = .ok Q) :
    P ≤ Q := by
  rw [C128_value T hT] at hP hQ
  cases hP; cases hQ
  exact Finset.sum_le_sum fun i _ => mul_le_mul_of_nonneg_left (sq_le_sq.2 (hIJ i)) (coilResistance_pos _).le

/-- `C128`: an object whose type is none of the three has no resistance, and asking for its power raises. -/
theorem C128_unknown (t : Magnetorquer) (h : t.R = none) (I : ℝ) : t.power I = .error .attributeError := by
  simp [Magnetorquer.power, h]

/-- OreSat's three torquers: two rods and a square coil. -/
example : ∃ T : Fin 3 → Magnetorquer, Constructed T ∧
    sysPower T ![1, -1, 2] = .ok (6.28 + 6.28 + 14.9 * 4) := by
  have h : ∀ i : Fin 3, ∃ t, Magnetorquer.init (![ "Rod", "LinearRod", "Square"] i) (Pi.single i 1) 1 = .ok t := by
    intro i
    fin_cases i <;> simp [Magnetorquer.init, mtActuate]
  choose T hT using h
  have hc : Constructed T := fun i => ⟨_, _, _, hT i⟩
  refine ⟨T, hc, ?_⟩
  rw [C128_value T hc]
  congr 1
  rw [Fin.sum_univ_three, (init_fields (hT 0)).1, (init_fields (hT 1)).1, (init_fields (hT 2)).1]
  simp [coilResistance]
  norm_num

/-! ## C129 -/

/-- `C129` as the parameter documentation of `max_A` reads: whatever current is passed, the moment does not
exceed the one recorded for the maximum current. -/
def C129_claim : Prop := ∀ (ty : String) (ax : V3) (A : ℝ) (t : Magnetorquer),
  npNorm ax = 1 → 0 ≤ A → Magnetorquer.init ty ax A = .ok t →
    ∀ I m, t.actuate I = .ok m → npNorm m ≤ t.maxM

/-- The signed moment along the axis. -/
noncomputable def momentOf (ty : String) (I : ℝ) : ℝ :=
  if ty = "Square" then 1.584 * I else if ty = "Rod" then (2.36 * |I| - 1.1 * I ^ 2) * npSign I else 1.87 * I

theorem mtActuate_eq {ty : String} (h : ty = "Square" ∨ ty = "Rod" ∨ ty = "LinearRod") (ax : V3) (I : ℝ) :
    mtActuate ty ax I = .ok (momentOf ty I • ax) := by
  rcases h with rfl | rfl | rfl <;> simp only [mtActuate, momentOf, String.reduceEq, if_false, if_true] <;>
    congr 1 <;> funext i <;> simp only [Pi.smul_apply, smul_eq_mul] <;> ring

theorem init_maxM {ty : String} {ax : V3} {A : ℝ} {t : Magnetorquer}
    (h : Magnetorquer.init ty ax A = .ok t) : t.maxM = |momentOf ty A| * npNorm ax := by
  obtain ⟨-, -, -, -, hty⟩ := init_fields h
  unfold Magnetorquer.init at h
  rw [mtActuate_eq hty] at h
  simp only [Except.ok.injEq] at h
  subst h
  exact npNorm_smul _ _

/-- `C129`: the maximum current is not enforced. -/
theorem C129_limit_fails : ¬ C129_claim := by
  intro h
  have hax : npNorm (![1, 0, 0] : V3) = 1 := by rw [npNorm_vec3]; norm_num
  have h1 : Magnetorquer.init "Square" ![1, 0, 0] 1 = .ok _ := rfl
  have h2 := h "Square" ![1, 0, 0] 1 _ hax (by norm_num) h1 2 _ (mtActuate_eq (.inl rfl) _ _)
  rw [init_maxM h1, npNorm_smul, hax] at h2
  simp [momentOf] at h2
  norm_num at h2

theorem momentOf_abs_le {ty : String} {I A : ℝ} (hI : |I| ≤ A) (hA : ty = "Rod" → A ≤ 59 / 55) :
    |momentOf ty I| ≤ |momentOf ty A| := by
  have hA0 : 0 ≤ A := (abs_nonneg I).trans hI
  unfold momentOf
  split_ifs with h1 h2
  · rw [abs_mul, abs_mul]
    exact mul_le_mul_of_nonneg_left (hI.trans (le_abs_self A)) (abs_nonneg _)
  · have hA1 := hA h2
    have key : ∀ x : ℝ, |x| ≤ 59 / 55 →
        |(2.36 * |x| - 1.1 * x ^ 2) * npSign x| = 2.36 * |x| - 1.1 * |x| ^ 2 := by
      intro x hx
      have h0 : 0 ≤ 2.36 * |x| - 1.1 * |x| ^ 2 := by nlinarith [abs_nonneg x]
      rw [← sq_abs x, abs_mul, abs_of_nonneg h0]
      rcases npSign_cases x with ⟨hx, h⟩ | ⟨-, h⟩ | ⟨-, h⟩
      · rw [h, hx]; norm_num
      · rw [h]; norm_num
      · rw [h]; norm_num
    rw [key I (hI.trans hA1), key A (by rwa [abs_of_nonneg hA0]), abs_of_nonneg hA0]
    nlinarith [abs_nonneg I]
  · rw [abs_mul, abs_mul]
    exact mul_le_mul_of_nonneg_left (hI.trans (le_abs_self A)) (abs_nonneg _)

/-- `C129`: what holds. A current within the maximum gives at most the maximum moment, if for the
saturating rod the maximum current is on the rising side of its parabola. -/
theorem C129_limit_partial (ty : String) (ax : V3) (A : ℝ) (t : Magnetorquer)
    (ht : Magnetorquer.init ty ax A = .ok t) (hrod : ty = "Rod" → A ≤ 59 / 55) (I : ℝ) (hI : |I| ≤ A) :
    ∃ m, t.actuate I = .ok m ∧ npNorm m ≤ t.maxM := by
  obtain ⟨h1, h2, -, -, hty⟩ := init_fields ht
  refine ⟨momentOf ty I • ax, ?_, ?_⟩
  · rw [Magnetorquer.actuate, h1, h2, mtActuate_eq hty]
  · rw [init_maxM ht, npNorm_smul]
    exact mul_le_mul_of_nonneg_right (momentOf_abs_le hI hrod) (npNorm_nonneg _)

/-- `C129`: no type bounds the moment at all. -/
theorem C129_unbounded (ty : String) (ax : V3) (hax : npNorm ax = 1) (A : ℝ) (t : Magnetorquer)
    (ht : Magnetorquer.init ty ax A = .ok t) (M : ℝ) : ∃ I m, t.actuate I = .ok m ∧ M < npNorm m := by
  obtain ⟨h1, h2, -, -, hty⟩ := init_fields ht
  refine ⟨|M| + 5, momentOf ty (|M| + 5) • ax, ?_, ?_⟩
  · rw [Magnetorquer.actuate, h1, h2, mtActuate_eq hty]
  · rw [npNorm_smul, hax, mul_one]
    have hM := le_abs_self M
    have hM0 := abs_nonneg M
    generalize |M| = N at hM hM0 ⊢
    unfold momentOf
    split_ifs with h3 h4
    · rw [abs_of_pos (by positivity)]; linarith
    · have hs : npSign (N + 5) = 1 := by
        unfold npSign; rw [if_neg (by linarith), if_neg (by linarith)]
      rw [hs, mul_one, abs_of_nonneg (a := N + 5) (by linarith), abs_of_neg (by nlinarith)]
      nlinarith
    · rw [abs_of_pos (by positivity)]; linarith

/-- `C129`: a rod driven past 118/55 A (about 2.15 A) gives a moment against the current. -/
theorem C129_rod_reverses (ax : V3) (A : ℝ) (t : Magnetorquer)
    (ht : Magnetorquer.init "Rod" ax A = .ok t) (I : ℝ) (hI : 118 / 55 < |I|) :
    ∃ k, t.actuate I = .ok (k • ax) ∧ k * I < 0 := by
  obtain ⟨h1, h2, -, -, hty⟩ := init_fields ht
  refine ⟨momentOf "Rod" I, ?_, ?_⟩
  · rw [Magnetorquer.actuate, h1, h2, mtActuate_eq hty]
  · simp only [momentOf, String.reduceEq, if_false, if_true]
    have h0 : 0 < |I| := by linarith
    have hneg : 2.36 * |I| - 1.1 * |I| ^ 2 < 0 := by nlinarith
    rw [mul_assoc, ← sq_abs I]
    have hs : npSign I * I = |I| := by
      rcases npSign_cases I with ⟨hx, h⟩ | ⟨hx, h⟩ | ⟨hx, h⟩
      · rw [hx] at h0; simp at h0
      · rw [h, abs_of_neg hx]; ring
      · rw [h, abs_of_pos hx]; ring
    rw [hs]
    exact mul_neg_of_neg_of_pos hneg h0

/-- A rod limited to 1 A: within the limit it is bounded; at 3 A it pulls the wrong way. -/
example : ∃ t, Magnetorquer.init "Rod" ![0, 1, 0] 1 = .ok t ∧ ("Rod" = "Rod" → (1:ℝ) ≤ 59 / 55) ∧
    |(-0.7 : ℝ)| ≤ 1 ∧ 118 / 55 < |(3 : ℝ)| := by
  refine ⟨_, rfl, fun _ => by norm_num, ?_, ?_⟩ <;> norm_num [abs_of_neg, abs_of_pos]

end Adcs
