import Verif.Model.Ieee

set_option autoImplicit false

/-! # C185: signed zeros on the way to the magnetorquers -/

namespace Adcs

open Adcs.Ieee Str
open scoped NNReal

/-- A float that is a zero of either sign. -/
def IsZeroFloat (x : F) : Prop := ∃ s, x = .fin s 0

/-- A float that is a number. -/
def IsNumberFloat (x : F) : Prop := ∃ s m, x = .fin s m

/-- Types of torquers that exist. -/
def KnownTorquer (t : Magnetorquer) : Prop := t.mtType = "Square" ∨ t.mtType = "Rod" ∨ t.mtType = "LinearRod"

theorem ieee_pyForall_ok {α : Type} (f : Fin 3 → Py α) (g : Fin 3 → α) (h : ∀ i, f i = .ok (g i)) :
    pyForall f = .ok g := by
  simp only [pyForall, h 0, show f (Fin.succ 0) = .ok (g 1) from h 1,
    show f (Fin.succ (Fin.succ 0)) = .ok (g 2) from h 2]
  congr 1
  funext i
  fin_cases i <;> rfl

theorem getCurrent_square (rnd : ℝ≥0 → ℝ≥0) (t : Magnetorquer) (h : t.mtType = "Square") (m : F) :
    getCurrent rnd t m = .ok (F.mul rnd m (F.ofReal rnd 0.631313)) := by
  simp only [getCurrent, h, if_true]

theorem getCurrent_rod (rnd : ℝ≥0 → ℝ≥0) (t : Magnetorquer) (h : t.mtType = "Rod") (m : F) :
    getCurrent rnd t m = .ok (F.mul rnd (F.mul rnd m.sign (F.ofReal rnd 0.0181818))
      (F.sub rnd (F.ofReal rnd 59) (F.sqrt rnd (F.sub rnd (F.ofReal rnd 3481)
        (F.mul rnd (F.ofReal rnd 2750) m.abs))))) := by
  simp [getCurrent, h]

theorem getCurrent_linear (rnd : ℝ≥0 → ℝ≥0) (t : Magnetorquer) (h : t.mtType = "LinearRod") (m : F) :
    getCurrent rnd t m = .ok (F.mul rnd m (F.ofReal rnd 0.5347593)) := by
  simp [getCurrent, h]

theorem ieeeCurrent_zero (rnd : ℝ≥0 → ℝ≥0) (h0 : rnd 0 = 0) (t : Magnetorquer) (ht : KnownTorquer t) (s : Bool) :
    ∃ c, getCurrent rnd t (.fin s 0) = .ok c ∧ IsZeroFloat c := by
  rcases ht with h | h | h
  · refine ⟨_, getCurrent_square rnd t h _, ?_⟩
    simp [F.ofReal, F.mul, h0, IsZeroFloat]
  · refine ⟨_, getCurrent_rod rnd t h _, ?_⟩
    have h1 : F.mul rnd (F.ofReal rnd 2750) (F.fin s 0).abs = .fin false 0 := by
      simp [F.ofReal, F.abs, F.mul, h0]
    have h2 : ∃ m, F.sqrt rnd (F.sub rnd (F.ofReal rnd 3481) (.fin false 0)) = .fin false m := by
      have : (decide ((3481 : ℝ) < 0)) = false := by norm_num
      simp only [F.sub, F.neg, F.ofReal, this, F.add, F.addFin, Bool.not_false]
      rw [if_neg (by decide)]
      split_ifs with a b
      · exact ⟨rnd (NNReal.sqrt 0), by simp [F.sqrt]⟩
      · exact ⟨_, by simp [F.sqrt]; rfl⟩
      · exact absurd (pos_iff_ne_zero.mpr a) b
    obtain ⟨m, h2⟩ := h2
    have h3 : ∃ u n, F.sub rnd (F.ofReal rnd 59) (.fin false m) = .fin u n := by
      simp only [F.sub, F.neg, F.ofReal, F.add, F.addFin]
      split_ifs <;> exact ⟨_, _, rfl⟩
    obtain ⟨u, n, h3⟩ := h3
    rw [h1, h2, h3]
    simp [F.sign, F.ofReal, F.mul, h0, IsZeroFloat]
  · refine ⟨_, getCurrent_linear rnd t h _, ?_⟩
    simp [F.ofReal, F.mul, h0, IsZeroFloat]

theorem getCurrent_nan (rnd : ℝ≥0 → ℝ≥0) (t : Magnetorquer) (ht : KnownTorquer t) :
    getCurrent rnd t .nan = .ok .nan := by
  rcases ht with h | h | h <;> simp [getCurrent, h, F.ofReal, F.mul, F.sign, F.abs]

theorem getCurrent_inf (rnd : ℝ≥0 → ℝ≥0) (t : Magnetorquer) (ht : KnownTorquer t) (s : Bool) :
    ∃ c, getCurrent rnd t (.inf s) = .ok c ∧ ¬ IsNumberFloat c := by
  rcases ht with h | h | h
  · refine ⟨_, getCurrent_square rnd t h _, ?_⟩
    rintro ⟨a, b, e⟩
    simp only [F.ofReal, F.mul] at e
    split_ifs at e
  · refine ⟨_, getCurrent_rod rnd t h _, ?_⟩
    have h2 : F.sqrt rnd (F.sub rnd (F.ofReal rnd 3481) (F.mul rnd (F.ofReal rnd 2750) (F.inf s).abs)) = .nan := by
      have : (decide ((2750 : ℝ) < 0)) = false := by norm_num
      by_cases hz : rnd (Real.nnabs 2750) = 0
      · simp only [F.abs, F.ofReal, F.mul, hz, if_true, F.sub, F.neg, F.add, F.sqrt]
      · simp only [F.abs, F.ofReal, F.mul, hz, if_false, F.sub, F.neg, F.add, F.sqrt, this]
        simp
    rw [h2]
    rintro ⟨a, b, e⟩
    simp [F.sub, F.neg, F.ofReal, F.add, F.mul, F.sign] at e
  · refine ⟨_, getCurrent_linear rnd t h _, ?_⟩
    rintro ⟨a, b, e⟩
    simp only [F.ofReal, F.mul] at e
    split_ifs at e

/-- `min` of ratios none of which is nan, one of them the negative infinity, is the negative infinity. -/
theorem pyMin_neg_inf (r : Fin 3 → F) (hn : ∀ i, r i ≠ .nan) (i : Fin 3) (hi : r i = .inf true) :
    pyMin (r 0) [r 1, r 2] = .inf true := by
  have key : ∀ a b : F, a ≠ .nan → b ≠ .nan →
      (if F.lt b a then b else a) ≠ .nan ∧ (a = .inf true ∨ b = .inf true → (if F.lt b a then b else a) = .inf true) := by
    intro a b ha hb
    refine ⟨by split_ifs <;> assumption, ?_⟩
    rintro (h | h)
    · subst h
      rcases b with _ | s | ⟨s, m⟩
      · exact absurd rfl hb
      · cases s <;> simp [F.lt]
      · simp [F.lt]
    · subst h
      rcases a with _ | s | ⟨s, m⟩
      · exact absurd rfl ha
      · cases s <;> simp [F.lt]
      · simp [F.lt]
  obtain ⟨k1, k2⟩ := key (r 0) (r 1) (hn 0) (hn 1)
  obtain ⟨_, k3⟩ := key _ (r 2) k1 (hn 2)
  simp only [pyMin, List.foldl]
  apply k3
  fin_cases i
  · exact .inl (k2 (.inl hi))
  · exact .inl (k2 (.inr hi))
  · exact .inr hi

/-- Positive greatest moments over finite components: never nan, and the negative infinity for the
negative zero. -/
theorem ratio_cases (rnd : ℝ≥0 → ℝ≥0) (t : Magnetorquer) (ht : 0 < t.maxM) (hr : rnd (Real.nnabs t.maxM) ≠ 0)
    (s : Bool) (m : ℝ≥0) :
    F.div rnd (F.ofReal rnd t.maxM) (.fin s m) ≠ .nan ∧
      (m = 0 → F.div rnd (F.ofReal rnd t.maxM) (.fin s m) = .inf s) := by
  have : decide (t.maxM < 0) = false := by simpa using ht.le
  simp only [F.ofReal, F.div, this]
  refine ⟨?_, fun h => by simp [h, hr]⟩
  split_ifs <;> simp

/-- The scaling of a moment one component of which is the negative zero. -/
theorem scale_neg_zero (rnd : ℝ≥0 → ℝ≥0) (T : Fin 3 → Magnetorquer) (hT : ∀ i, 0 < (T i).maxM)
    (hr : ∀ i, rnd (Real.nnabs (T i).maxM) ≠ 0) (m : Fin 3 → F) (hm : ∀ i, IsNumberFloat (m i)) (i : Fin 3)
    (hi : m i = .fin true 0) (k : Fin 3) :
    scale rnd T m k = F.mul rnd (m k) (.inf true) := by
  have hf : factor rnd T m = .inf true := by
    refine pyMin_neg_inf (fun i => F.div rnd (F.ofReal rnd (T i).maxM) (m i)) (fun k => ?_) i ?_
    · obtain ⟨s, x, e⟩ := hm k
      simp only [e]
      exact (ratio_cases rnd _ (hT k) (hr k) s x).1
    · simp only [hi]
      exact (ratio_cases rnd _ (hT i) (hr i) true 0).2 rfl
  simp [scale, hf, F.lt, F.ofReal]

/-- No component of a moment with a negative zero leaves the scaling as a number. -/
theorem C185_neg_zero_partial (rnd : ℝ≥0 → ℝ≥0) (T : Fin 3 → Magnetorquer) (hK : ∀ i, KnownTorquer (T i))
    (hT : ∀ i, 0 < (T i).maxM) (hr : ∀ i, rnd (Real.nnabs (T i).maxM) ≠ 0) (m : Fin 3 → F)
    (hm : ∀ i, IsNumberFloat (m i)) (i : Fin 3) (hi : m i = .fin true 0) :
    ∃ c, distribute rnd T m = .ok c ∧ ∀ k, ¬ IsNumberFloat (c k) ∧ (IsZeroFloat (m k) → c k = .nan) := by
  have h1 : ∀ k, ∃ c, getCurrent rnd (T k) (scale rnd T m k) = .ok c ∧ ¬ IsNumberFloat c ∧
      (IsZeroFloat (m k) → c = .nan) := by
    intro k
    rw [scale_neg_zero rnd T hT hr m hm i hi k]
    obtain ⟨s, x, e⟩ := hm k
    by_cases hx : x = 0
    · refine ⟨.nan, ?_, by rintro ⟨_, _, h⟩; simp at h, fun _ => rfl⟩
      rw [e, hx]
      simp only [F.mul, if_true]
      exact getCurrent_nan rnd _ (hK k)
    · rw [e]
      simp only [F.mul, hx, if_false]
      obtain ⟨c, hc, hc'⟩ := getCurrent_inf rnd (T k) (hK k) (s ^^ true)
      refine ⟨c, hc, hc', ?_⟩
      rintro ⟨u, hu⟩
      exact absurd (F.fin.inj hu).2 hx
  choose c hc using h1
  exact ⟨c, ieee_pyForall_ok _ c fun k => (hc k).1, fun k => (hc k).2⟩

/-- A moment of positive zeros needs no current. -/
theorem distribute_pos_zero (rnd : ℝ≥0 → ℝ≥0) (h0 : rnd 0 = 0) (T : Fin 3 → Magnetorquer)
    (hK : ∀ i, KnownTorquer (T i)) (hT : ∀ i, 0 < (T i).maxM) (hr : ∀ i, rnd (Real.nnabs (T i).maxM) ≠ 0)
    (m : Fin 3 → F) (hm : ∀ i, m i = .fin false 0) :
    ∃ c, distribute rnd T m = .ok c ∧ ∀ k, IsZeroFloat (c k) := by
  have hs : scale rnd T m = m := by
    have h2 : ∀ i, F.div rnd (F.ofReal rnd (T i).maxM) (m i) = .inf false := fun i => by
      rw [hm i]
      exact (ratio_cases rnd _ (hT i) (hr i) false 0).2 rfl
    have hf : factor rnd T m = .inf false := by
      simp [factor, h2, pyMin, F.lt]
    simp [scale, hf, F.lt, F.ofReal]
  have h1 : ∀ k, ∃ c, getCurrent rnd (T k) (scale rnd T m k) = .ok c ∧ IsZeroFloat c := by
    intro k
    rw [hs, hm k]
    exact ieeeCurrent_zero rnd h0 _ (hK k) false
  choose c hc using h1
  exact ⟨c, ieee_pyForall_ok _ c fun k => (hc k).1, fun k => (hc k).2⟩

/-- The sign bit of a float that is a number. -/
def signBit : F → Bool
  | .fin s _ => s
  | .inf s => s
  | .nan => false

/-- `np.cross` with a torque of negative zeros: a component is the negative zero if the next component
of the field is positive and the one after it negative. -/
theorem cross_neg_zero (rnd : ℝ≥0 → ℝ≥0) (h0 : rnd 0 = 0) (B : Fin 3 → F) (hB : ∀ i, IsNumberFloat (B i)) (i : Fin 3) :
    cross rnd B (fun _ => .fin true 0) i = .fin (!signBit (B (i + 1)) && signBit (B (i + 2))) 0 := by
  obtain ⟨s0, x0, e0⟩ := hB 0
  obtain ⟨s1, x1, e1⟩ := hB 1
  obtain ⟨s2, x2, e2⟩ := hB 2
  fin_cases i
  · show F.sub rnd _ _ = .fin (!signBit (B 1) && signBit (B 2)) 0
    rw [e1, e2]
    cases s1 <;> cases s2 <;> simp [F.sub, F.mul, F.neg, F.add, F.addFin, h0, signBit]
  · show F.sub rnd _ _ = .fin (!signBit (B 2) && signBit (B 0)) 0
    rw [e2, e0]
    cases s2 <;> cases s0 <;> simp [F.sub, F.mul, F.neg, F.add, F.addFin, h0, signBit]
  · show F.sub rnd _ _ = .fin (!signBit (B 0) && signBit (B 1)) 0
    rw [e0, e1]
    cases s0 <;> cases s1 <;> simp [F.sub, F.mul, F.neg, F.add, F.addFin, h0, signBit]

/-- A torque of negative zeros: no current in a field whose components have one sign, nan for every
torquer in every other field. -/
theorem commands_neg_zero (rnd : ℝ≥0 → ℝ≥0) (h0 : rnd 0 = 0) (T : Fin 3 → Magnetorquer)
    (hT : ∀ i, KnownTorquer (T i) ∧ 0 < (T i).maxM ∧ rnd (Real.nnabs (T i).maxM) ≠ 0) (B : Fin 3 → F)
    (hB : ∀ i, IsNumberFloat (B i)) (hd : ∃ d, d ≠ 0 ∧ dot rnd B B = .fin false d) :
    ∃ c, actuatorCommands rnd T B (fun _ => .fin true 0) = .ok c ∧
      if signBit (B 0) = signBit (B 1) ∧ signBit (B 1) = signBit (B 2) then ∀ i, IsZeroFloat (c i)
      else ∀ i, c i = .nan := by
  obtain ⟨d, hd0, hd⟩ := hd
  have hm : ∀ i, F.div rnd (cross rnd B (fun _ => .fin true 0) i) (dot rnd B B) =
      .fin (!signBit (B (i + 1)) && signBit (B (i + 2))) 0 := by
    intro i
    rw [cross_neg_zero rnd h0 B hB i, hd]
    simp [F.div, hd0, h0]
  unfold actuatorCommands
  simp only [hm]
  split_ifs with hs
  · refine distribute_pos_zero rnd h0 T (fun i => (hT i).1) (fun i => (hT i).2.1) (fun i => (hT i).2.2) _ ?_
    intro i
    fin_cases i <;> simp [hs.1, hs.2]
  · have : ∃ i : Fin 3, (!signBit (B (i + 1)) && signBit (B (i + 2))) = true := by
      by_contra hcon
      push Not at hcon
      have a := hcon 0; have b := hcon 1; have c := hcon 2
      simp only [show (0 : Fin 3) + 1 = 1 from rfl, show (0 : Fin 3) + 2 = 2 from rfl, show (1 : Fin 3) + 1 = 2 from rfl,
        show (1 : Fin 3) + 2 = 0 from rfl, show (2 : Fin 3) + 1 = 0 from rfl, show (2 : Fin 3) + 2 = 1 from rfl] at a b c
      revert hs a b c
      cases signBit (B 0) <;> cases signBit (B 1) <;> cases signBit (B 2) <;> simp
    obtain ⟨i, hi⟩ := this
    obtain ⟨c, hc, hc'⟩ := C185_neg_zero_partial rnd T (fun i => (hT i).1) (fun i => (hT i).2.1) (fun i => (hT i).2.2)
      (fun i => .fin (!signBit (B (i + 1)) && signBit (B (i + 2))) 0) (fun i => ⟨_, _, rfl⟩) i (by simp only [hi])
    exact ⟨c, hc, fun k => (hc' k).2 ⟨_, rfl⟩⟩

/-! ## Without negative zeros the other model is right -/

/-- `x` is the number `r`. -/
def IsReal (x : F) (r : ℝ) : Prop := x.real? = some r

theorem isReal_fin {s : Bool} {m : ℝ≥0} {r : ℝ} : IsReal (.fin s m) r ↔ (if s then -(m : ℝ) else m) = r := by
  simp [IsReal, F.real?]

theorem IsReal.exists {x : F} {r : ℝ} (h : IsReal x r) : ∃ s m, x = .fin s m ∧ (if s then -(m : ℝ) else m) = r := by
  rcases x with _ | s | ⟨s, m⟩
  · simp [IsReal, F.real?] at h
  · simp [IsReal, F.real?] at h
  · exact ⟨s, m, rfl, isReal_fin.mp h⟩

theorem IsReal.mul {x y : F} {a b : ℝ} (hx : IsReal x a) (hy : IsReal y b) : IsReal (F.mul (fun z => z) x y) (a * b) := by
  obtain ⟨s, m, rfl, rfl⟩ := hx.exists
  obtain ⟨t, n, rfl, rfl⟩ := hy.exists
  rw [F.mul, isReal_fin]
  cases s <;> cases t <;> simp

theorem IsReal.neg {x : F} {a : ℝ} (hx : IsReal x a) : IsReal x.neg (-a) := by
  obtain ⟨s, m, rfl, rfl⟩ := hx.exists
  rw [F.neg, isReal_fin]
  cases s <;> simp

theorem IsReal.abs {x : F} {a : ℝ} (hx : IsReal x a) : IsReal x.abs |a| := by
  obtain ⟨s, m, rfl, rfl⟩ := hx.exists
  rw [F.abs, isReal_fin]
  cases s <;> simp

theorem IsReal.add {x y : F} {a b : ℝ} (hx : IsReal x a) (hy : IsReal y b) : IsReal (F.add (fun z => z) x y) (a + b) := by
  obtain ⟨s, m, rfl, rfl⟩ := hx.exists
  obtain ⟨t, n, rfl, rfl⟩ := hy.exists
  simp only [F.add, F.addFin]
  by_cases hst : s = t
  · subst hst
    rw [if_pos rfl, isReal_fin]
    cases s <;> simp
    ring
  · rw [if_neg hst]
    by_cases hmn : m = n
    · subst hmn
      rw [if_pos rfl, isReal_fin]
      cases s <;> cases t <;> simp at hst ⊢
    · rw [if_neg hmn]
      by_cases hlt : n < m
      · rw [if_pos hlt, isReal_fin]
        cases s <;> cases t <;> simp [NNReal.coe_sub hlt.le] at hst ⊢
        all_goals ring
      · rw [if_neg hlt, isReal_fin]
        have := not_lt.mp hlt
        cases s <;> cases t <;> simp [NNReal.coe_sub this] at hst ⊢
        all_goals ring

theorem IsReal.sub {x y : F} {a b : ℝ} (hx : IsReal x a) (hy : IsReal y b) : IsReal (F.sub (fun z => z) x y) (a - b) := by
  rw [sub_eq_add_neg]
  exact hx.add hy.neg

theorem IsReal.sign {x : F} {a : ℝ} (hx : IsReal x a) : IsReal x.sign (npSign a) := by
  obtain ⟨s, m, rfl, rfl⟩ := hx.exists
  by_cases hm : m = 0
  · subst hm
    simp [F.sign, isReal_fin, npSign]
  · have hp : (0 : ℝ) < m := by exact_mod_cast pos_iff_ne_zero.mpr hm
    rw [F.sign, if_neg hm, isReal_fin]
    cases s <;> simp [npSign, hp, hp.not_gt, hm]

theorem isReal_ofReal (a : ℝ) : IsReal (F.ofReal (fun z => z) a) a := by
  rw [F.ofReal, isReal_fin]
  by_cases h : a < 0
  · simp [h, abs_of_neg h]
  · simp [h, abs_of_nonneg (not_lt.mp h)]

theorem IsReal.lt {x y : F} {a b : ℝ} (hx : IsReal x a) (hy : IsReal y b) : F.lt x y = true ↔ a < b := by
  obtain ⟨s, m, rfl, rfl⟩ := hx.exists
  obtain ⟨t, n, rfl, rfl⟩ := hy.exists
  simp [F.lt]

theorem IsReal.sqrt_ok {x : F} {a : ℝ} (hx : IsReal x a) (h : 0 ≤ a) : IsReal (F.sqrt (fun z => z) x) (Real.sqrt a) := by
  obtain ⟨s, m, rfl, rfl⟩ := hx.exists
  cases s
  · simp [F.sqrt, isReal_fin, Real.coe_sqrt]
  · have : m = 0 := by
      have h' : (m : ℝ) ≤ 0 := by simpa using h
      exact_mod_cast le_antisymm h' m.coe_nonneg
    subst this
    simp [F.sqrt, isReal_fin]

theorem IsReal.sqrt_nan {x : F} {a : ℝ} (hx : IsReal x a) (h : a < 0) : F.sqrt (fun z => z) x = .nan := by
  obtain ⟨s, m, rfl, rfl⟩ := hx.exists
  cases s
  · exact absurd h (by simp)
  · have : m ≠ 0 := by
      rintro rfl
      simp at h
    simp [F.sqrt, this]

/-- One current: the number that the other model gives, or nan. -/
theorem getCurrent_refines (t : Magnetorquer) (ht : KnownTorquer t) (x : F) (a : ℝ) (hx : IsReal x a) :
    (∃ c y, t.getCurrent a = .ok c ∧ getCurrent (fun z => z) t x = .ok y ∧ IsReal y c) ∨
      (t.getCurrent a = .error .nonFinite ∧ getCurrent (fun z => z) t x = .ok .nan) := by
  rcases ht with h | h | h
  · exact .inl ⟨_, _, by simp only [Magnetorquer.getCurrent, h, if_true], getCurrent_square _ t h x,
      hx.mul (isReal_ofReal _)⟩
  · have h1 := (isReal_ofReal 3481).sub ((isReal_ofReal 2750).mul hx.abs)
    by_cases hn : 3481 - 2750 * |a| < 0
    · right
      refine ⟨by simp [Magnetorquer.getCurrent, h, npSqrt, hn], ?_⟩
      rw [getCurrent_rod _ t h, h1.sqrt_nan hn]
      have : F.sub (fun z => z) (F.ofReal (fun z => z) 59) .nan = .nan := by simp [F.sub, F.neg, F.ofReal, F.add]
      rw [this]
      rcases F.mul (fun z => z) x.sign (F.ofReal (fun z => z) 0.0181818) with _ | s | ⟨s, m⟩ <;> rfl
    · left
      refine ⟨npSign a * 0.0181818 * (59 - Real.sqrt (3481 - 2750 * |a|)), _,
        by simp [Magnetorquer.getCurrent, h, npSqrt, hn], getCurrent_rod _ t h x, ?_⟩
      exact (hx.sign.mul (isReal_ofReal _)).mul ((isReal_ofReal _).sub (h1.sqrt_ok (not_lt.mp hn)))
  · exact .inl ⟨_, _, by simp [Magnetorquer.getCurrent, h], getCurrent_linear _ t h x,
      hx.mul (isReal_ofReal _)⟩

/-- `x` is the number or the positive infinity `w`. -/
def IsTop (x : F) (w : WithTop ℝ) : Prop := (x = .inf false ∧ w = ⊤) ∨ ∃ r : ℝ, IsReal x r ∧ w = r

theorem IsTop.lt {x y : F} {a b : WithTop ℝ} (hx : IsTop x a) (hy : IsTop y b) : F.lt x y = true ↔ a < b := by
  rcases hx with ⟨rfl, rfl⟩ | ⟨r, hx, rfl⟩
  · rcases hy with ⟨rfl, rfl⟩ | ⟨q, hy, rfl⟩
    · simp [F.lt]
    · obtain ⟨t, n, rfl, -⟩ := hy.exists
      simp [F.lt]
  · rcases hy with ⟨rfl, rfl⟩ | ⟨q, hy, rfl⟩
    · obtain ⟨t, n, rfl, -⟩ := hx.exists
      simp [F.lt]
    · rw [hx.lt hy, WithTop.coe_lt_coe]

theorem IsTop.min {x y : F} {a b : WithTop ℝ} (hx : IsTop x a) (hy : IsTop y b) :
    IsTop (if F.lt y x then y else x) (min a b) := by
  by_cases h : b < a
  · rw [if_pos ((hy.lt hx).mpr h), min_eq_right h.le]
    exact hy
  · rw [if_neg (fun h' => h ((hy.lt hx).mp h')), min_eq_left (not_lt.mp h)]
    exact hx

theorem ratio_refines (M : ℝ) (hM : 0 < M) (x : F) (a : ℝ) (hx : IsReal x a) (hz : x ≠ .fin true 0) :
    ∃ w, ratio M a = .ok w ∧ IsTop (F.div (fun z => z) (F.ofReal (fun z => z) M) x) w := by
  obtain ⟨s, m, rfl, rfl⟩ := hx.exists
  have h1 : decide (M < 0) = false := by simpa using hM.le
  have h2 : Real.nnabs M ≠ 0 := by simpa using hM.ne'
  by_cases hm : m = 0
  · subst hm
    have hs : s = false := by
      cases s
      · rfl
      · exact absurd rfl hz
    subst hs
    refine ⟨⊤, by simp [ratio, hM.ne'], .inl ⟨?_, rfl⟩⟩
    simp only [F.ofReal, F.div, h1, if_true, h2, if_false]
    rfl
  · have hm' : (m : ℝ) ≠ 0 := by exact_mod_cast hm
    refine ⟨_, by rw [ratio, if_neg (by cases s <;> simpa using hm)], .inr ⟨_, ?_, rfl⟩⟩
    simp only [F.ofReal, F.div, h1, hm, if_false]
    rw [isReal_fin]
    cases s <;> simp [abs_of_pos hM, div_neg]

theorem inf_three (r : Fin 3 → WithTop ℝ) (h : (Finset.univ : Finset (Fin 3)).Nonempty) :
    Finset.univ.inf' h r = min (min (r 0) (r 1)) (r 2) := by
  apply le_antisymm
  · exact le_min (le_min (Finset.inf'_le r (Finset.mem_univ _)) (Finset.inf'_le r (Finset.mem_univ _)))
      (Finset.inf'_le r (Finset.mem_univ _))
  · refine Finset.le_inf' h r fun i _ => ?_
    fin_cases i
    · exact (min_le_left _ _).trans (min_le_left _ _)
    · exact (min_le_left _ _).trans (min_le_right _ _)
    · exact min_le_right _ _

theorem scale_refines (T : Fin 3 → Magnetorquer) (hM : ∀ i, 0 < (T i).maxM) (m : Fin 3 → F) (r : Fin 3 → ℝ)
    (hm : ∀ i, IsReal (m i) (r i)) (hz : ∀ i, m i ≠ .fin true 0) :
    ∃ r', scaleMoment T r = .ok r' ∧ ∀ i, IsReal (scale (fun z => z) T m i) (r' i) := by
  choose w hw hw' using fun i => ratio_refines (T i).maxM (hM i) (m i) (r i) (hm i) (hz i)
  have hf : IsTop (factor (fun z => z) T m) (min (min (w 0) (w 1)) (w 2)) := by
    simp only [factor, pyMin, List.foldl]
    exact ((hw' 0).min (hw' 1)).min (hw' 2)
  have hn : (Finset.univ : Finset (Fin 3)).Nonempty := ⟨0, Finset.mem_univ _⟩
  refine ⟨_, by rw [scaleMoment, ieee_pyForall_ok _ w hw]; simp only [dif_pos hn]; rfl, ?_⟩
  rw [inf_three]
  have h1 : IsTop (F.ofReal (fun z => z) 1) (1 : ℝ) := .inr ⟨1, isReal_ofReal 1, rfl⟩
  intro i
  by_cases h : min (min (w 0) (w 1)) (w 2) < 1
  · rw [if_pos h]
    simp only [scale]
    rw [if_pos ((hf.lt h1).mpr (by simpa using h))]
    rcases hf with ⟨-, hf⟩ | ⟨q, hq, hf⟩
    · rw [hf] at h
      exact absurd h (by simp)
    · rw [hf, WithTop.untopD_coe]
      exact (hm i).mul hq
  · rw [if_neg h]
    simp only [scale]
    rw [if_neg (fun h' => h (by simpa using (hf.lt h1).mp h'))]
    exact hm i

/-- Without rounding and without negative zeros, `Str.distribute` is what the floats compute: the same
numbers, and where it stops with `nonFinite` a current is nan. -/
theorem C185_refines_partial (T : Fin 3 → Magnetorquer) (hK : ∀ i, KnownTorquer (T i)) (hM : ∀ i, 0 < (T i).maxM)
    (m : Fin 3 → F) (r : Fin 3 → ℝ) (hm : ∀ i, IsReal (m i) (r i)) (hz : ∀ i, m i ≠ .fin true 0) :
    ∃ y, distribute (fun z => z) T m = .ok y ∧
      ((∃ c, Str.distribute T r = .ok c ∧ ∀ i, IsReal (y i) (c i)) ∨
        (Str.distribute T r = .error .nonFinite ∧ ∃ i, y i = .nan)) := by
  obtain ⟨r', hr, hs⟩ := scale_refines T hM m r hm hz
  have hk := fun i => getCurrent_refines (T i) (hK i) _ (r' i) (hs i)
  have hy : ∀ i, ∃ y, getCurrent (fun z => z) (T i) (scale (fun z => z) T m i) = .ok y := fun i => by
    rcases hk i with ⟨c, y, -, h, -⟩ | ⟨-, h⟩
    exacts [⟨_, h⟩, ⟨_, h⟩]
  choose y hy using hy
  refine ⟨y, ieee_pyForall_ok _ y hy, ?_⟩
  by_cases hall : ∃ i, (T i).getCurrent (r' i) = .error .nonFinite
  · right
    obtain ⟨i, hi⟩ := hall
    refine ⟨?_, i, ?_⟩
    · have h3 : ∀ k, (∃ c, (T k).getCurrent (r' k) = .ok c) ∨ (T k).getCurrent (r' k) = .error .nonFinite := fun k => by
        rcases hk k with ⟨c, y, h, -, -⟩ | ⟨h, -⟩
        exacts [.inl ⟨c, h⟩, .inr h]
      simp only [Str.distribute, hr, pyForall, show (Fin.succ 0 : Fin 3) = 1 from rfl,
        show (Fin.succ (Fin.succ 0) : Fin 3) = 2 from rfl]
      rcases h3 0 with ⟨c0, h0⟩ | h0
      · rcases h3 1 with ⟨c1, h1⟩ | h1
        · rcases h3 2 with ⟨c2, h2⟩ | h2
          · fin_cases i
            · exact absurd (h0.symm.trans hi) (by simp)
            · exact absurd (h1.symm.trans hi) (by simp)
            · exact absurd (h2.symm.trans hi) (by simp)
          · rw [h0, h1, h2]
        · rw [h0, h1]
      · rw [h0]
    · rcases hk i with ⟨c, y', h, -, -⟩ | ⟨-, h⟩
      · exact absurd (h.symm.trans hi) (by simp)
      · exact Except.ok.inj ((hy i).symm.trans h)
  · left
    have hc : ∀ i, ∃ c, (T i).getCurrent (r' i) = .ok c ∧ IsReal (y i) c := fun i => by
      rcases hk i with ⟨c, y', h, h', hr⟩ | ⟨h, -⟩
      · exact ⟨c, h, (Except.ok.inj ((hy i).symm.trans h')) ▸ hr⟩
      · exact absurd ⟨i, h⟩ hall
    choose c hc using hc
    refine ⟨c, ?_, fun i => (hc i).2⟩
    simp only [Str.distribute, hr]
    exact ieee_pyForall_ok _ c fun i => (hc i).1

/-- The claim: a controller with nothing to correct (wheels at their reference) sets the magnetorquers to no
current, whatever the field. -/
def C185_claim : Prop :=
  ∀ (rnd : ℝ≥0 → ℝ≥0) (T : Fin 3 → Magnetorquer) (B h : Fin 3 → F),
    rnd 0 = 0 → (∀ i, KnownTorquer (T i) ∧ 0 < (T i).maxM ∧ rnd (Real.nnabs (T i).maxM) ≠ 0) →
    (∀ i, IsNumberFloat (B i)) → (∃ d, d ≠ 0 ∧ dot rnd B B = .fin false d) → (∀ i, IsNumberFloat (h i)) →
    ∃ c, desaturate rnd T B h h = .ok c ∧ ∀ i, IsZeroFloat (c i)

theorem kBbq_sign (rnd : ℝ≥0 → ℝ≥0) : ∃ k, F.ofReal rnd Ctl.kBbq = .fin false k := by
  have : ¬ Ctl.kBbq < 0 := by
    unfold Ctl.kBbq
    have := Real.pi_pos
    exact not_lt.mpr (by positivity)
  exact ⟨rnd (Real.nnabs Ctl.kBbq), by simp [F.ofReal, this]⟩

/-- **C185** (the part that holds). Wheels at their reference: no current in a field whose components all
have the same sign; in every other field each torquer is commanded nan. -/
theorem C185_desaturate_partial (rnd : ℝ≥0 → ℝ≥0) (h0 : rnd 0 = 0) (T : Fin 3 → Magnetorquer)
    (hT : ∀ i, KnownTorquer (T i) ∧ 0 < (T i).maxM ∧ rnd (Real.nnabs (T i).maxM) ≠ 0) (B h : Fin 3 → F)
    (hB : ∀ i, IsNumberFloat (B i)) (hd : ∃ d, d ≠ 0 ∧ dot rnd B B = .fin false d) (hh : ∀ i, IsNumberFloat (h i)) :
    ∃ c, desaturate rnd T B h h = .ok c ∧
      if signBit (B 0) = signBit (B 1) ∧ signBit (B 1) = signBit (B 2) then ∀ i, IsZeroFloat (c i)
      else ∀ i, c i = .nan := by
  have ht : (fun i => F.mul rnd (F.ofReal rnd Ctl.kBbq).neg (F.sub rnd (h i) (h i))) = fun _ => .fin true 0 := by
    funext i
    obtain ⟨k, hk⟩ := kBbq_sign rnd
    obtain ⟨s, x, e⟩ := hh i
    rw [hk, e]
    cases s <;> simp [F.sub, F.neg, F.add, F.addFin, F.mul, h0]
  unfold desaturate
  rw [ht]
  exact commands_neg_zero rnd h0 T hT B hB hd

/-- **C185** (the part that holds). No rotation: the same of `detumble`, for a matrix of inertia with
a positive diagonal. -/
theorem C185_detumble_partial (rnd : ℝ≥0 → ℝ≥0) (h0 : rnd 0 = 0) (T : Fin 3 → Magnetorquer)
    (hT : ∀ i, KnownTorquer (T i) ∧ 0 < (T i).maxM ∧ rnd (Real.nnabs (T i).maxM) ≠ 0) (B : Fin 3 → F)
    (J : Fin 3 → Fin 3 → F) (hJ : ∀ i k, IsNumberFloat (J i k)) (hJd : ∀ i, signBit (J i i) = false)
    (hB : ∀ i, IsNumberFloat (B i)) (hd : ∃ d, d ≠ 0 ∧ dot rnd B B = .fin false d) :
    ∃ c, detumble rnd T J B (fun _ => .fin false 0) = .ok c ∧
      if signBit (B 0) = signBit (B 1) ∧ signBit (B 1) = signBit (B 2) then ∀ i, IsZeroFloat (c i)
      else ∀ i, c i = .nan := by
  have ht : (fun i => F.mul rnd (F.ofReal rnd Ctl.kBbq).neg (dot rnd (J i) (fun _ => .fin false 0))) =
      fun _ => .fin true 0 := by
    funext i
    obtain ⟨k, hk⟩ := kBbq_sign rnd
    have hz : dot rnd (J i) (fun _ => .fin false 0) = .fin false 0 := by
      obtain ⟨s0, x0, e0⟩ := hJ i 0
      obtain ⟨s1, x1, e1⟩ := hJ i 1
      obtain ⟨s2, x2, e2⟩ := hJ i 2
      have hd := hJd i
      unfold dot
      fin_cases i
      all_goals
        simp only [Fin.zero_eta, Fin.mk_one, Fin.reduceFinMk, Fin.isValue] at e0 e1 e2 hd ⊢
        rw [e0, e1, e2]
      · rw [e0] at hd; simp only [signBit] at hd
        cases s1 <;> cases s2 <;> simp [hd, F.add, F.addFin, F.mul, h0]
      · rw [e1] at hd; simp only [signBit] at hd
        cases s0 <;> cases s2 <;> simp [hd, F.add, F.addFin, F.mul, h0]
      · rw [e2] at hd; simp only [signBit] at hd
        cases s0 <;> cases s1 <;> simp [hd, F.add, F.addFin, F.mul, h0]
    rw [hk, hz]
    simp [F.neg, F.mul, h0]
  unfold detumble
  rw [ht]
  exact commands_neg_zero rnd h0 T hT B hB hd

/-- A torquer for the examples. -/
noncomputable def signedTorquer (ty : String) : Magnetorquer :=
  { mtType := ty, axis := ![1, 0, 0], maxA := 1, maxM := 1, R := none }

/-- A field for the examples, with components of both signs. -/
noncomputable def signedField : Fin 3 → F := ![.fin false 2, .fin true 1, .fin false 1]

theorem signedField_dot : dot (fun x => x) signedField signedField = .fin false 6 := by
  simp [dot, signedField, F.mul, F.add, F.addFin]
  norm_num

/-- **C185** does not hold: a field of three components, not all of one sign. -/
theorem C185_fails : ¬ C185_claim := by
  intro h
  have hT : ∀ i : Fin 3, KnownTorquer ((fun _ => signedTorquer "Square") i) ∧
      0 < ((fun _ => signedTorquer "Square") i).maxM ∧
      (fun x : ℝ≥0 => x) (Real.nnabs ((fun _ => signedTorquer "Square") i).maxM) ≠ 0 := fun i =>
    ⟨.inl rfl, by simp [signedTorquer], by simp [signedTorquer]⟩
  have hB : ∀ i, IsNumberFloat (signedField i) := fun i => by fin_cases i <;> exact ⟨_, _, rfl⟩
  have hd : ∃ d, d ≠ 0 ∧ dot (fun x => x) signedField signedField = .fin false d :=
    ⟨6, by norm_num, signedField_dot⟩
  obtain ⟨c, hc, hz⟩ := h (fun x => x) (fun _ => signedTorquer "Square") signedField (fun _ => .fin false 0) rfl hT
    hB hd (fun _ => ⟨_, _, rfl⟩)
  obtain ⟨c', hc', hn⟩ := C185_desaturate_partial (fun x => x) rfl (fun _ => signedTorquer "Square") hT signedField
    (fun _ => .fin false 0) hB hd (fun _ => ⟨_, _, rfl⟩)
  rw [hc] at hc'
  obtain rfl := Except.ok.inj hc'
  rw [if_neg (by simp [signedField, signBit])] at hn
  obtain ⟨s, e⟩ := hz 0
  rw [hn 0] at e
  simp at e

/-- The hypotheses of the theorems above are met: a rod, a coil and a linear rod, in a field with a negative
component, with any speed of the wheels. -/
example : ∃ c, desaturate (fun x => x) ![signedTorquer "Rod", signedTorquer "LinearRod", signedTorquer "Square"]
    signedField (fun _ => .fin true 5) (fun _ => .fin true 5) = .ok c ∧ ∀ i, c i = .nan := by
  obtain ⟨c, hc, hn⟩ := C185_desaturate_partial (fun x => x) rfl
    ![signedTorquer "Rod", signedTorquer "LinearRod", signedTorquer "Square"]
    (fun i => by
      fin_cases i
      · exact ⟨.inr (.inl rfl), by simp [signedTorquer], by simp [signedTorquer]⟩
      · exact ⟨.inr (.inr rfl), by simp [signedTorquer], by simp [signedTorquer]⟩
      · exact ⟨.inl rfl, by simp [signedTorquer], by simp [signedTorquer]⟩)
    signedField (fun _ => .fin true 5) (fun i => by fin_cases i <;> exact ⟨_, _, rfl⟩)
    ⟨6, by norm_num, signedField_dot⟩ (fun _ => ⟨_, _, rfl⟩)
  rw [if_neg (by simp [signedField, signBit])] at hn
  exact ⟨c, hc, hn⟩

/-- In a field without a negative component there is no current. -/
example : ∃ c, detumble (fun x => x) (fun _ => signedTorquer "Square") (fun _ _ => .fin false 1)
    (fun _ => .fin false 1) (fun _ => .fin false 0) = .ok c ∧ ∀ i, IsZeroFloat (c i) := by
  obtain ⟨c, hc, hn⟩ := C185_detumble_partial (fun x => x) rfl (fun _ => signedTorquer "Square")
    (fun i => ⟨.inl rfl, by simp [signedTorquer], by simp [signedTorquer]⟩)
    (fun _ => .fin false 1) (fun _ _ => .fin false 1) (fun _ _ => ⟨_, _, rfl⟩) (fun _ => rfl)
    (fun _ => ⟨_, _, rfl⟩) ⟨3, by norm_num, by simp [dot, F.mul, F.add, F.addFin]; norm_num⟩
  rw [if_pos (by simp [signBit])] at hn
  exact ⟨c, hc, hn⟩

end Adcs
