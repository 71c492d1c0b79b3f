import Verif.Model.IeeeFilter
import Verif.Props.AttFilter
import Verif.Props.BadField

set_option autoImplicit false

/-! # C195: a reading of nan in the attitude filter -/

namespace Adcs

open Adcs.Ieee Obs
open scoped NNReal Matrix

/-- All components are nan. -/
def Spec.AllNan {n : ℕ} (x : Fin n → F) : Prop := ∀ i, x i = .nan

theorem dotN_nan_left {n : ℕ} (rnd : ℝ≥0 → ℝ≥0) (a b : Fin n → F) (i : Fin n) (h : a i = .nan) : dotN rnd a b = .nan := by
  refine foldl_mem_nan rnd _ ?_ _
  rw [List.mem_ofFn]
  exact ⟨i, by rw [h, nan_fmul]⟩

/-- Every component of the vector part of a product uses every component of its factors. -/
theorem product_nan (rnd : ℝ≥0 → ℝ≥0) (a b : Fin 4 → F) (h : (∃ i, a i = .nan) ∨ ∃ i, b i = .nan) (k : Fin 4) :
    productF rnd a b k = .nan := by
  rcases h with ⟨i, h⟩ | ⟨i, h⟩ <;> fin_cases i <;> fin_cases k <;> simp at h <;>
    simp [productF, cross, dot, h, fmul_nan, nan_fmul, nan_fadd, fadd_nan, nan_fsub, fsub_nan]

theorem errorQuat_nan (rnd : ℝ≥0 → ℝ≥0) (q r : Fin 4 → F) (h : (∃ i, q i = .nan) ∨ ∃ i, r i = .nan) (k : Fin 4) :
    errorQuatF rnd q r k = .nan := by
  refine product_nan rnd _ _ ?_ k
  rcases h with h | ⟨i, h⟩
  · exact .inr h
  · refine .inl ⟨i, ?_⟩
    fin_cases i <;> simp at h ⊢ <;> rw [h] <;> rfl

theorem normalizeV_nan {n : ℕ} (rnd : ℝ≥0 → ℝ≥0) (q : Fin n → F) (i : Fin n) (h : q i = .nan) (k : Fin n) :
    Ieee.normalizeV rnd q k = .nan := by
  have hn : normF rnd q = .nan := by
    rw [normF, dotN_nan rnd q q i h]
    rfl
  have he : F.eq .nan (.fin false 0) = false := rfl
  rw [Ieee.normalizeV, hn, he]
  simp [fdiv_nan]

/-- After a measurement that is made with nan somewhere in the reading or in the estimate, attitude and bias are
nan. -/
theorem measurement_nan (rnd : ℝ≥0 → ℝ≥0) (inv : (Fin 3 → Fin 3 → F) → Py (Fin 3 → Fin 3 → F)) (f g : FilterF)
    (qRef : Fin 4 → F) (h : (∃ i, qRef i = .nan) ∨ ∃ i, f.q i = .nan)
    (hg : f.measurement rnd inv qRef = (.ok (), g)) : Spec.AllNan g.q ∧ Spec.AllNan g.b := by
  unfold FilterF.measurement at hg
  split at hg
  · simp at hg
  · simp only [Prod.mk.injEq, true_and] at hg
    subst hg
    have hd : ∀ K : Fin 3 → F, dotN rnd K ![F.sub rnd (errorQuatF rnd qRef f.q 1) (f.dq 0),
        F.sub rnd (errorQuatF rnd qRef f.q 2) (f.dq 1), F.sub rnd (errorQuatF rnd qRef f.q 3) (f.dq 2)] = .nan := by
      intro K
      refine dotN_nan rnd _ _ 0 ?_
      simp [errorQuat_nan rnd qRef f.q h, nan_fsub]
    constructor
    · intro k
      refine normalizeV_nan rnd _ 0 ?_ k
      simp only [hd]
      rw [dotN_nan rnd _ _ 0 rfl, nan_fmul, fadd_nan]
    · intro k
      simp only [FilterF.reset, hd, fadd_nan]

/-- A gyro reading with nan makes the attitude nan. -/
theorem propagate_nan (rnd : ℝ≥0 → ℝ≥0) (f : FilterF) (w : Fin 3 → F) (dt : F)
    (h : (∃ i, w i = .nan) ∨ (∃ i, f.b i = .nan) ∨ ∃ i, f.q i = .nan) : Spec.AllNan (f.propagate rnd w dt).q := by
  intro k
  rcases h with h | h | ⟨i, h⟩
  rotate_left 2
  · exact dotN_nan rnd _ _ i h
  all_goals
    obtain ⟨i, h⟩ := h
    have hi : F.sub rnd (w i) (f.b i) = .nan := by simp only [h, nan_fsub, fsub_nan]
    have hn : normF rnd (fun i => F.sub rnd (w i) (f.b i)) = .nan := by
      rw [normF, dotN_nan rnd _ _ i hi]
      rfl
    have he : F.eq .nan (.fin false 0) = false := rfl
    have hp : ∀ j, psiF rnd (fun i => F.sub rnd (w i) (f.b i)) dt j = .nan := by
      intro j
      simp only [psiF, hn, he, fdiv_nan, nan_fmul, Bool.not_false, if_true]
    have hc : F.cos rnd (F.mul rnd (F.mul rnd .nan dt) (F.ofReal rnd 0.5)) = .nan := by
      rw [nan_fmul, nan_fmul]
      rfl
    refine dotN_nan_left rnd _ _ 0 ?_
    fin_cases k
    · simp [omegaF, hn, hc]
    · simp [omegaF, hp]
    · simp [omegaF, hp]
    · simp [omegaF, hp]

/-- A call of a filter. -/
inductive Spec.FilterCall
  | measurement (qRef : Fin 4 → F)
  | propagate (w : Fin 3 → F) (dt : F)

/-- The filter after a call, whether it raises or not. -/
noncomputable def Spec.FilterCall.after (rnd : ℝ≥0 → ℝ≥0) (inv : (Fin 3 → Fin 3 → F) → Py (Fin 3 → Fin 3 → F))
    (f : FilterF) : Spec.FilterCall → FilterF
  | .measurement qRef => (f.measurement rnd inv qRef).2
  | .propagate w dt => f.propagate rnd w dt

/-- **C195** (what happens instead). One reading of the star tracker with nan in it makes the estimates of attitude
and bias nan; one reading of the gyro makes the attitude nan. -/
theorem C195_one_reading_partial (rnd : ℝ≥0 → ℝ≥0) (inv : (Fin 3 → Fin 3 → F) → Py (Fin 3 → Fin 3 → F)) (f : FilterF) :
    (∀ qRef g, (∃ i, qRef i = .nan) → f.measurement rnd inv qRef = (.ok (), g) → Spec.AllNan g.q ∧ Spec.AllNan g.b) ∧
      ∀ w dt, (∃ i, w i = .nan) → Spec.AllNan (f.propagate rnd w dt).q :=
  ⟨fun qRef g h hg => measurement_nan rnd inv f g qRef (.inl h) hg, fun w dt h => propagate_nan rnd f w dt (.inl h)⟩

/-- **C195** (what happens instead). An attitude of nan stays nan through every later sequence of calls, whatever
the readings are; with the first measurement that is made the bias is nan too, and it stays nan. -/
theorem C195_forever_partial (rnd : ℝ≥0 → ℝ≥0) (inv : (Fin 3 → Fin 3 → F) → Py (Fin 3 → Fin 3 → F)) (f : FilterF)
    (h : Spec.AllNan f.q) (calls : List Spec.FilterCall) :
    Spec.AllNan (calls.foldl (Spec.FilterCall.after rnd inv) f).q ∧
      (∀ qRef g, (calls.foldl (Spec.FilterCall.after rnd inv) f).measurement rnd inv qRef = (.ok (), g) →
        Spec.AllNan g.b) ∧
      (Spec.AllNan f.b → Spec.AllNan (calls.foldl (Spec.FilterCall.after rnd inv) f).b) := by
  have key : ∀ (calls : List Spec.FilterCall) (f : FilterF), Spec.AllNan f.q →
      Spec.AllNan (calls.foldl (Spec.FilterCall.after rnd inv) f).q ∧
        (Spec.AllNan f.b → Spec.AllNan (calls.foldl (Spec.FilterCall.after rnd inv) f).b) := by
    intro calls
    induction calls with
    | nil => exact fun f h => ⟨h, id⟩
    | cons c l ih =>
      intro f h
      have hc : Spec.AllNan (c.after rnd inv f).q ∧ (Spec.AllNan f.b → Spec.AllNan (c.after rnd inv f).b) := by
        cases c with
        | measurement qRef =>
          rcases hm : f.measurement rnd inv qRef with ⟨r, g⟩
          have hg : Spec.FilterCall.after rnd inv f (.measurement qRef) = g := by simp [Spec.FilterCall.after, hm]
          rw [hg]
          rcases r with e | u
          · have : g = f := by
              unfold FilterF.measurement at hm
              split at hm
              · simp only [Prod.mk.injEq] at hm
                exact hm.2.symm
              · simp at hm
            rw [this]
            exact ⟨h, id⟩
          · obtain ⟨h1, h2⟩ := measurement_nan rnd inv f g qRef (.inr ⟨0, h 0⟩) hm
            exact ⟨h1, fun _ => h2⟩
        | propagate w dt => exact ⟨propagate_nan rnd f w dt (.inr (.inr ⟨0, h 0⟩)), id⟩
      obtain ⟨h1, h2⟩ := ih _ hc.1
      exact ⟨h1, fun hb => h2 (hc.2 hb)⟩
  obtain ⟨h1, h2⟩ := key calls f h
  exact ⟨h1, fun qRef g hg => (measurement_nan rnd inv _ g qRef (.inr ⟨0, h1 0⟩) hg).2, h2⟩

/-- **C195** (a reading of zeros). The filter takes a quaternion of zeros for a measurement that agrees with its
estimate: attitude (of unit norm) and bias stay, and the covariance shrinks as with a true measurement. -/
theorem C195_zeros_partial (k : Att.Kalman) (hq : npNorm k.q = 1) (hdq : k.dq = 0) (hP : (Att.R + k.P.toBlocks₁₁).det ≠ 0) :
    ∃ g, k.measurement 0 = .ok g ∧ g.q = k.q ∧ g.b = k.b ∧ ∀ qRef, ∃ h, k.measurement qRef = .ok h ∧ h.P = g.P := by
  have hgain : ∃ K, k.gain = .ok K := by
    unfold Att.Kalman.gain npInv
    rw [if_neg hP]
    exact ⟨_, rfl⟩
  obtain ⟨K, hK⟩ := hgain
  have hm : ∀ qRef, k.measurement qRef = .ok (Att.Kalman.reset { k with
      P := (1 - Matrix.fromCols K (0 : Matrix I6 (Fin 3) ℝ)) * k.P
      dq := (K *ᵥ (vecPart (Quat.errorQuat qRef k.q) - k.dq)) ∘ Sum.inl
      db := (K *ᵥ (vecPart (Quat.errorQuat qRef k.q) - k.dq)) ∘ Sum.inr }) := by
    intro qRef
    simp only [Att.Kalman.measurement, hK]
  refine ⟨_, hm 0, ?_, ?_, fun qRef => ⟨_, hm qRef, rfl⟩⟩
  · have : vecPart (Quat.errorQuat 0 k.q) - k.dq = 0 := by
      rw [hdq]
      funext i
      fin_cases i <;> simp [vecPart, Quat.errorQuat, Quat.product, Quat.conjugate, npCross]
    simp only [this, Matrix.mulVec_zero, Att.Kalman.reset]
    have h0 : ((0 : I6 → ℝ) ∘ Sum.inl : V3) = 0 := rfl
    rw [h0, Matrix.mulVec_zero, smul_zero, add_zero, Vec.normalizeV, hq]
    simp
  · have : vecPart (Quat.errorQuat 0 k.q) - k.dq = 0 := by
      rw [hdq]
      funext i
      fin_cases i <;> simp [vecPart, Quat.errorQuat, Quat.product, Quat.conjugate, npCross]
    simp only [this, Matrix.mulVec_zero, Att.Kalman.reset]
    funext i
    simp

/-! ### The two models of the filter agree on numbers -/

theorem IsReal.of_eq {x : F} {a b : ℝ} (h : IsReal x a) (e : a = b) : IsReal x b := e ▸ h

theorem IsReal.sin {x : F} {a : ℝ} (hx : IsReal x a) : IsReal (F.sin (fun z => z) x) (Real.sin a) := by
  obtain ⟨s, m, rfl, rfl⟩ := hx.exists
  exact isReal_ofReal _

theorem IsReal.cos {x : F} {a : ℝ} (hx : IsReal x a) : IsReal (F.cos (fun z => z) x) (Real.cos a) := by
  obtain ⟨s, m, rfl, rfl⟩ := hx.exists
  exact isReal_ofReal _

theorem isReal_zero : IsReal (.fin false 0) 0 := by simp [isReal_fin]

theorem isReal_eye {α : Type} [DecidableEq α] (i j : α) : IsReal (eyeF i j) ((1 : Matrix α α ℝ) i j) := by
  by_cases h : i = j
  · subst h
    simp [eyeF, isReal_fin]
  · simp [eyeF, h, isReal_fin]

theorem isReal_cross {v : Fin 3 → F} {a : V3} (h : ∀ i, IsReal (v i) (a i)) (i j : Fin 3) :
    IsReal (crossF v i j) (Vec.cross a i j) := by
  fin_cases i <;> fin_cases j <;>
    first
      | exact isReal_zero
      | exact h _
      | exact (h _).neg

theorem isReal_norm {n : ℕ} {v : Fin n → F} {a : Fin n → ℝ} (h : ∀ i, IsReal (v i) (a i)) :
    IsReal (normF (fun z => z) v) (npNorm a) := by
  have h1 : (∑ k, a k ^ 2) = ∑ k, a k * a k := Finset.sum_congr rfl fun k _ => by ring
  rw [npNorm, h1]
  exact (isReal_dotN h h).sqrt_ok (Finset.sum_nonneg fun k _ => mul_self_nonneg _)

theorem isReal_normalizeV {n : ℕ} {v : Fin n → F} {a : Fin n → ℝ} (h : ∀ i, IsReal (v i) (a i)) (i : Fin n) :
    IsReal (Ieee.normalizeV (fun z => z) v i) (Vec.normalizeV a i) := by
  have hn := isReal_norm h
  by_cases h0 : npNorm a = 0
  · rw [Ieee.normalizeV, Vec.normalizeV, if_pos ((hn.eq isReal_zero).mpr h0), if_pos h0]
    exact h i
  · rw [Ieee.normalizeV, Vec.normalizeV, if_neg fun hh => h0 ((hn.eq isReal_zero).mp hh), if_neg h0]
    exact (h i).div hn h0

theorem isReal_dot6 {x y : I6 → F} {a b : I6 → ℝ} (hx : ∀ i, IsReal (x i) (a i)) (hy : ∀ i, IsReal (y i) (b i)) :
    IsReal (dot6 (fun z => z) x y) (∑ i, a i * b i) := by
  have h := isReal_foldl
    ([.inl 0, .inl 1, .inl 2, .inr 0, .inr 1, .inr 2].map fun k : I6 => F.mul (fun z => z) (x k) (y k))
    ([.inl 0, .inl 1, .inl 2, .inr 0, .inr 1, .inr 2].map fun k : I6 => a k * b k) ?_ (.fin false 0) 0 isReal_zero
  · refine h.of_eq ?_
    simp only [List.map_cons, List.map_nil, List.sum_cons, List.sum_nil, Fintype.sum_sum_type, Fin.sum_univ_three]
    ring
  · rw [List.forall₂_map_left_iff, List.forall₂_map_right_iff]
    exact List.forall₂_same.mpr fun k _ => (hx k).mul (hy k)

theorem isReal_mul6 {A B : I6 → I6 → F} {M N : M6} (hA : ∀ i j, IsReal (A i j) (M i j)) (hB : ∀ i j, IsReal (B i j) (N i j))
    (i j : I6) : IsReal (mul6 (fun z => z) A B i j) ((M * N) i j) := by
  rw [Matrix.mul_apply]
  exact isReal_dot6 (hA i) fun k => hB k j

theorem isReal_mul3 {A B : Fin 3 → Fin 3 → F} {M N : M3} (hA : ∀ i j, IsReal (A i j) (M i j))
    (hB : ∀ i j, IsReal (B i j) (N i j)) (i j : Fin 3) : IsReal (mul3 (fun z => z) A B i j) ((M * N) i j) := by
  rw [Matrix.mul_apply]
  exact isReal_dotN (hA i) fun k => hB k j

theorem isReal_errorQuat {x y : Fin 4 → F} {q r : V4} (hx : ∀ i, IsReal (x i) (q i)) (hy : ∀ i, IsReal (y i) (r i))
    (i : Fin 4) : IsReal (errorQuatF (fun z => z) x y i) (Quat.errorQuat q r i) := by
  have n1 := (hy 1).neg
  have n2 := (hy 2).neg
  have n3 := (hy 3).neg
  fin_cases i
  · refine (((hy 0).mul (hx 0)).sub (((n1.mul (hx 1)).add (n2.mul (hx 2))).add (n3.mul (hx 3)))).of_eq ?_
    simp [Quat.errorQuat, Quat.product, Quat.conjugate, vecPart, npDot, Fin.sum_univ_three]
  · refine ((((hx 0).mul n1).add ((hy 0).mul (hx 1))).add ((n2.mul (hx 3)).sub (n3.mul (hx 2)))).of_eq ?_
    simp [Quat.errorQuat, Quat.product, Quat.conjugate, vecPart, npCross]
  · refine ((((hx 0).mul n2).add ((hy 0).mul (hx 2))).add ((n3.mul (hx 1)).sub (n1.mul (hx 3)))).of_eq ?_
    simp [Quat.errorQuat, Quat.product, Quat.conjugate, vecPart, npCross]
  · refine ((((hx 0).mul n3).add ((hy 0).mul (hx 3))).add ((n1.mul (hx 2)).sub (n2.mul (hx 1)))).of_eq ?_
    simp [Quat.errorQuat, Quat.product, Quat.conjugate, vecPart, npCross]

theorem isReal_xi {x : Fin 4 → F} {q : V4} (hx : ∀ i, IsReal (x i) (q i)) (i : Fin 4) (j : Fin 3) :
    IsReal (xiF (fun z => z) x i j) (Quat.xi q i j) := by
  have hv : ∀ i, IsReal ((![x 1, x 2, x 3] : Fin 3 → F) i) (vecPart q i) := by
    intro i
    fin_cases i
    · exact hx 1
    · exact hx 2
    · exact hx 3
  have hm : ∀ i j, IsReal (F.add (fun z => z) (F.mul (fun z => z) (x 0) (eyeF i j)) (crossF ![x 1, x 2, x 3] i j))
      ((q 0 • (1 : M3) + Vec.cross (vecPart q)) i j) := fun i j => ((hx 0).mul (isReal_eye i j)).add (isReal_cross hv i j)
  fin_cases i <;> fin_cases j <;> first | exact (hx _).neg | exact hm _ _

/-- The attributes of the two models stand for the same numbers. -/
structure SameFilter (f : FilterF) (k : Att.Kalman) : Prop where
  dq : ∀ i, IsReal (f.dq i) (k.dq i)
  db : ∀ i, IsReal (f.db i) (k.db i)
  P : ∀ i j, IsReal (f.P i j) (k.P i j)
  q : ∀ i, IsReal (f.q i) (k.q i)
  b : ∀ i, IsReal (f.b i) (k.b i)

theorem isReal_reset {f : FilterF} {k : Att.Kalman} (h : SameFilter f k) : SameFilter (f.reset fun z => z) k.reset where
  dq := fun _ => isReal_zero
  db := fun _ => isReal_zero
  P := h.P
  q := isReal_normalizeV fun i => ((h.q i).add ((isReal_dotN (isReal_xi h.q i) h.dq).mul (isReal_ofReal 0.5))).of_eq (by
    simp only [Pi.add_apply, Pi.smul_apply, smul_eq_mul, Matrix.mulVec, dotProduct]
    ring)
  b := fun i => (h.b i).add (h.db i)

/-- An inverse that is right for matrices of numbers: the inverse, or the exception of a singular matrix. -/
def Spec.RightInverse (inv : (Fin 3 → Fin 3 → F) → Py (Fin 3 → Fin 3 → F)) : Prop :=
  ∀ (m : Fin 3 → Fin 3 → F) (M : M3), (∀ i j, IsReal (m i j) (M i j)) →
    match npInv M with
    | .error e => inv m = .error e
    | .ok N => ∃ n, inv m = .ok n ∧ ∀ i j, IsReal (n i j) (N i j)

/-- What a measurement does to the covariance does not depend on the reading. -/
theorem measurement_cov {inv : (Fin 3 → Fin 3 → F) → Py (Fin 3 → Fin 3 → F)} (hinv : Spec.RightInverse inv)
    {f : FilterF} {k : Att.Kalman} (hP : ∀ i j, IsReal (f.P i j) (k.P i j)) {r : V4} {k' : Att.Kalman}
    (hk : k.measurement r = .ok k') (qRef : Fin 4 → F) :
    ∃ g, f.measurement (fun z => z) inv qRef = (.ok (), g) ∧ (∀ i j, IsReal (g.P i j) (k'.P i j)) ∧
      (SameFilter f k → (∀ i, IsReal (qRef i) (r i)) → SameFilter g k') := by
  have hR : ∀ i j, IsReal (F.add (fun z => z) (if i = j then F.ofReal (fun z => z) (Att.sensorSigma ^ 2) else .fin false 0)
      (f.P (.inl i) (.inl j))) ((Att.R + k.P.toBlocks₁₁) i j) := by
    intro i j
    refine IsReal.add ?_ (hP _ _)
    by_cases h : i = j
    · rw [if_pos h, h, Att.R, Matrix.diagonal_apply_eq]
      exact isReal_ofReal _
    · rw [if_neg h, Att.R, Matrix.diagonal_apply_ne _ h]
      exact isReal_zero
  have hi := hinv _ _ hR
  unfold Att.Kalman.measurement Att.Kalman.gain at hk
  rcases hN : npInv (Att.R + k.P.toBlocks₁₁) with e | N
  · rw [hN] at hk
    simp at hk
  · rw [hN] at hi hk
    obtain ⟨n, hn, hnr⟩ := hi
    simp only [Except.ok.injEq] at hk
    subst hk
    have hK : ∀ i j, IsReal (dotN (fun z => z) (fun l => f.P i (.inl l)) fun l => n l j)
        ((k.P.submatrix id Sum.inl * N) i j) := by
      intro i j
      rw [Matrix.mul_apply]
      exact isReal_dotN (fun l => hP i (.inl l)) fun l => hnr l j
    have htemp : ∀ i j, IsReal (F.sub (fun z => z) (eyeF i j)
        (Sum.elim (fun j => dotN (fun z => z) (fun l => f.P i (.inl l)) fun l => n l j) (fun _ => .fin false 0) j))
        ((1 - Matrix.fromCols (k.P.submatrix id Sum.inl * N) (0 : Matrix I6 (Fin 3) ℝ) : M6) i j) := by
      intro i j
      refine (isReal_eye i j).sub ?_
      rcases j with j | j
      · exact hK i j
      · exact isReal_zero
    have hP' := isReal_mul6 htemp hP
    refine ⟨_, by simp only [FilterF.measurement, hn]; rfl, hP', fun hs hq => isReal_reset ?_⟩
    have he := isReal_errorQuat hq hs.q
    have hdx : ∀ i, IsReal (dotN (fun z => z) (fun j => dotN (fun z => z) (fun l => f.P i (.inl l)) fun l => n l j)
        ![F.sub (fun z => z) (errorQuatF (fun z => z) qRef f.q 1) (f.dq 0),
          F.sub (fun z => z) (errorQuatF (fun z => z) qRef f.q 2) (f.dq 1),
          F.sub (fun z => z) (errorQuatF (fun z => z) qRef f.q 3) (f.dq 2)])
        (((k.P.submatrix id Sum.inl * N) *ᵥ (vecPart (Quat.errorQuat r k.q) - k.dq)) i) := by
      intro i
      refine isReal_dotN (hK i) fun j => ?_
      fin_cases j
      · exact (he 1).sub (hs.dq 0)
      · exact (he 2).sub (hs.dq 1)
      · exact (he 3).sub (hs.dq 2)
    exact ⟨fun i => hdx (.inl i), fun i => hdx (.inr i), hP', hs.q, hs.b⟩

theorem isReal_noise {dt : F} {t : ℝ} (h : IsReal dt t) (i j : I6) :
    IsReal (noiseF (fun z => z) dt i j) (Att.processNoise t i j) := by
  have hm := isReal_ofReal
  have q11 := ((hm Att.gyroVar).mul h).add (((hm 0.3333333).mul (hm Att.driftVar)).mul ((h.mul h).mul h))
  have q12 := ((hm 0.5).neg.mul (hm Att.driftVar)).mul (h.mul h)
  have q22 := (hm Att.driftVar).mul h
  rcases i with i | i <;> rcases j with j | j
  · refine (q11.mul (isReal_eye i j)).of_eq ?_
    simp only [Att.processNoise, Matrix.fromBlocks_apply₁₁, Matrix.smul_apply, smul_eq_mul]
    ring
  · refine (q12.mul (isReal_eye i j)).of_eq ?_
    simp only [Att.processNoise, Matrix.fromBlocks_apply₁₂, Matrix.smul_apply, smul_eq_mul]
    ring
  · refine (q12.mul (isReal_eye i j)).of_eq ?_
    simp only [Att.processNoise, Matrix.fromBlocks_apply₂₁, Matrix.smul_apply, smul_eq_mul]
    ring
  · refine (q22.mul (isReal_eye i j)).of_eq ?_
    simp only [Att.processNoise, Matrix.fromBlocks_apply₂₂, Matrix.smul_apply, smul_eq_mul]

theorem isReal_g (i j : I6) : IsReal (gF i j) (Att.G i j) := by
  rcases i with i | i <;> rcases j with j | j
  · by_cases h : i = j
    · simp [gF, Att.G, h, isReal_fin]
    · simp [gF, Att.G, h, isReal_fin]
  · simp [gF, Att.G, isReal_fin]
  · simp [gF, Att.G, isReal_fin]
  · by_cases h : i = j
    · simp [gF, Att.G, h, isReal_fin]
    · simp [gF, Att.G, h, isReal_fin]

theorem isReal_phi {w : Fin 3 → F} {a : V3} {dt : F} {t : ℝ} (hw : ∀ i, IsReal (w i) (a i)) (h : IsReal dt t) (i j : I6) :
    IsReal (phiF (fun z => z) w dt i j) (Att.phi a t i j) := by
  have hn := isReal_norm hw
  have hX := isReal_cross hw
  have hX2 := isReal_mul3 hX hX
  have hs := (hn.mul h).sin
  have hc1 := (isReal_ofReal 1).sub (hn.mul h).cos
  have hn2 := hn.mul hn
  have hn3 := (hn.mul hn).mul hn
  by_cases h0 : npNorm a = 0
  · have e0 : F.eq (normF (fun z => z) w) (.fin false 0) = true := (hn.eq isReal_zero).mpr h0
    have e2 : F.eq (F.mul (fun z => z) (normF (fun z => z) w) (normF (fun z => z) w)) (.fin false 0) = true :=
      (hn2.eq isReal_zero).mpr (by rw [h0, mul_zero])
    rcases i with i | i <;> rcases j with j | j
    · simpa [phiF, Att.phi, Att.phi11, h0, e0, e2] using isReal_eye i j
    · refine IsReal.of_eq (a := -(1 : M3) i j * t) ?_ ?_
      · simpa [phiF, e0, e2] using (isReal_eye i j).neg.mul h
      · simp [Att.phi, Att.phi12, h0]
        ring
    · exact isReal_zero
    · exact isReal_eye i j
  · have e2 : F.eq (F.mul (fun z => z) (normF (fun z => z) w) (normF (fun z => z) w)) (.fin false 0) = false := by
      rw [Bool.eq_false_iff]
      exact fun hh => h0 (mul_self_eq_zero.mp ((hn2.eq isReal_zero).mp hh))
    have hne : npNorm a * npNorm a ≠ 0 := mul_ne_zero h0 h0
    have hne3 : npNorm a * npNorm a * npNorm a ≠ 0 := mul_ne_zero hne h0
    have e3 : F.eq (F.mul (fun z => z) (F.mul (fun z => z) (normF (fun z => z) w) (normF (fun z => z) w))
        (normF (fun z => z) w)) (.fin false 0) = false := by
      rw [Bool.eq_false_iff]
      exact fun hh => hne3 ((hn3.eq isReal_zero).mp hh)
    rcases i with i | i <;> rcases j with j | j
    · have := ((isReal_eye i j).sub ((hs.div hn h0).mul (hX i j))).add ((hc1.div hn2 hne).mul (hX2 i j))
      refine IsReal.of_eq (by simpa only [phiF, e2, Bool.not_false, if_true] using this) ?_
      simp [Att.phi, Att.phi11, h0, sq]
    · have := (((isReal_eye i j).neg.mul h).add ((hc1.div hn2 hne).mul (hX i j))).sub
        ((((hn.mul h).sub hs).div hn3 hne3).mul (hX2 i j))
      refine IsReal.of_eq (by simpa only [phiF, e2, e3, Bool.not_false, if_true] using this) ?_
      simp [Att.phi, Att.phi12, h0]
      ring
    · exact isReal_zero
    · exact isReal_eye i j

theorem isReal_omega {w : Fin 3 → F} {a : V3} {dt : F} {t : ℝ} (hw : ∀ i, IsReal (w i) (a i)) (h : IsReal dt t) (i j : Fin 4) :
    IsReal (omegaF (fun z => z) w dt i j) (Att.omega a t i j) := by
  have hn := isReal_norm hw
  have hp : ∀ i, IsReal (psiF (fun z => z) w dt i) (Att.psi a t i) := by
    intro i
    by_cases h0 : npNorm a = 0
    · have e0 : F.eq (normF (fun z => z) w) (.fin false 0) = true := (hn.eq isReal_zero).mpr h0
      simpa [psiF, e0, Att.psi, h0] using isReal_zero
    · have e0 : F.eq (normF (fun z => z) w) (.fin false 0) = false := by
        rw [Bool.eq_false_iff]
        exact fun hh => h0 ((hn.eq isReal_zero).mp hh)
      have := ((((hn.mul h).mul (isReal_ofReal 0.5)).sin).div hn h0).mul (hw i)
      refine IsReal.of_eq (by simpa only [psiF, e0, Bool.not_false, if_true] using this) ?_
      simp [Att.psi, h0]
  have hc := ((hn.mul h).mul (isReal_ofReal 0.5)).cos
  have hB : ∀ i j, IsReal (F.sub (fun z => z) (eyeF i j) (crossF (psiF (fun z => z) w dt) i j))
      ((1 - Vec.cross (Att.psi a t) : M3) i j) := fun i j => (isReal_eye i j).sub (isReal_cross hp i j)
  unfold omegaF Att.omega
  generalize psiF (fun z => z) w dt = p at hp hB ⊢
  generalize Att.psi a t = u at hp hB ⊢
  fin_cases i <;> fin_cases j
  · exact hc
  · exact (hp 0).neg
  · exact (hp 1).neg
  · exact (hp 2).neg
  · exact hp 0
  · exact hB 0 0
  · exact hB 0 1
  · exact hB 0 2
  · exact hp 1
  · exact hB 1 0
  · exact hB 1 1
  · exact hB 1 2
  · exact hp 2
  · exact hB 2 0
  · exact hB 2 1
  · exact hB 2 2

/-- **C195** (the two models). For readings that are numbers and without rounding, what the floats compute is what
`Att.Kalman.measurement` and `Att.Kalman.propagate` compute. -/
theorem C195_refines_partial (inv : (Fin 3 → Fin 3 → F) → Py (Fin 3 → Fin 3 → F)) (hinv : Spec.RightInverse inv)
    (f : FilterF) (k : Att.Kalman) (h : SameFilter f k) :
    (∀ (qRef : Fin 4 → F) (r : V4) k', (∀ i, IsReal (qRef i) (r i)) → k.measurement r = .ok k' →
      ∃ g, f.measurement (fun z => z) inv qRef = (.ok (), g) ∧ SameFilter g k') ∧
    ∀ (w : Fin 3 → F) (a : V3) (dt : F) (t : ℝ), (∀ i, IsReal (w i) (a i)) → IsReal dt t →
      SameFilter (f.propagate (fun z => z) w dt) (k.propagate a t) := by
  refine ⟨fun qRef r k' hq hk => ?_, fun w a dt t hw ht => ?_⟩
  · obtain ⟨g, hg, _, hs⟩ := measurement_cov hinv h.P hk qRef
    exact ⟨g, hg, hs h hq⟩
  · have hw' : ∀ i, IsReal (F.sub (fun z => z) (w i) (f.b i)) ((a - k.b) i) := fun i => (hw i).sub (h.b i)
    have hphi := isReal_phi hw' ht
    refine ⟨h.dq, h.db, fun i j => ?_, fun i => ?_, h.b⟩
    · refine (isReal_mul6 hphi (isReal_mul6 h.P fun i j => ?_) i j).add
        (isReal_mul6 isReal_g (isReal_mul6 (isReal_noise ht) fun i j => ?_) i j)
      · exact hphi j i
      · exact isReal_g j i
    · exact isReal_dotN (isReal_omega hw' ht i) h.q

/-- An inverse that is right for matrices of numbers and returns nan for others. -/
noncomputable def rightInverse (m : Fin 3 → Fin 3 → F) : Py (Fin 3 → Fin 3 → F) := by
  classical
  exact if h : ∃ M : M3, ∀ i j, IsReal (m i j) (M i j) then
    match npInv h.choose with
    | .error e => .error e
    | .ok N => .ok fun i j => F.ofReal (fun z => z) (N i j)
  else .ok fun _ _ => .nan

theorem rightInverse_right : Spec.RightInverse rightInverse := by
  intro m M hM
  have h : ∃ M : M3, ∀ i j, IsReal (m i j) (M i j) := ⟨M, hM⟩
  have hc : h.choose = M := by
    ext i j
    have h1 := h.choose_spec i j
    have h2 := hM i j
    rw [IsReal] at h1 h2
    rw [h1] at h2
    exact Option.some.inj h2
  unfold rightInverse
  rw [dif_pos h, hc]
  rcases npInv M with e | N
  · rfl
  · exact ⟨_, rfl, fun i j => isReal_ofReal _⟩

/-- **C195** in full: after a bad reading a measurement that is a number makes the estimate a number again. -/
def C195_claim : Prop :=
  ∀ (rnd : ℝ≥0 → ℝ≥0) (inv : (Fin 3 → Fin 3 → F) → Py (Fin 3 → Fin 3 → F)), rnd 0 = 0 → Spec.RightInverse inv →
    ∀ (f g h : FilterF) (bad good : Fin 4 → F), (∀ i, IsNumberFloat (f.q i)) → (∃ i, bad i = .nan) →
      (∀ i, IsNumberFloat (good i)) → f.measurement rnd inv bad = (.ok (), g) →
        g.measurement rnd inv good = (.ok (), h) → ∀ i, IsNumberFloat (h.q i)

/-- The filter as it is made, on floats. -/
noncomputable def freshFilter (q : V4) : FilterF where
  dq := fun _ => .fin false 0
  db := fun _ => .fin false 0
  P := fun i j => F.ofReal (fun z => z) ((Att.init q).P i j)
  q := fun i => F.ofReal (fun z => z) (q i)
  b := fun _ => .fin false 0

theorem freshFilter_same (q : V4) : SameFilter (freshFilter q) (Att.init q) :=
  ⟨fun _ => isReal_zero, fun _ => isReal_zero, fun _ _ => isReal_ofReal _, fun _ => isReal_ofReal _, fun _ => isReal_zero⟩

theorem C195_fails : ¬ C195_claim := by
  intro hc
  have hq : ∀ i, IsNumberFloat ((freshFilter ![1, 0, 0, 0]).q i) := by
    intro i
    simp [freshFilter, F.ofReal, IsNumberFloat]
  obtain ⟨k, hk, hP, -⟩ := C81_measurement (Att.init ![1, 0, 0, 0]) (init_strict _) 0
  obtain ⟨g, hg, hgP, -⟩ := measurement_cov rightInverse_right (freshFilter_same ![1, 0, 0, 0]).P hk fun _ => .nan
  obtain ⟨k', hk', -⟩ := C81_measurement k hP 0
  obtain ⟨h, hh, -⟩ := measurement_cov rightInverse_right hgP hk' fun _ => .fin false 0
  have h1 := hc (fun z => z) rightInverse rfl rightInverse_right _ g h _ _ hq ⟨0, rfl⟩ (fun _ => by simp [IsNumberFloat]) hg hh 0
  have h2 := (measurement_nan _ rightInverse _ g _ (.inl ⟨0, rfl⟩) hg).1
  have h3 := (measurement_nan _ rightInverse g h _ (.inr ⟨0, h2 0⟩) hh).1
  simp [h3 0, IsNumberFloat] at h1

/-- The filter as it is made meets the hypotheses of `C195_refines_partial` and `C195_zeros_partial`. -/
example : SameFilter (freshFilter ![1, 0, 0, 0]) (Att.init ![1, 0, 0, 0]) ∧ Spec.RightInverse rightInverse ∧
    npNorm (Att.init ![1, 0, 0, 0]).q = 1 ∧ (Att.init ![1, 0, 0, 0]).dq = 0 ∧
    (Att.R + (Att.init ![1, 0, 0, 0]).P.toBlocks₁₁).det ≠ 0 := by
  refine ⟨freshFilter_same _, rightInverse_right, ?_, rfl, ?_⟩
  · simp [npNorm, Att.init, Fin.sum_univ_four]
  · obtain ⟨k, hk, -⟩ := C81_measurement (Att.init ![1, 0, 0, 0]) (init_strict _) 0
    intro h0
    simp [Att.Kalman.measurement, Att.Kalman.gain, npInv, h0] at hk

end Adcs
