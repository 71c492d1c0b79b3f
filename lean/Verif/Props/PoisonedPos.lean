import Verif.Model.IeeePos
import Verif.Props.PosFilter
import Verif.Props.Poisoned

set_option autoImplicit false

/-! # C215: a bad fix in the position filter -/

namespace Adcs

open Adcs.Ieee Obs
open scoped NNReal Matrix

/-- No component is a number: each is nan or an infinity. -/
def Spec.NoNumber {α : Type} (x : α → F) : Prop := ∀ i, ¬ IsNumberFloat (x i)

theorem notNumber_neg {x : F} (h : ¬ IsNumberFloat x) : ¬ IsNumberFloat x.neg := by
  cases x <;> simp_all [IsNumberFloat, F.neg]

theorem notNumber_mul (rnd : ℝ≥0 → ℝ≥0) {x y : F} (h : ¬ IsNumberFloat x ∨ ¬ IsNumberFloat y) :
    ¬ IsNumberFloat (F.mul rnd x y) := by
  cases x <;> cases y <;> simp_all [IsNumberFloat, F.mul] <;> split_ifs <;> simp

theorem notNumber_add (rnd : ℝ≥0 → ℝ≥0) {x y : F} (h : ¬ IsNumberFloat x ∨ ¬ IsNumberFloat y) :
    ¬ IsNumberFloat (F.add rnd x y) := by
  cases x <;> cases y <;> simp_all [IsNumberFloat, F.add]
  split_ifs <;> simp

theorem notNumber_sub (rnd : ℝ≥0 → ℝ≥0) {x y : F} (h : ¬ IsNumberFloat x ∨ ¬ IsNumberFloat y) :
    ¬ IsNumberFloat (F.sub rnd x y) := notNumber_add rnd (h.imp id notNumber_neg)

theorem notNumber_foldl (rnd : ℝ≥0 → ℝ≥0) (l : List F) (a : F) (h : ¬ IsNumberFloat a ∨ ∃ x ∈ l, ¬ IsNumberFloat x) :
    ¬ IsNumberFloat (l.foldl (F.add rnd) a) := by
  induction l generalizing a with
  | nil => simpa using h
  | cons b l ih =>
    rw [List.foldl_cons]
    refine ih _ ?_
    rcases h with h | ⟨x, hx, h⟩
    · exact .inl (notNumber_add rnd (.inl h))
    · rcases List.mem_cons.mp hx with rfl | hx
      · exact .inl (notNumber_add rnd (.inr h))
      · exact .inr ⟨x, hx, h⟩

theorem notNumber_dot6 (rnd : ℝ≥0 → ℝ≥0) (a b : I6 → F) (k : I6) (h : ¬ IsNumberFloat (b k)) :
    ¬ IsNumberFloat (dot6 rnd a b) := by
  refine notNumber_foldl rnd _ _ (.inr ⟨F.mul rnd (a k) (b k), ?_, notNumber_mul rnd (.inr h)⟩)
  rw [List.mem_map]
  refine ⟨k, ?_, rfl⟩
  rcases k with k | k <;> fin_cases k <;> simp

/-- Once a component of the fix or of the estimate is not a number, no component of the new estimate is, unless the
update raises before it changes anything. -/
theorem posUpdate_notNumber (rnd : ℝ≥0 → ℝ≥0) (inv : (I6 → I6 → F) → Py (I6 → I6 → F)) (upd : (I6 → F) → Py Unit)
    (f : PosF) (xRef vRef : Fin 3 → F)
    (h : (∃ i, ¬ IsNumberFloat (xRef i)) ∨ (∃ i, ¬ IsNumberFloat (vRef i)) ∨ ∃ i, ¬ IsNumberFloat (f.x i)) :
    (∃ e, inv (fun i j => F.add rnd (f.P i j) (rF rnd i j)) = .error e ∧
      f.update rnd inv upd xRef vRef = (.error e, f)) ∨ Spec.NoNumber (f.update rnd inv upd xRef vRef).2.x := by
  unfold PosF.update
  split
  · exact .inl ⟨_, by assumption, rfl⟩
  · right
    have hd : ∃ j, ¬ IsNumberFloat (F.sub rnd ((Sum.elim xRef vRef : I6 → F) j) (f.x j)) := by
      rcases h with ⟨i, h⟩ | ⟨i, h⟩ | ⟨i, h⟩
      · exact ⟨.inl i, notNumber_sub rnd (.inl h)⟩
      · exact ⟨.inr i, notNumber_sub rnd (.inl h)⟩
      · exact ⟨i, notNumber_sub rnd (.inr h)⟩
    obtain ⟨j, hj⟩ := hd
    exact fun i => notNumber_add rnd (.inr (notNumber_dot6 rnd _ _ j hj))

theorem posPropagate_notNumber (rnd : ℝ≥0 → ℝ≥0) (f : PosF) (dt : F) (i : I6) (h : ¬ IsNumberFloat (f.x i)) :
    Spec.NoNumber (f.propagate rnd dt).x := fun _ => notNumber_dot6 rnd _ _ i h

/-- A call of a position filter. -/
inductive Spec.PosCall
  | update (xRef vRef : Fin 3 → F)
  | propagate (dt : F)

/-- The filter after a call, whether it raises or not. -/
noncomputable def Spec.PosCall.after (rnd : ℝ≥0 → ℝ≥0) (inv : (I6 → I6 → F) → Py (I6 → I6 → F))
    (upd : (I6 → F) → Py Unit) (f : PosF) : Spec.PosCall → PosF
  | .update x v => (f.update rnd inv upd x v).2
  | .propagate dt => f.propagate rnd dt

/-- **C215** (what happens instead). One fix with nan or an infinity in one component makes all six components of the
estimate nan or infinite, unless the inverse raises and nothing changes. -/
theorem C215_one_fix_partial (rnd : ℝ≥0 → ℝ≥0) (inv : (I6 → I6 → F) → Py (I6 → I6 → F)) (upd : (I6 → F) → Py Unit)
    (f : PosF) (xRef vRef : Fin 3 → F) (h : (∃ i, ¬ IsNumberFloat (xRef i)) ∨ ∃ i, ¬ IsNumberFloat (vRef i)) :
    (∃ e, inv (fun i j => F.add rnd (f.P i j) (rF rnd i j)) = .error e ∧
      f.update rnd inv upd xRef vRef = (.error e, f)) ∨ Spec.NoNumber (f.update rnd inv upd xRef vRef).2.x :=
  posUpdate_notNumber rnd inv upd f xRef vRef (h.imp id .inl)

/-- **C215** (what happens instead). Such an estimate never becomes a number again, whatever fixes and steps
follow. -/
theorem C215_forever_partial (rnd : ℝ≥0 → ℝ≥0) (inv : (I6 → I6 → F) → Py (I6 → I6 → F)) (upd : (I6 → F) → Py Unit)
    (f : PosF) (h : Spec.NoNumber f.x) (calls : List Spec.PosCall) :
    Spec.NoNumber (calls.foldl (Spec.PosCall.after rnd inv upd) f).x := by
  induction calls generalizing f with
  | nil => exact h
  | cons c l ih =>
    rw [List.foldl_cons]
    refine ih _ ?_
    cases c with
    | update x v =>
      rcases posUpdate_notNumber rnd inv upd f x v (.inr (.inr ⟨.inl 0, h _⟩)) with ⟨e, -, he⟩ | hn
      · simpa only [Spec.PosCall.after, he] using h
      · exact hn
    | propagate dt => exact posPropagate_notNumber rnd f dt (.inl 0) (h _)

/-! ### The two models of the filter agree on numbers -/

/-- The attributes of the two models stand for the same numbers. -/
structure SamePos {n : ℕ} (f : PosF) (k : Pos.Kalman n) : Prop where
  P : ∀ i j, IsReal (f.P i j) (k.P i j)
  x : ∀ i, IsReal (f.x i) (k.x i)
  mu : IsReal f.mu k.mu

/-- An inverse that is right for matrices of numbers: the inverse, or the exception of a singular matrix. -/
def Spec.RightInverse6 (inv : (I6 → I6 → F) → Py (I6 → I6 → F)) : Prop :=
  ∀ (m : I6 → I6 → F) (M : M6), (∀ i j, IsReal (m i j) (M i j)) →
    match npInv M with
    | .error e => inv m = .error e
    | .ok N => ∃ n, inv m = .ok n ∧ ∀ i j, IsReal (n i j) (N i j)

/-- What an update does to the covariance does not depend on the fix. -/
theorem posUpdate_same {n : ℕ} {inv : (I6 → I6 → F) → Py (I6 → I6 → F)} (hinv : Spec.RightInverse6 inv)
    (upd : (I6 → F) → Py Unit) {f : PosF} {k : Pos.Kalman n} (hP : ∀ i j, IsReal (f.P i j) (k.P i j)) (x v : V3)
    (xRef vRef : Fin 3 → F) :
    (∀ i j, IsReal ((f.update (fun z => z) inv upd xRef vRef).2.P i j) ((k.update x v).2.P i j)) ∧
      ((k.update x v).1 = .error .linAlg ∨
        (∃ m, inv (fun i j => F.add (fun z => z) (f.P i j) (rF (fun z => z) i j)) = .ok m) ∧
          (f.update (fun z => z) inv upd xRef vRef).1 = upd (f.update (fun z => z) inv upd xRef vRef).2.x) ∧
      (SamePos f k → (∀ i, IsReal (xRef i) (x i)) → (∀ i, IsReal (vRef i) (v i)) →
        SamePos (f.update (fun z => z) inv upd xRef vRef).2 (k.update x v).2) := by
  have hR : ∀ i j, IsReal (F.add (fun z => z) (f.P i j) (rF (fun z => z) i j)) ((k.P + Pos.R) i j) :=
    fun i j => (hP i j).add (isReal_ofReal _)
  have hi := hinv _ _ hR
  rcases hN : npInv (k.P + Pos.R) with e | N
  · rw [hN] at hi
    have he : e = .linAlg := by
      unfold npInv at hN
      split_ifs at hN
      simpa using hN.symm
    subst he
    refine ⟨?_, ?_, ?_⟩
    · simpa only [PosF.update, Pos.Kalman.update, hN, hi] using hP
    · left
      simp only [Pos.Kalman.update, hN]
    · intro h _ _
      simpa only [PosF.update, Pos.Kalman.update, hN, hi] using h
  · rw [hN] at hi
    obtain ⟨m, hm, hmr⟩ := hi
    have hK := isReal_mul6 hP hmr
    have hP' := isReal_mul6 (A := fun i j => F.sub (fun z => z) (eyeF i j) (mul6 (fun z => z) f.P m i j))
      (M := 1 - k.P * N) (fun i j => (isReal_eye i j).sub (hK i j)) hP
    have e1 : (k.update x v).2.P = (1 - k.P * N) * k.P := by
      simp only [Pos.Kalman.update, hN]
      split <;> rfl
    have e2 : (k.update x v).2.x = k.x + (k.P * N) *ᵥ (Sum.elim x v - k.x) := by
      simp only [Pos.Kalman.update, hN]
      split <;> rfl
    have e3 : (k.update x v).2.mu = k.mu := by
      simp only [Pos.Kalman.update, hN]
      split <;> rfl
    have hPn : ∀ i j, IsReal ((f.update (fun z => z) inv upd xRef vRef).2.P i j) ((k.update x v).2.P i j) := by
      rw [e1]
      simpa only [PosF.update, hm] using hP'
    refine ⟨hPn, ?_, fun h hx hv => ⟨hPn, ?_, ?_⟩⟩
    · exact .inr ⟨⟨m, hm⟩, by simp only [PosF.update, hm]⟩
    · rw [e2]
      simp only [PosF.update, hm]
      intro i
      refine (h.x i).add (isReal_dot6 (hK i) fun j => ?_)
      rcases j with j | j
      · exact (hx j).sub (h.x _)
      · exact (hv j).sub (h.x _)
    · rw [e3]
      simpa only [PosF.update, hm] using h.mu

theorem isReal_fContinuous {n : ℕ} {f : PosF} {k : Pos.Kalman n} (h : SamePos f k)
    (h0 : npNorm (k.x ∘ Sum.inl : V3) ≠ 0) :
    ∃ M, k.fContinuous = .ok M ∧ ∀ i j, IsReal (f.fContinuous (fun z => z) i j) (M i j) := by
  have hr := isReal_norm (v := fun i => f.x (.inl i)) (a := (k.x ∘ Sum.inl : V3)) fun i => h.x (.inl i)
  obtain ⟨r, hre⟩ : ∃ r, r = npNorm (k.x ∘ Sum.inl : V3) := ⟨_, rfl⟩
  rw [← hre] at hr h0
  have p3 : r ^ 3 ≠ 0 := pow_ne_zero 3 h0
  have p5 : r ^ 5 ≠ 0 := pow_ne_zero 5 h0
  have h3 := ((isReal_ofReal (-1)).div (((hr.mul hr).mul hr).of_eq (b := r ^ 3) (by ring)) p3)
  have h5 := ((isReal_ofReal 3).div (((((hr.mul hr).mul hr).mul hr).mul hr).of_eq (b := r ^ 5) (by ring)) p5)
  have hm := h.mu.neg
  have hx := h.x (.inl 0)
  have hy := h.x (.inl 1)
  have hz := h.x (.inl 2)
  refine ⟨_, by simp only [Pos.Kalman.fContinuous, Pos.gradA, ← hre, npDiv, if_neg p3, if_neg p5]; rfl, ?_⟩
  intro i j
  rcases i with i | i <;> rcases j with j | j
  · exact isReal_zero
  · exact isReal_eye i j
  · have d := fun {u : F} {a : ℝ} (hu : IsReal u a) => hm.mul (h3.add (h5.mul (hu.mul hu)))
    fin_cases i <;> fin_cases j
    · exact (d hx).of_eq (by simp [sq])
    · exact (hm.mul ((h5.mul hx).mul hy)).of_eq (by simp)
    · exact (hm.mul ((h5.mul hx).mul hz)).of_eq (by simp)
    · exact (hm.mul ((h5.mul hx).mul hy)).of_eq (by simp)
    · exact (d hy).of_eq (by simp [sq])
    · exact (((hm.mul h5).mul hz).mul hy).of_eq (by simp)
    · exact (hm.mul ((h5.mul hx).mul hz)).of_eq (by simp)
    · exact (((hm.mul h5).mul hz).mul hy).of_eq (by simp)
    · exact (d hz).of_eq (by simp [sq])
  · exact ((isReal_eye i j).mul (isReal_ofReal _)).of_eq (by simp [mul_comm])

theorem isReal_aDiscrete {dt : F} {t : ℝ} (h : IsReal dt t) (i j : I6) :
    IsReal (aDiscreteF (fun z => z) dt i j) (Pos.aDiscrete t i j) := by
  have hm := isReal_ofReal
  have t2 := h.mul h
  have a11 := (hm 1).sub (((hm 0.5).mul (hm Pos.a)).mul t2)
  have a12 := (h.sub (((hm 0.5).mul (hm Pos.b)).mul t2)).sub ((((hm 0.1666).mul (hm Pos.a)).mul h).mul t2)
  have a21 := (hm Pos.a).neg.mul h
  have a22 := a11.sub ((hm Pos.b).mul h)
  rcases i with i | i <;> rcases j with j | j
  · refine (a11.mul (isReal_eye i j)).of_eq ?_
    simp only [Pos.aDiscrete, Matrix.fromBlocks_apply₁₁, Matrix.smul_apply, smul_eq_mul]
    ring
  · refine (a12.mul (isReal_eye i j)).of_eq ?_
    simp only [Pos.aDiscrete, Matrix.fromBlocks_apply₁₂, Matrix.smul_apply, smul_eq_mul]
    ring
  · refine (a21.mul (isReal_eye i j)).of_eq ?_
    simp only [Pos.aDiscrete, Matrix.fromBlocks_apply₂₁, Matrix.smul_apply, smul_eq_mul]
  · refine (a22.mul (isReal_eye i j)).of_eq ?_
    simp only [Pos.aDiscrete, Matrix.fromBlocks_apply₂₂, Matrix.smul_apply, smul_eq_mul]
    ring

/-- **C215** (the two models). For fixes that are numbers and without rounding, what the floats compute is what
`Pos.Kalman.update` and `Pos.Kalman.propagate` compute, the latter for a position that is not the origin. -/
theorem C215_refines_partial {n : ℕ} (inv : (I6 → I6 → F) → Py (I6 → I6 → F)) (hinv : Spec.RightInverse6 inv)
    (upd : (I6 → F) → Py Unit) (f : PosF) (k : Pos.Kalman n) (h : SamePos f k) :
    (∀ (xRef vRef : Fin 3 → F) (x v : V3), (∀ i, IsReal (xRef i) (x i)) → (∀ i, IsReal (vRef i) (v i)) →
      SamePos (f.update (fun z => z) inv upd xRef vRef).2 (k.update x v).2) ∧
    ∀ (dt : F) (t : ℝ), IsReal dt t → npNorm (k.output.1) ≠ 0 →
      (k.propagate t).1 = .ok () ∧ SamePos (f.propagate (fun z => z) dt) (k.propagate t).2 := by
  refine ⟨fun xRef vRef x v hx hv => (posUpdate_same hinv upd h.P x v xRef vRef).2.2 h hx hv, fun dt t ht h0 => ?_⟩
  obtain ⟨M, hM, hF⟩ := isReal_fContinuous h h0
  have hF2 := isReal_mul6 hF hF
  have hd : ∀ i j, IsReal (f.fDiscrete (fun z => z) dt i j) ((1 + t • M + (0.5 * t ^ 2) • (M * M) : M6) i j) := by
    intro i j
    refine (((isReal_eye i j).add ((hF i j).mul ht)).add
      (((isReal_ofReal 0.5).mul (hF2 i j)).mul (ht.mul ht))).of_eq ?_
    simp only [Matrix.add_apply, Matrix.smul_apply, smul_eq_mul]
    ring
  simp only [Pos.Kalman.propagate, Pos.Kalman.stateTransition, hM]
  refine ⟨trivial, fun i j => ?_, fun i => ?_, h.mu⟩
  · refine (isReal_mul6 hd (isReal_mul6 h.P fun i j => ?_) i j).add (isReal_ofReal _)
    exact hd j i
  · exact isReal_dot6 (isReal_aDiscrete ht i) h.x

/-- An inverse that is right for matrices of numbers and returns nan for others. -/
noncomputable def rightInverse6 (m : I6 → I6 → F) : Py (I6 → I6 → F) := by
  classical
  exact if h : ∃ M : M6, ∀ i j, IsReal (m i j) (M i j) then
    match npInv h.choose with
    | .error e => .error e
    | .ok N => .ok fun i j => F.ofReal (fun z => z) (N i j)
  else .ok fun _ _ => .nan

theorem rightInverse6_right : Spec.RightInverse6 rightInverse6 := by
  intro m M hM
  have h : ∃ M : M6, ∀ i j, IsReal (m i j) (M i j) := ⟨M, hM⟩
  have hc : h.choose = M := by
    ext i j
    have h1 := h.choose_spec i j
    have h2 := hM i j
    rw [IsReal] at h1 h2
    rw [h1] at h2
    exact Option.some.inj h2
  unfold rightInverse6
  rw [dif_pos h, hc]
  rcases npInv M with e | N
  · rfl
  · exact ⟨_, rfl, fun i j => isReal_ofReal _⟩

/-- **C215** in full: after a bad fix, a fix that is made of numbers makes the estimate a number again, unless there
was no inverse. `upd` is what updating the state object returns or raises. -/
def C215_claim (upd : (I6 → F) → Py Unit) : Prop :=
  ∀ (rnd : ℝ≥0 → ℝ≥0) (inv : (I6 → I6 → F) → Py (I6 → I6 → F)), rnd 0 = 0 → Spec.RightInverse6 inv →
    ∀ (f : PosF) (badX badV goodX goodV : Fin 3 → F), (∀ i, IsNumberFloat (f.x i)) →
      (∃ i, ¬ IsNumberFloat (badX i)) → (∀ i, IsNumberFloat (goodX i)) → (∀ i, IsNumberFloat (goodV i)) →
      (f.update rnd inv upd badX badV).1 ≠ .error .linAlg →
      ((f.update rnd inv upd badX badV).2.update rnd inv upd goodX goodV).1 ≠ .error .linAlg →
      ∀ i, IsNumberFloat (((f.update rnd inv upd badX badV).2.update rnd inv upd goodX goodV).2.x i)

/-- The filter as it is made, on floats. -/
noncomputable def freshPos {n : ℕ} (mu : ℝ) (s : Dyn.SatState n) : PosF where
  P := fun i j => F.ofReal (fun z => z) ((Pos.init mu s).P i j)
  x := fun i => F.ofReal (fun z => z) ((Pos.init mu s).x i)
  mu := F.ofReal (fun z => z) mu

theorem freshPos_same {n : ℕ} (mu : ℝ) (s : Dyn.SatState n) : SamePos (freshPos mu s) (Pos.init mu s) :=
  ⟨fun _ _ => isReal_ofReal _, fun _ => isReal_ofReal _, isReal_ofReal _⟩

theorem C215_fails (upd : (I6 → F) → Py Unit) (hu : ∀ x, upd x ≠ .error .linAlg) : ¬ C215_claim upd := by
  intro hc
  obtain ⟨s, -⟩ := exState 4
  have hnum : ∀ i, IsNumberFloat ((freshPos 3.986e14 s).x i) := fun i => ⟨_, _, rfl⟩
  have c0 : Spec.Covariance (Pos.init 3.986e14 s).P := (C85_history 3.986e14 s []).1
  obtain ⟨hP, h1, -⟩ := posUpdate_same rightInverse6_right upd (freshPos_same 3.986e14 s).P 0 0
    (fun _ => .inf false) fun _ => .fin false 0
  obtain ⟨c1, -, -, l1⟩ := C85_update _ c0 0 0
  obtain ⟨⟨m, hm⟩, e1⟩ := h1.resolve_left l1
  obtain ⟨-, h2, -⟩ := posUpdate_same rightInverse6_right upd hP 0 0 (fun _ => .fin false 0) fun _ => .fin false 0
  obtain ⟨-, -, -, l2⟩ := C85_update _ c1 0 0
  obtain ⟨-, e2⟩ := h2.resolve_left l2
  have hbad : ¬ IsNumberFloat (.inf false) := by simp [IsNumberFloat]
  have key := hc (fun z => z) rightInverse6 rfl rightInverse6_right (freshPos 3.986e14 s) (fun _ => .inf false)
    (fun _ => .fin false 0) (fun _ => .fin false 0) (fun _ => .fin false 0) hnum ⟨0, hbad⟩ (fun _ => ⟨_, _, rfl⟩)
    (fun _ => ⟨_, _, rfl⟩) (e1 ▸ hu _) (e2 ▸ hu _) (.inl 0)
  have n1 : Spec.NoNumber ((freshPos 3.986e14 s).update (fun z => z) rightInverse6 upd (fun _ => .inf false)
      fun _ => .fin false 0).2.x := by
    rcases C215_one_fix_partial (fun z => z) rightInverse6 upd (freshPos 3.986e14 s) (fun _ => .inf false)
      (fun _ => .fin false 0) (.inl ⟨0, hbad⟩) with ⟨e, he, -⟩ | h
    · rw [hm] at he
      simp at he
    · exact h
  exact C215_forever_partial (fun z => z) rightInverse6 upd _ n1
    [.update (fun _ => .fin false 0) fun _ => .fin false 0] (.inl 0) key

/-- A filter as it is made meets the hypotheses of `C215_refines_partial`, and a fix of nan those of
`C215_one_fix_partial`. -/
example : ∃ s : Dyn.SatState 4, SamePos (freshPos 3.986e14 s) (Pos.init 3.986e14 s) ∧ Spec.RightInverse6 rightInverse6 ∧
    npNorm (Pos.init 3.986e14 s).output.1 ≠ 0 ∧ ∃ i : Fin 3, ¬ IsNumberFloat ((![.nan, .fin false 0, .fin false 0] : Fin 3 → F) i) := by
  obtain ⟨s, hs, -⟩ := exState 4
  obtain ⟨c, lat, long, h', -, -, he⟩ := Dyn.mkState_ok.1 hs
  have hp : s.attrs.position = ![6800000, 0, 0] := by rw [he]; rfl
  refine ⟨s, freshPos_same _ _, rightInverse6_right, ?_, 0, by simp [IsNumberFloat]⟩
  have : (Pos.init 3.986e14 s).output.1 = ![6800000, 0, 0] := by
    rw [← hp]
    rfl
  rw [this, npNorm]
  simp [Fin.sum_univ_three]

end Adcs
