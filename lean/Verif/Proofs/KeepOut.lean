import Verif.Props.Nudge
import Verif.Props.Bbq
import Verif.Props.Spin
import Mathlib.Analysis.ODE.Gronwall

set_option autoImplicit false

/-! # The avoidance law near the edge of the forbidden region -/

namespace Adcs

open Str Ctl Sens JDay Quat Vec Dyn
open scoped Matrix Topology

/-- The instruments have a region of attention, and a gain, for every object they care about. -/
def Guarded (i : Instrument) : Prop := ∀ k : Fin i.nBounds, k.1 ∈ i.objIds → 0 < i.sigma k ∧ 0 < i.gains k

/-- One term of the barrier, whether or not the object is near. -/
noncomputable def barTerm (i : Instrument) (j : ℕ) (o : V3) : ℝ :=
  if h : j < i.nBounds then if j ∈ i.objIds then i.gains ⟨j, h⟩ * Real.log (margin i ⟨j, h⟩ o) else 0 else 0

/-- Its rate of change when the body turns at the rate `w`. -/
noncomputable def rateTerm (i : Instrument) (j : ℕ) (o w : V3) : ℝ :=
  if h : j < i.nBounds then if j ∈ i.objIds then
    i.gains ⟨j, h⟩ * (0.5 * i.sign ⟨j, h⟩ * (npCross i.boresight o ⬝ᵥ w) / margin i ⟨j, h⟩ o) else 0 else 0

noncomputable def barFrom (i : Instrument) : ℕ → List V3 → ℝ
  | _, [] => 0
  | j, o :: l => barTerm i j o + barFrom i (j + 1) l

noncomputable def rateFrom (i : Instrument) : ℕ → List V3 → V3 → ℝ
  | _, [], _ => 0
  | j, o :: l, w => rateTerm i j o w + rateFrom i (j + 1) l w

noncomputable def bar (objs : List V3) : List Instrument → ℝ
  | [] => 0
  | i :: l => barFrom i 0 objs + bar objs l

noncomputable def barRate (objs : List V3) : List Instrument → V3 → ℝ
  | [], _ => 0
  | i :: l, w => rateFrom i 0 objs w + barRate objs l w

/-- The loop has added the barrier `bt` with the rate of change `rt`, up to bounded terms. -/
structure Close (K : ℝ) (bt : ℝ) (rt : V3 → ℝ) (z z' : Zone) : Prop where
  c : |z'.c - (z.c - bt)| ≤ K
  top : bt ≤ K
  axis : ∀ w, |rt w - 0.5 * ((z'.axis - z.axis) ⬝ᵥ w)| ≤ K * npNorm w
  nudge : npNorm (z'.nudge - z.nudge) ≤ K

theorem Close.trans {K K' bt bt' : ℝ} {rt rt' : V3 → ℝ} {z z' z'' : Zone} (h : Close K bt rt z z')
    (h' : Close K' bt' rt' z' z'') : Close (K + K') (bt + bt') (fun w => rt w + rt' w) z z'' where
  c := by
    have := abs_add_le (z'.c - (z.c - bt)) (z''.c - (z'.c - bt'))
    have e : z''.c - (z.c - (bt + bt')) = z'.c - (z.c - bt) + (z''.c - (z'.c - bt')) := by ring
    rw [e]; linarith [h.c, h'.c]
  top := add_le_add h.top h'.top
  axis w := by
    have e : rt w + rt' w - 0.5 * ((z''.axis - z.axis) ⬝ᵥ w) =
        (rt w - 0.5 * ((z'.axis - z.axis) ⬝ᵥ w)) + (rt' w - 0.5 * ((z''.axis - z'.axis) ⬝ᵥ w)) := by
      simp only [sub_dotProduct]; ring
    rw [e, add_mul]
    exact (abs_add_le _ _).trans (add_le_add (h.axis w) (h'.axis w))
  nudge := by
    have e : z''.nudge - z.nudge = (z'.nudge - z.nudge) + (z''.nudge - z'.nudge) := by abel
    rw [e]
    exact (npNorm_add3 _ _).trans (add_le_add h.nudge h'.nudge)

theorem Close.refl (z : Zone) : Close 0 0 (fun _ => 0) z z where
  c := by simp
  top := le_rfl
  axis w := by simp
  nudge := by rw [sub_self, npNorm_eq_zero.2 rfl]

theorem abs_dot_le (x y : V3) : |x ⬝ᵥ y| ≤ npNorm x * npNorm y := by
  have h := cauchy3_norm x y
  rw [← mul_pow] at h
  exact abs_le_of_sq_le_sq h (mul_nonneg (npNorm_nonneg _) (npNorm_nonneg _))

theorem cross_norm_le (x y : V3) : npNorm (npCross x y) ≤ npNorm x * npNorm y := by
  have h : npNorm (npCross x y) ^ 2 + (x ⬝ᵥ y) ^ 2 = npNorm x ^ 2 * npNorm y ^ 2 := by
    simp only [npNorm3_sq, npCross_0, npCross_1, npCross_2, Matrix.vec3_dotProduct]; ring
  have h' : npNorm (npCross x y) ^ 2 ≤ (npNorm x * npNorm y) ^ 2 := by
    rw [mul_pow]; linarith [sq_nonneg (x ⬝ᵥ y)]
  exact le_of_sq_le_sq h' (mul_nonneg (npNorm_nonneg _) (npNorm_nonneg _))

theorem normalize_le_one (x : V3) : npNorm (normalizeV x) ≤ 1 := by
  by_cases h : x = 0
  · rw [h, normalize_zero, npNorm_eq_zero.2 rfl]; exact zero_le_one
  · exact (npNorm_normalize h).le

theorem margin_top {i : Instrument} (k : Fin i.nBounds) {o : V3} (ho : npNorm o = 1) :
    margin i k o ≤ |0.5 * i.sign k| * (npNorm i.boresight + |i.cosPsi k|) := by
  have h1 : |npDot i.boresight o| ≤ npNorm i.boresight := by
    have := abs_dot_le i.boresight o
    rwa [ho, mul_one] at this
  refine (le_abs_self _).trans ?_
  rw [margin, abs_mul]
  exact mul_le_mul_of_nonneg_left ((abs_sub _ _).trans (by linarith)) (abs_nonneg _)

theorem zoneStep_near {i : Instrument} {s : ℝ} {dq dw : V3} {j : ℕ} {o : V3} (hj : j < i.nBounds)
    (hm : j ∈ i.objIds) (h0 : 0 < margin i ⟨j, hj⟩ o) (h2 : margin i ⟨j, hj⟩ o < i.sigma ⟨j, hj⟩) (z : Zone) :
    ∃ n : V3, npNorm n ≤ |i.push ⟨j, hj⟩| * (1 + |i.sign ⟨j, hj⟩|) ∧ zoneStep i s dq dw j o z =
      .ok ⟨z.c - i.gains ⟨j, hj⟩ * Real.log (margin i ⟨j, hj⟩ o),
        z.axis + (i.gains ⟨j, hj⟩ * i.sign ⟨j, hj⟩ / margin i ⟨j, hj⟩ o) • npCross i.boresight o, z.nudge + n⟩ := by
  unfold zoneStep
  rw [dif_pos hj]
  have e : 0.5 * i.sign ⟨j, hj⟩ * (npDot i.boresight o - i.cosPsi ⟨j, hj⟩) = margin i ⟨j, hj⟩ o := rfl
  simp only [Instrument.caresAbout, dif_pos hj, if_pos hm, e, h2, decide_true, if_neg (not_le.2 h0), npLog, if_pos h0,
    npDiv, if_neg h0.ne']
  by_cases hi : margin i ⟨j, hj⟩ o < i.iota ⟨j, hj⟩
  · simp only [if_pos hi]
    set v := normalizeV (s • npCross dq (npCross i.boresight o)) with hv
    set dir := (if npSign (npDot dw v) ≠ 0 then npSign (npDot dw v) else i.sign ⟨j, hj⟩) with hdir
    refine ⟨-((i.push ⟨j, hj⟩ * dir) • v), ?_, by rw [← sub_eq_add_neg]⟩
    have hd : |dir| ≤ 1 + |i.sign ⟨j, hj⟩| := by
      rw [hdir]
      split_ifs with h
      · rw [abs_npSign (fun h' => h (npSign_eq_zero.2 h'))]; linarith [abs_nonneg (i.sign ⟨j, hj⟩)]
      · linarith
    rw [← neg_smul, npNorm_smul, abs_neg, abs_mul]
    calc |i.push ⟨j, hj⟩| * |dir| * npNorm v ≤ |i.push ⟨j, hj⟩| * |dir| * 1 :=
          mul_le_mul_of_nonneg_left (normalize_le_one _) (by positivity)
      _ ≤ _ := by rw [mul_one]; exact mul_le_mul_of_nonneg_left hd (abs_nonneg _)
  · simp only [if_neg hi]
    exact ⟨0, by rw [npNorm_eq_zero.2 rfl]; positivity, by rw [add_zero]⟩

theorem step_close (i : Instrument) (hg : Guarded i) {j : ℕ} (hj : j < i.nBounds) :
    ∃ K, ∀ (s : ℝ) (dq dw o : V3) (z : Zone), npNorm o = 1 → (j ∈ i.objIds → 0 < margin i ⟨j, hj⟩ o) →
      ∃ z', zoneStep i s dq dw j o z = .ok z' ∧ Close K (barTerm i j o) (rateTerm i j o) z z' := by
  by_cases hm : j ∈ i.objIds
  swap
  · refine ⟨0, fun s dq dw o z _ _ => ⟨z, zoneStep_outside hj (.inl hm) z, ?_⟩⟩
    have e1 : barTerm i j o = 0 := by rw [barTerm, dif_pos hj, if_neg hm]
    have e2 : rateTerm i j o = fun _ => 0 := by funext w; rw [rateTerm, dif_pos hj, if_neg hm]
    rw [e1, e2]
    exact Close.refl z
  obtain ⟨hs, hk⟩ := hg ⟨j, hj⟩ hm
  set k : Fin i.nBounds := ⟨j, hj⟩ with hkd
  set U := |0.5 * i.sign k| * (npNorm i.boresight + |i.cosPsi k|) with hU
  set K1 := i.gains k * (|Real.log (i.sigma k)| + |Real.log U|) with hK1
  set K2 := i.gains k * (|0.5 * i.sign k| * npNorm i.boresight / i.sigma k) with hK2
  set K3 := |i.push k| * (1 + |i.sign k|) with hK3
  have hK1' : 0 ≤ K1 := by positivity
  have hK2' : 0 ≤ K2 := mul_nonneg hk.le (div_nonneg (mul_nonneg (abs_nonneg _) (npNorm_nonneg _)) hs.le)
  have hK3' : 0 ≤ K3 := by positivity
  refine ⟨K1 + K2 + K3, fun s dq dw o z ho hpos => ?_⟩
  have h0 := hpos hm
  have htop := margin_top k ho
  have eb : barTerm i j o = i.gains k * Real.log (margin i k o) := by rw [barTerm, dif_pos hj, if_pos hm]
  have er : ∀ w, rateTerm i j o w = i.gains k * (0.5 * i.sign k * (npCross i.boresight o ⬝ᵥ w) / margin i k o) := by
    intro w; rw [rateTerm, dif_pos hj, if_pos hm]
  have hlogU : Real.log (margin i k o) ≤ |Real.log U| := (Real.log_le_log h0 htop).trans (le_abs_self _)
  have hbt : barTerm i j o ≤ K1 := by
    rw [eb]
    exact mul_le_mul_of_nonneg_left (by linarith [abs_nonneg (Real.log (i.sigma k))]) hk.le
  by_cases hn : margin i k o < i.sigma k
  · obtain ⟨n, hn1, hn2⟩ := zoneStep_near (s := s) (dq := dq) (dw := dw) hj hm h0 hn z
    refine ⟨_, hn2, ?_, by linarith, fun w => ?_, ?_⟩
    · rw [eb]
      change |z.c - i.gains k * Real.log (margin i k o) - (z.c - i.gains k * Real.log (margin i k o))| ≤ _
      rw [sub_self, abs_zero]; linarith
    · simp only [add_sub_cancel_left, er, smul_dotProduct, smul_eq_mul]
      rw [show i.gains k * (0.5 * i.sign k * (npCross i.boresight o ⬝ᵥ w) / margin i k o)
        - 0.5 * (i.gains k * i.sign k / margin i k o * (npCross i.boresight o ⬝ᵥ w)) = 0 by ring, abs_zero]
      exact mul_nonneg (by linarith) (npNorm_nonneg _)
    · simp only [add_sub_cancel_left]
      linarith
  · rw [not_lt] at hn
    refine ⟨z, zoneStep_outside hj (.inr hn) z, ?_, by linarith, fun w => ?_, ?_⟩
    · have hlog : -|Real.log (i.sigma k)| ≤ Real.log (margin i k o) :=
        (neg_abs_le _).trans (Real.log_le_log hs hn)
      have : |barTerm i j o| ≤ K1 := by
        rw [eb, abs_mul, abs_of_pos hk]
        refine mul_le_mul_of_nonneg_left (abs_le.2 ⟨?_, ?_⟩) hk.le
        · linarith [abs_nonneg (Real.log U)]
        · linarith [abs_nonneg (Real.log (i.sigma k))]
      rw [show z.c - (z.c - barTerm i j o) = barTerm i j o by ring]
      linarith
    · rw [sub_self, zero_dotProduct, mul_zero, sub_zero, er]
      have h1 : |npCross i.boresight o ⬝ᵥ w| ≤ npNorm i.boresight * npNorm w := by
        refine (abs_dot_le _ _).trans (mul_le_mul_of_nonneg_right ?_ (npNorm_nonneg _))
        have := cross_norm_le i.boresight o
        rwa [ho, mul_one] at this
      have h2 : |rateTerm i j o w| ≤ K2 * npNorm w := by
        rw [er, abs_mul, abs_of_pos hk, abs_div, abs_mul, abs_of_pos h0, hK2, mul_assoc]
        refine mul_le_mul_of_nonneg_left ?_ hk.le
        rw [div_mul_eq_mul_div]
        refine div_le_div₀ (mul_nonneg (mul_nonneg (abs_nonneg _) (npNorm_nonneg _)) (npNorm_nonneg _)) ?_ hs hn
        rw [mul_assoc]
        exact mul_le_mul_of_nonneg_left h1 (abs_nonneg _)
      rw [er] at h2
      refine h2.trans (mul_le_mul_of_nonneg_right (by linarith) (npNorm_nonneg _))
    · rw [sub_self, npNorm_eq_zero.2 rfl]; linarith

/-- All constraints are met. -/
def Spec.Allowed (ins : List Instrument) (objs : List V3) : Prop :=
  ∀ i ∈ ins, ∀ (j : ℕ) (o : V3), objs[j]? = some o → ∀ hj : j < i.nBounds, j ∈ i.objIds → 0 < margin i ⟨j, hj⟩ o

theorem objects_close (i : Instrument) (hg : Guarded i) (n : ℕ) : ∀ j, j + n ≤ i.nBounds → ∃ K,
    ∀ (s : ℝ) (dq dw : V3) (objs : List V3) (z : Zone), objs.length = n → (∀ o ∈ objs, npNorm o = 1) →
      (∀ (k : ℕ) (o : V3), objs[k]? = some o → ∀ hj : j + k < i.nBounds, j + k ∈ i.objIds → 0 < margin i ⟨j + k, hj⟩ o) →
      ∃ z', zoneObjects i s dq dw j objs z = .ok z' ∧ Close K (barFrom i j objs) (rateFrom i j objs) z z' := by
  induction n with
  | zero =>
    intro j _
    refine ⟨0, fun s dq dw objs z hl _ _ => ?_⟩
    obtain rfl := List.length_eq_zero_iff.1 hl
    exact ⟨z, rfl, Close.refl z⟩
  | succ n ih =>
    intro j hj
    obtain ⟨K1, h1⟩ := step_close i hg (j := j) (by omega)
    obtain ⟨K2, h2⟩ := ih (j + 1) (by omega)
    refine ⟨K1 + K2, fun s dq dw objs z hl hu hpos => ?_⟩
    match objs, hl with
    | o :: l, hl =>
      obtain ⟨z1, e1, c1⟩ := h1 s dq dw o z (hu o List.mem_cons_self) (hpos 0 o rfl (by omega))
      obtain ⟨z2, e2, c2⟩ := h2 s dq dw l z1 (by simpa using hl) (fun o' h' => hu o' (List.mem_cons_of_mem _ h')) (by
        intro k o' hk hjk hmem
        have := hpos (k + 1) o' (by simpa using hk)
        simp only [show j + (k + 1) = j + 1 + k by omega] at this
        exact this hjk hmem)
      exact ⟨z2, by rw [zoneObjects, e1]; exact e2, c1.trans c2⟩

theorem instruments_close (n : ℕ) (ins : List Instrument) (hg : ∀ i ∈ ins, Guarded i)
    (hn : ∀ i ∈ ins, n ≤ i.nBounds) : ∃ K, ∀ (s : ℝ) (dq dw : V3) (objs : List V3) (z : Zone), objs.length = n →
      (∀ o ∈ objs, npNorm o = 1) → Spec.Allowed ins objs →
      ∃ z', zoneInstruments s dq dw objs ins z = .ok z' ∧ Close K (bar objs ins) (barRate objs ins) z z' := by
  induction ins with
  | nil => exact ⟨0, fun s dq dw objs z _ _ _ => ⟨z, rfl, Close.refl z⟩⟩
  | cons i l ih =>
    obtain ⟨K1, h1⟩ := objects_close i (hg i List.mem_cons_self) n 0 (by simpa using hn i List.mem_cons_self)
    obtain ⟨K2, h2⟩ := ih (fun k hk => hg k (List.mem_cons_of_mem _ hk)) (fun k hk => hn k (List.mem_cons_of_mem _ hk))
    refine ⟨K1 + K2, fun s dq dw objs z hl hu hpos => ?_⟩
    obtain ⟨z1, e1, c1⟩ := h1 s dq dw objs z hl hu (by
      intro k o hk
      simp only [zero_add]
      exact hpos i List.mem_cons_self k o hk)
    obtain ⟨z2, e2, c2⟩ := h2 s dq dw objs z1 hl hu (fun k hk => hpos k (List.mem_cons_of_mem _ hk))
    exact ⟨z2, by rw [zoneInstruments, e1]; exact e2, c1.trans c2⟩

/-! ## A barrier that is not too low keeps every margin away from zero -/

theorem objects_floor (i : Instrument) (hg : Guarded i) (n : ℕ) : ∀ j, j + n ≤ i.nBounds → ∃ K : ℝ, 0 ≤ K ∧ ∀ L : ℝ, ∃ ε > 0,
    ∀ (objs : List V3), objs.length = n → (∀ o ∈ objs, npNorm o = 1) →
      (∀ (k : ℕ) (o : V3), objs[k]? = some o → ∀ hj : j + k < i.nBounds, j + k ∈ i.objIds → 0 < margin i ⟨j + k, hj⟩ o) →
      barFrom i j objs ≤ K ∧ (-L ≤ barFrom i j objs →
        ∀ (k : ℕ) (o : V3), objs[k]? = some o → ∀ hj : j + k < i.nBounds, j + k ∈ i.objIds → ε ≤ margin i ⟨j + k, hj⟩ o) := by
  induction n with
  | zero =>
    intro j _
    refine ⟨0, le_rfl, fun L => ⟨1, one_pos, fun objs hl _ _ => ?_⟩⟩
    obtain rfl := List.length_eq_zero_iff.1 hl
    exact ⟨le_rfl, fun _ k o hk => by simp at hk⟩
  | succ n ih =>
    intro j hj
    have hj' : j < i.nBounds := by omega
    obtain ⟨K1, h1⟩ := step_close i hg (j := j) hj'
    obtain ⟨K2, hK2, h2⟩ := ih (j + 1) (by omega)
    refine ⟨|K1| + K2, by positivity, fun L => ?_⟩
    obtain ⟨ε, hε, h3⟩ := h2 (L + |K1|)
    have hb : ∀ o : V3, npNorm o = 1 → (j ∈ i.objIds → 0 < margin i ⟨j, hj'⟩ o) → barTerm i j o ≤ |K1| := by
      intro o ho hp
      obtain ⟨z, -, c⟩ := h1 0 0 0 o ⟨0, 0, 0⟩ ho hp
      exact c.top.trans (le_abs_self _)
    refine ⟨min ε (Real.exp (-(L + K2) / i.gains ⟨j, hj'⟩)), lt_min hε (Real.exp_pos _), fun objs hl hu hpos => ?_⟩
    match objs, hl with
    | o :: l, hl =>
      have hp0 : j ∈ i.objIds → 0 < margin i ⟨j, hj'⟩ o := hpos 0 o rfl (by omega)
      have hb0 := hb o (hu o List.mem_cons_self) hp0
      have hrest := h3 l (by simpa using hl) (fun o' h' => hu o' (List.mem_cons_of_mem _ h')) (by
        intro k o' hk hjk hmem
        have := hpos (k + 1) o' (by simpa using hk)
        simp only [show j + (k + 1) = j + 1 + k by omega] at this
        exact this hjk hmem)
      refine ⟨by rw [barFrom]; linarith [hrest.1], fun hL k o' hk hjk hmem => ?_⟩
      rw [barFrom] at hL
      match k, hk with
      | 0, hk =>
        simp only [List.getElem?_cons_zero, Option.some.injEq] at hk
        subst hk
        refine (min_le_right _ _).trans ?_
        have hmem' : j ∈ i.objIds := hmem
        have hg0 := (hg ⟨j, hj'⟩ hmem').2
        have eb : barTerm i j o = i.gains ⟨j, hj'⟩ * Real.log (margin i ⟨j, hj'⟩ o) := by
          rw [barTerm, dif_pos hj', if_pos hmem']
        have hlog : -(L + K2) / i.gains ⟨j, hj'⟩ ≤ Real.log (margin i ⟨j, hj'⟩ o) := by
          rw [div_le_iff₀ hg0, mul_comm, ← eb]; linarith [hrest.1]
        have := Real.exp_le_exp.2 hlog
        rwa [Real.exp_log (hp0 hmem')] at this
      | k + 1, hk =>
        refine (min_le_left _ _).trans ?_
        have := hrest.2 (by linarith) k o' (by simpa using hk)
        simp only [show j + 1 + k = j + (k + 1) by omega] at this
        exact this hjk hmem

theorem instruments_floor (n : ℕ) (ins : List Instrument) (hg : ∀ i ∈ ins, Guarded i)
    (hn : ∀ i ∈ ins, n ≤ i.nBounds) : ∃ K : ℝ, 0 ≤ K ∧ ∀ L : ℝ, ∃ ε > 0, ∀ (objs : List V3), objs.length = n →
      (∀ o ∈ objs, npNorm o = 1) → Spec.Allowed ins objs → bar objs ins ≤ K ∧ (-L ≤ bar objs ins →
        ∀ i ∈ ins, ∀ (j : ℕ) (o : V3), objs[j]? = some o → ∀ hj : j < i.nBounds, j ∈ i.objIds → ε ≤ margin i ⟨j, hj⟩ o) := by
  induction ins with
  | nil => exact ⟨0, le_rfl, fun L => ⟨1, one_pos, fun objs _ _ _ => ⟨le_rfl, fun _ i hi => by cases hi⟩⟩⟩
  | cons i l ih =>
    obtain ⟨K1, hK1, h1⟩ := objects_floor i (hg i List.mem_cons_self) n 0 (by simpa using hn i List.mem_cons_self)
    obtain ⟨K2, hK2, h2⟩ := ih (fun k hk => hg k (List.mem_cons_of_mem _ hk)) (fun k hk => hn k (List.mem_cons_of_mem _ hk))
    refine ⟨K1 + K2, by positivity, fun L => ?_⟩
    obtain ⟨ε1, hε1, h3⟩ := h1 (L + K2)
    obtain ⟨ε2, hε2, h4⟩ := h2 (L + K1)
    refine ⟨min ε1 ε2, lt_min hε1 hε2, fun objs hl hu hpos => ?_⟩
    obtain ⟨a1, a2⟩ := h3 objs hl hu (by
      intro k o hk
      simp only [zero_add]
      exact hpos i List.mem_cons_self k o hk)
    obtain ⟨b1, b2⟩ := h4 objs hl hu (fun k hk => hpos k (List.mem_cons_of_mem _ hk))
    refine ⟨by rw [bar]; linarith, fun hL i' hi' j o ho hj hm => ?_⟩
    rw [bar] at hL
    rcases List.mem_cons.1 hi' with rfl | hi'
    · refine (min_le_left _ _).trans ?_
      have := a2 (by linarith) j o ho
      simp only [zero_add] at this
      exact this hj hm
    · exact (min_le_right _ _).trans (b2 (by linarith) i' hi' j o ho hj hm)

/-! ## The rate of change of the barrier -/

theorem margin_right {i : Instrument} (k : Fin i.nBounds) {o : ℝ → V3} {w : V3} {t : ℝ} {S : Set ℝ}
    (ho : HasDerivWithinAt o (-npCross w (o t)) S t) :
    HasDerivWithinAt (fun τ => margin i k (o τ)) (0.5 * i.sign k * (npCross i.boresight (o t) ⬝ᵥ w)) S t := by
  have k0 := hasDerivWithinAt_pi.1 ho
  have e : (fun τ => margin i k (o τ)) = fun τ => 0.5 * i.sign k *
      (i.boresight 0 * o τ 0 + i.boresight 1 * o τ 1 + i.boresight 2 * o τ 2 - i.cosPsi k) := by
    funext τ; rw [margin, npDot3]
  rw [e]
  refine ((((((k0 0).const_mul (i.boresight 0)).fun_add ((k0 1).const_mul (i.boresight 1))).fun_add
    ((k0 2).const_mul (i.boresight 2))).sub_const (i.cosPsi k)).const_mul (0.5 * i.sign k)).congr_deriv ?_
  simp only [Pi.neg_apply, npCross_0, npCross_1, npCross_2, Matrix.vec3_dotProduct]
  ring

theorem barTerm_right {i : Instrument} {j : ℕ} {o : ℝ → V3} {w : V3} {t : ℝ} {S : Set ℝ}
    (ho : HasDerivWithinAt o (-npCross w (o t)) S t)
    (hp : ∀ hj : j < i.nBounds, j ∈ i.objIds → 0 < margin i ⟨j, hj⟩ (o t)) :
    HasDerivWithinAt (fun τ => barTerm i j (o τ)) (rateTerm i j (o t) w) S t := by
  by_cases hj : j < i.nBounds
  swap
  · simp only [barTerm, rateTerm, dif_neg hj]; exact hasDerivWithinAt_const _ _ _
  by_cases hm : j ∈ i.objIds
  swap
  · simp only [barTerm, rateTerm, dif_pos hj, if_neg hm]; exact hasDerivWithinAt_const _ _ _
  simp only [barTerm, rateTerm, dif_pos hj, if_pos hm]
  exact ((margin_right ⟨j, hj⟩ ho).log (hp hj hm).ne').const_mul _

theorem barFrom_right (i : Instrument) (w : V3) (t : ℝ) (S : Set ℝ) (O : List (ℝ → V3))
    (hO : ∀ o ∈ O, HasDerivWithinAt o (-npCross w (o t)) S t) (j : ℕ)
    (hp : ∀ (k : ℕ) (o : V3), (O.map (· t))[k]? = some o → ∀ hj : j + k < i.nBounds, j + k ∈ i.objIds →
      0 < margin i ⟨j + k, hj⟩ o) :
    HasDerivWithinAt (fun τ => barFrom i j (O.map (· τ))) (rateFrom i j (O.map (· t)) w) S t := by
  induction O generalizing j with
  | nil => simp only [List.map_nil, barFrom, rateFrom]; exact hasDerivWithinAt_const _ _ _
  | cons o l ih =>
    simp only [List.map_cons, barFrom, rateFrom]
    refine (barTerm_right (hO o List.mem_cons_self) (hp 0 (o t) rfl)).fun_add
      (ih (fun o' h' => hO o' (List.mem_cons_of_mem _ h')) (j + 1) ?_)
    intro k o' hk hjk hmem
    have := hp (k + 1) o' (by simpa using hk)
    simp only [show j + (k + 1) = j + 1 + k by omega] at this
    exact this hjk hmem

theorem bar_right (w : V3) (t : ℝ) (S : Set ℝ) (O : List (ℝ → V3))
    (hO : ∀ o ∈ O, HasDerivWithinAt o (-npCross w (o t)) S t) (ins : List Instrument)
    (hp : Spec.Allowed ins (O.map (· t))) :
    HasDerivWithinAt (fun τ => bar (O.map (· τ)) ins) (barRate (O.map (· t)) ins w) S t := by
  induction ins with
  | nil => simp only [bar, barRate]; exact hasDerivWithinAt_const _ _ _
  | cons i l ih =>
    simp only [bar, barRate]
    refine (barFrom_right i w t S O hO 0 ?_).fun_add (ih fun k hk => hp k (List.mem_cons_of_mem _ hk))
    intro k o hk
    simp only [zero_add]
    exact hp i List.mem_cons_self k o hk

theorem sandwich_right {q : ℝ → V4} {w : V3} {t : ℝ} {S : Set ℝ} (o : V3)
    (hq : HasDerivWithinAt q ((0.5 : ℝ) • product (q t) (pureQ w)) S t) :
    HasDerivWithinAt (fun τ => sandwich (q τ) o) (-npCross w (sandwich (q t) o)) S t := by
  have hd : DifferentiableAt ℝ (fun p : V4 => sandwich p o) (q t) := by
    rw [differentiableAt_pi]
    intro m
    fin_cases m
    · simp only [Fin.zero_eta, sandwich_0]; fun_prop
    · simp only [Fin.mk_one, sandwich_1]; fun_prop
    · change DifferentiableAt ℝ (fun p : V4 => sandwich p o 2) (q t)
      simp only [sandwich_2]; fun_prop
  have h1 := hd.hasFDerivAt.comp_hasDerivWithinAt t hq
  refine h1.congr_deriv ?_
  -- the derivative along a straight line
  set v := (0.5 : ℝ) • product (q t) (pureQ w) with hv
  have hl : HasDerivAt (fun τ : ℝ => q t + τ • v) v 0 := by
    simpa using ((hasDerivAt_id (0 : ℝ)).smul_const v).const_add (q t)
  have h2 := hasDerivAt_sandwich2 hl (hasDerivAt_const (0 : ℝ) o)
  have e0 : q t + (0 : ℝ) • v = q t := by rw [zero_smul, add_zero]
  simp only [e0] at h2
  have hd' : HasFDerivAt (fun p : V4 => sandwich p o) (fderiv ℝ (fun p : V4 => sandwich p o) (q t)) (q t + (0 : ℝ) • v) := by
    rw [e0]; exact hd.hasFDerivAt
  have h3 := hd'.comp_hasDerivAt (0 : ℝ) hl
  have h4 := h3.unique h2
  rw [h4, hv]
  unfold pureQ
  rw [sandwich_kinematics]
  have : sandwich (q t) (0 : V3) = 0 := by rw [sandwich_eq_dcm, Matrix.mulVec_zero]
  rw [this, zero_sub]

end Adcs
