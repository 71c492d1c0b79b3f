import Verif.Proofs.Kepler
import Mathlib.Topology.Compactness.Compact

set_option autoImplicit false

/-! # Motions that cannot escape go on

A motion along a continuously differentiable field that stays within a compact set can be continued; motions over
different intervals fit together. -/

namespace Adcs

open Set Filter Topology

/-- `y` moves along the field `F` within `U`, from `a` to `b`. -/
def Along {E : Type} [NormedAddCommGroup E] [NormedSpace ℝ E] (F : E → E) (U : Set E) (y : ℝ → E) (a b : ℝ) : Prop :=
  ∀ t ∈ Ioo a b, HasDerivAt y (F (y t)) t ∧ y t ∈ U

variable {E : Type} [NormedAddCommGroup E] [NormedSpace ℝ E] {F : E → E} {U : Set E}

theorem Along.mono {y : ℝ → E} {a b a' b' : ℝ} (h : Along F U y a b) (ha : a ≤ a') (hb : b' ≤ b) : Along F U y a' b' :=
  fun t ht => h t ⟨ha.trans_lt ht.1, ht.2.trans_le hb⟩

theorem along_unique (hF : ∀ x ∈ U, ContDiffAt ℝ 1 F x) {y z : ℝ → E} {a b t0 : ℝ} (hy : Along F U y a b)
    (hz : Along F U z a b) (h0 : t0 ∈ Ioo a b) (h : y t0 = z t0) : ∀ t ∈ Ioo a b, y t = z t :=
  flow_unique (fun t ht => hF _ (hy t ht).2) (fun t ht => (hy t ht).1) (fun t ht => (hz t ht).1) h0 h

/-- Motions through the same point, over intervals around the time 0 that cover an open set, make one motion. -/
theorem along_glue (hF : ∀ x ∈ U, ContDiffAt ℝ 1 F x) {x0 : E} {I : Set ℝ} (hI : IsOpen I) (h0 : (0 : ℝ) ∈ I)
    (h : ∀ t ∈ I, ∃ a b y, a < 0 ∧ 0 < b ∧ t ∈ Ioo a b ∧ y 0 = x0 ∧ Along F U y a b) :
    ∃ y : ℝ → E, y 0 = x0 ∧ ∀ t ∈ I, HasDerivAt y (F (y t)) t ∧ y t ∈ U := by
  choose! a b Y ha hb hab hY0 hY using h
  refine ⟨fun t => Y t t, hY0 0 h0, fun t ht => ?_⟩
  have e : (fun u => Y u u) =ᶠ[𝓝 t] Y t := by
    filter_upwards [hI.mem_nhds ht, isOpen_Ioo.mem_nhds (hab t ht)] with u hu hu'
    refine along_unique hF (a := max (a u) (a t)) (b := min (b u) (b t)) (t0 := 0)
      ((hY u hu).mono (le_max_left _ _) (min_le_left _ _)) ((hY t ht).mono (le_max_right _ _) (min_le_right _ _))
      ⟨max_lt (ha u hu) (ha t ht), lt_min (hb u hu) (hb t ht)⟩ ((hY0 u hu).trans (hY0 t ht).symm) u
      ⟨max_lt (hab u hu).1 hu'.1, lt_min (hab u hu).2 hu'.2⟩
  have := hY t ht t (hab t ht)
  exact ⟨this.1.congr_of_eventuallyEq e, this.2⟩

/-- Two motions that meet at a time are continued by each other. -/
theorem along_join (hF : ∀ x ∈ U, ContDiffAt ℝ 1 F x) {y z : ℝ → E} {a b c d t1 : ℝ} (hy : Along F U y a b)
    (hz : Along F U z c d) (h1 : t1 ∈ Ioo a b) (h1' : t1 ∈ Ioo c d) (h : y t1 = z t1) :
    Along F U (fun t => if t < t1 then y t else z t) a d ∧ Along F U (fun t => if t < t1 then z t else y t) c b := by
  have key : ∀ {y z : ℝ → E} {a b c d : ℝ}, Along F U y a b → Along F U z c d → t1 ∈ Ioo a b → t1 ∈ Ioo c d →
      y t1 = z t1 → Along F U (fun t => if t < t1 then y t else z t) a d := by
    intro y z a b c d hy hz h1 h1' h t ht
    have same : ∀ u ∈ Ioo (max a c) (min b d), y u = z u :=
      along_unique hF (hy.mono (le_max_left _ _) (min_le_left _ _)) (hz.mono (le_max_right _ _) (min_le_right _ _))
        ⟨max_lt h1.1 h1'.1, lt_min h1.2 h1'.2⟩ h
    rcases lt_or_ge t t1 with l | l
    · have e : (fun t => if t < t1 then y t else z t) =ᶠ[𝓝 t] y := by
        filter_upwards [gt_mem_nhds l] with u hu
        exact if_pos hu
      have := hy t ⟨ht.1, l.trans h1.2⟩
      refine ⟨?_, ?_⟩
      · dsimp only; rw [if_pos l]; exact this.1.congr_of_eventuallyEq e
      · dsimp only; rw [if_pos l]; exact this.2
    · have e : (fun t => if t < t1 then y t else z t) =ᶠ[𝓝 t] z := by
        filter_upwards [lt_mem_nhds (h1'.1.trans_le l), lt_mem_nhds (h1.1.trans_le l), gt_mem_nhds ht.2] with u u1 u2 u3
        split_ifs with hu
        · exact same u ⟨max_lt u2 u1, lt_min (hu.trans h1.2) u3⟩
        · rfl
      have := hz t ⟨h1'.1.trans_le l, ht.2⟩
      refine ⟨?_, ?_⟩
      · dsimp only; rw [if_neg (not_lt.2 l)]; exact this.1.congr_of_eventuallyEq e
      · dsimp only; rw [if_neg (not_lt.2 l)]; exact this.2
  exact ⟨key hy hz h1 h1' h, key hz hy h1' h1 h.symm⟩

/-- Motions start from everywhere in a compact set, and last for a time that does not depend on the start. -/
theorem along_local [CompleteSpace E] (hF : ∀ x ∈ U, ContDiffAt ℝ 1 F x) (hU : IsOpen U) {K : Set E} (hK : IsCompact K)
    (hKU : K ⊆ U) : ∃ ε : ℝ, 0 < ε ∧ ∀ x ∈ K, ∀ t0, ∃ y, y t0 = x ∧ Along F U y (t0 - ε) (t0 + ε) := by
  have loc : ∀ x ∈ K, ∃ V ∈ 𝓝[K] x, ∃ ε : ℝ, 0 < ε ∧ ∀ x' ∈ V, ∃ y, y 0 = x' ∧ Along F U y (-ε) ε := by
    intro x hx
    obtain ⟨ε, hε, a, r, L, M, hr, hpl⟩ := IsPicardLindelof.of_contDiffAt_one (hF x (hKU hx))
    obtain ⟨α, h1, h2⟩ := (hpl 0).exists_forall_mem_closedBall_eq_hasDerivWithinAt_continuousOn
    dsimp only at h1
    simp only [zero_sub, zero_add] at h1 h2
    have hr' : (0 : ℝ) < r := hr
    have c0 : ContinuousAt α (x, 0) := h2.continuousAt
      (prod_mem_nhds (Metric.closedBall_mem_nhds x hr') (Icc_mem_nhds (by linarith) hε))
    have e0 : α (x, 0) = x := (h1 x (Metric.mem_closedBall_self hr'.le)).1
    have n0 : α ⁻¹' U ∈ 𝓝 (x, (0 : ℝ)) := c0 (hU.mem_nhds (by rw [e0]; exact hKU hx))
    rw [nhds_prod_eq, mem_prod_iff] at n0
    obtain ⟨V, hV, W, hW, hVW⟩ := n0
    obtain ⟨δ, hδ, hball⟩ := Metric.mem_nhds_iff.1 hW
    refine ⟨V ∩ Metric.closedBall x r, mem_nhdsWithin_of_mem_nhds
      (inter_mem hV (Metric.closedBall_mem_nhds x hr')), min δ ε, lt_min hδ hε, fun x' hx' => ⟨fun t => α (x', t), ?_, ?_⟩⟩
    · exact (h1 x' hx'.2).1
    · intro t ht
      have t1 : |t| < δ := (abs_lt.2 ht).trans_le (min_le_left _ _)
      have t2 := abs_lt.1 ((abs_lt.2 ht).trans_le (min_le_right δ ε))
      refine ⟨((h1 x' hx'.2).2 t ⟨t2.1.le, t2.2.le⟩).hasDerivAt (Icc_mem_nhds t2.1 t2.2), ?_⟩
      exact hVW ⟨hx'.1, hball (by rw [Metric.mem_ball, Real.dist_eq, sub_zero]; exact t1)⟩
  obtain ⟨ε, hε, h⟩ := hK.induction_on (p := fun S => ∃ ε : ℝ, 0 < ε ∧ ∀ x ∈ S, ∃ y, y 0 = x ∧ Along F U y (-ε) ε)
    ⟨1, one_pos, fun x hx => absurd hx (notMem_empty x)⟩
    (fun S S' hS ⟨ε, hε, h⟩ => ⟨ε, hε, fun x hx => h x (hS hx)⟩)
    (fun S S' ⟨ε, hε, h⟩ ⟨ε', hε', h'⟩ => ⟨min ε ε', lt_min hε hε', fun x hx => by
      rcases hx with hx | hx
      · obtain ⟨y, h0, hy⟩ := h x hx
        exact ⟨y, h0, hy.mono (neg_le_neg (min_le_left _ _)) (min_le_left _ _)⟩
      · obtain ⟨y, h0, hy⟩ := h' x hx
        exact ⟨y, h0, hy.mono (neg_le_neg (min_le_right _ _)) (min_le_right _ _)⟩⟩)
    loc
  refine ⟨ε, hε, fun x hx t0 => ?_⟩
  obtain ⟨y, h0, hy⟩ := h x hx
  refine ⟨fun t => y (t - t0), by simpa using h0, fun t ht => ?_⟩
  have := hy (t - t0) ⟨by linarith [ht.1], by linarith [ht.2]⟩
  exact ⟨this.1.comp_sub_const t t0, this.2⟩

/-- A motion that cannot leave a compact set in the time from `a` to `b` lasts all that time. -/
theorem along_extends [CompleteSpace E] (hF : ∀ x ∈ U, ContDiffAt ℝ 1 F x) (hU : IsOpen U) {K : Set E} (hK : IsCompact K)
    (hKU : K ⊆ U) {x0 : E} (hx0 : x0 ∈ K) {a b : ℝ} (ha : a < 0) (hb : 0 < b)
    (stay : ∀ a' b' y, a ≤ a' → a' < 0 → 0 < b' → b' ≤ b → y 0 = x0 → Along F U y a' b' → ∀ t ∈ Ioo a' b', y t ∈ K) :
    ∃ y, y 0 = x0 ∧ Along F U y a b := by
  obtain ⟨ε, hε, loc⟩ := along_local hF hU hK hKU
  have right : ∀ n : ℕ, ∃ y, y 0 = x0 ∧ Along F U y (max a (-ε)) (min b (ε + n * (ε / 2))) := by
    intro n
    induction n with
    | zero =>
      obtain ⟨y, h0, hy⟩ := loc x0 hx0 0
      exact ⟨y, h0, hy.mono (by rw [zero_sub]; exact le_max_right _ _) (by simp)⟩
    | succ n ih =>
      obtain ⟨y, h0, hy⟩ := ih
      set s := min b (ε + n * (ε / 2)) with hs
      have hs0 : 0 < s := lt_min hb (by positivity)
      rcases le_or_gt b (ε + n * (ε / 2)) with l | l
      · refine ⟨y, h0, hy.mono le_rfl ?_⟩
        rw [hs, min_eq_left l]; exact min_le_left _ _
      have es : s = ε + n * (ε / 2) := by rw [hs, min_eq_right l.le]
      have hn : (0 : ℝ) ≤ n * (ε / 2) := by positivity
      set t1 := s - ε / 2 with ht1
      have m1 : t1 ∈ Ioo (max a (-ε)) s := ⟨max_lt (by linarith) (by linarith), by linarith⟩
      obtain ⟨z, hz0, hz⟩ := loc (y t1) (stay _ _ y (le_max_left _ _) (max_lt ha (by linarith)) hs0
        (min_le_left _ _) h0 hy t1 m1) t1
      have := (along_join hF hy hz m1 ⟨by linarith, by linarith⟩ hz0.symm).1
      refine ⟨_, ?_, this.mono le_rfl ?_⟩
      · show (if (0 : ℝ) < t1 then y 0 else z 0) = x0
        rw [if_pos (by linarith)]; exact h0
      · refine (min_le_right _ _).trans ?_
        push_cast; linarith
  have left : ∀ n : ℕ, ∃ y, y 0 = x0 ∧ Along F U y (max a (-(ε + n * (ε / 2)))) b := by
    intro n
    induction n with
    | zero =>
      obtain ⟨N, hN⟩ := exists_nat_ge (b / (ε / 2))
      obtain ⟨y, h0, hy⟩ := right N
      refine ⟨y, h0, hy.mono (by simp) ?_⟩
      rw [div_le_iff₀ (by linarith)] at hN
      exact le_min le_rfl (by linarith)
    | succ n ih =>
      obtain ⟨y, h0, hy⟩ := ih
      set s := max a (-(ε + n * (ε / 2))) with hs
      have hs0 : s < 0 := max_lt ha (by have : (0 : ℝ) ≤ n * (ε / 2) := by positivity
                                        linarith)
      rcases le_or_gt (-(ε + n * (ε / 2))) a with l | l
      · refine ⟨y, h0, hy.mono ?_ le_rfl⟩
        rw [hs, max_eq_left l]; exact le_max_left _ _
      have es : s = -(ε + n * (ε / 2)) := by rw [hs, max_eq_right l.le]
      have hn : (0 : ℝ) ≤ n * (ε / 2) := by positivity
      set t1 := s + ε / 2 with ht1
      have m1 : t1 ∈ Ioo s b := ⟨by linarith, by linarith⟩
      obtain ⟨z, hz0, hz⟩ := loc (y t1) (stay _ _ y (le_max_left _ _) hs0 hb le_rfl h0 hy t1 m1) t1
      have := (along_join hF hy hz m1 ⟨by linarith, by linarith⟩ hz0.symm).2
      refine ⟨_, ?_, this.mono ?_ le_rfl⟩
      · show (if (0 : ℝ) < t1 then z 0 else y 0) = x0
        rw [if_neg (by linarith)]; exact h0
      · refine le_trans ?_ (le_max_right _ _)
        push_cast; linarith
  obtain ⟨N, hN⟩ := exists_nat_ge (-a / (ε / 2))
  obtain ⟨y, h0, hy⟩ := left N
  rw [div_le_iff₀ (by linarith)] at hN
  exact ⟨y, h0, hy.mono (max_le le_rfl (by linarith)) le_rfl⟩

end Adcs
