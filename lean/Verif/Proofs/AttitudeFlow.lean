import Verif.Props.Future

set_option autoImplicit false

/-! # Attitude motions from every state

A body turns under a torque that depends on time, attitude and angular momentum. If the torque is continuously
differentiable and grows at most like the momentum, the motion exists for all times. -/

namespace Adcs

open Vec Quat Set
open scoped Matrix

/-- Time, attitude and angular momentum in body coordinates. -/
abbrev Turn := ℝ × V4 × V3

/-- The equations of rotation with the inverse inertia `Ji` under the torque `T`. -/
noncomputable def turnField (Ji : M3) (T : Turn → V3) (p : Turn) : Turn :=
  (1, (0.5 : ℝ) • product p.2.1 ![0, (Ji *ᵥ p.2.2) 0, (Ji *ᵥ p.2.2) 1, (Ji *ᵥ p.2.2) 2],
    T p - (Ji *ᵥ p.2.2) ⨯₃ p.2.2)

theorem contDiff_mulVec3 (J : M3) {f : Turn → V3} (hf : ContDiff ℝ 1 f) : ContDiff ℝ 1 fun p => J *ᵥ f p := by
  rw [contDiff_pi] at hf ⊢
  intro i
  simp only [Matrix.mulVec, dotProduct, Fin.sum_univ_three]
  have h0 := hf 0; have h1 := hf 1; have h2 := hf 2
  fun_prop

theorem contDiff_cross3 {f g : Turn → V3} (hf : ContDiff ℝ 1 f) (hg : ContDiff ℝ 1 g) :
    ContDiff ℝ 1 fun p => f p ⨯₃ g p := by
  rw [contDiff_pi] at hf hg ⊢
  have f0 := hf 0; have f1 := hf 1; have f2 := hf 2
  have g0 := hg 0; have g1 := hg 1; have g2 := hg 2
  intro i
  simp only [cross_apply]
  fin_cases i
  · change ContDiff ℝ 1 fun p => f p 1 * g p 2 - f p 2 * g p 1
    fun_prop
  · change ContDiff ℝ 1 fun p => f p 2 * g p 0 - f p 0 * g p 2
    fun_prop
  · change ContDiff ℝ 1 fun p => f p 0 * g p 1 - f p 1 * g p 0
    fun_prop

theorem contDiff_sandwich3 {f : Turn → V4} {g : Turn → V3} (hf : ContDiff ℝ 1 f) (hg : ContDiff ℝ 1 g) :
    ContDiff ℝ 1 fun p => sandwich (f p) (g p) := by
  rw [contDiff_pi] at hf hg ⊢
  have f0 := hf 0; have f1 := hf 1; have f2 := hf 2; have f3 := hf 3
  have g0 := hg 0; have g1 := hg 1; have g2 := hg 2
  intro i
  fin_cases i
  · change ContDiff ℝ 1 fun p => sandwich (f p) (g p) 0
    simp only [sandwich_0]
    fun_prop
  · change ContDiff ℝ 1 fun p => sandwich (f p) (g p) 1
    simp only [sandwich_1]
    fun_prop
  · change ContDiff ℝ 1 fun p => sandwich (f p) (g p) 2
    simp only [sandwich_2]
    fun_prop

theorem contDiff_dot3 {f g : Turn → V3} (hf : ContDiff ℝ 1 f) (hg : ContDiff ℝ 1 g) :
    ContDiff ℝ 1 fun p => f p ⬝ᵥ g p := by
  rw [contDiff_pi] at hf hg
  have f0 := hf 0; have f1 := hf 1; have f2 := hf 2
  have g0 := hg 0; have g1 := hg 1; have g2 := hg 2
  simp only [Matrix.vec3_dotProduct]
  fun_prop

theorem contDiff_turnField (Ji : M3) {T : Turn → V3} (hT : ContDiff ℝ 1 T) : ContDiff ℝ 1 (turnField Ji T) := by
  have hH : ContDiff ℝ 1 fun p : Turn => p.2.2 := contDiff_snd.comp contDiff_snd
  have hq : ContDiff ℝ 1 fun p : Turn => p.2.1 := contDiff_fst.comp contDiff_snd
  have hw := contDiff_mulVec3 Ji hH
  have hx := contDiff_cross3 hw hH
  unfold turnField
  refine contDiff_const.prodMk (ContDiff.prodMk ?_ (hT.sub hx))
  rw [contDiff_pi] at hw hq ⊢
  have w0 := hw 0; have w1 := hw 1; have w2 := hw 2
  have q0 := hq 0; have q1 := hq 1; have q2 := hq 2; have q3 := hq 3
  intro i
  fin_cases i
  · change ContDiff ℝ 1 fun p : Turn => (0.5 : ℝ) * product p.2.1 _ 0
    simp only [product_0, Matrix.cons_val_zero, Matrix.cons_val_one, cons4_2, cons4_3]
    fun_prop
  · change ContDiff ℝ 1 fun p : Turn => (0.5 : ℝ) * product p.2.1 _ 1
    simp only [product_1, Matrix.cons_val_zero, Matrix.cons_val_one, cons4_2, cons4_3]
    fun_prop
  · change ContDiff ℝ 1 fun p : Turn => (0.5 : ℝ) * product p.2.1 _ 2
    simp only [product_2, Matrix.cons_val_zero, Matrix.cons_val_one, cons4_2, cons4_3]
    fun_prop
  · change ContDiff ℝ 1 fun p : Turn => (0.5 : ℝ) * product p.2.1 _ 3
    simp only [product_3, Matrix.cons_val_zero, Matrix.cons_val_one, cons4_2, cons4_3]
    fun_prop

/-- What holds along a motion: the time is the time, the attitude stays a unit quaternion, the momentum grows at most
exponentially. -/
theorem turn_facts {Ji : M3} {T : Turn → V3} {τ C : ℝ}
    (hC : ∀ p : Turn, |p.1| ≤ τ → npNorm p.2.1 = 1 → |p.2.2 ⬝ᵥ T p| ≤ C * (1 + npNorm p.2.2 ^ 2))
    {q0 : V4} {H0 : V3} (hq0 : npNorm q0 = 1) {a b : ℝ} {y : ℝ → Turn} (hτa : -τ ≤ a) (ha : a < 0) (hb : 0 < b)
    (hbτ : b ≤ τ) (h0 : y 0 = (0, q0, H0)) (hy : Along (turnField Ji T) univ y a b) :
    ∀ t ∈ Ioo a b, (y t).1 = t ∧ npNorm (y t).2.1 = 1 ∧
      npNorm (y t).2.2 ^ 2 + 1 ≤ (npNorm H0 ^ 2 + 1) * Real.exp (2 * C * |t|) := by
  have d1 : ∀ t ∈ Ioo a b, HasDerivAt (fun t => (y t).1) 1 t := fun t ht => (hy t ht).1.fst
  have d2 : ∀ t ∈ Ioo a b, HasDerivAt (fun t => (y t).2.1) (turnField Ji T (y t)).2.1 t :=
    fun t ht => (hy t ht).1.snd.fst
  have d3 : ∀ t ∈ Ioo a b, HasDerivAt (fun t => (y t).2.2) (turnField Ji T (y t)).2.2 t :=
    fun t ht => (hy t ht).1.snd.snd
  have f1 : ∀ t ∈ Ioo a b, (y t).1 = t := by
    intro t ht
    have := const_Ioo (f := fun t => (y t).1 - t)
      (fun t ht => ((d1 t ht).sub (hasDerivAt_id t)).congr_deriv (by simp)) ⟨ha, hb⟩ ht
    simp only [h0, sub_zero] at this
    linarith
  have f2 : ∀ t ∈ Ioo a b, npNorm (y t).2.1 = 1 := by
    intro t ht
    have hc : ∀ u ∈ Ioo a b, HasDerivAt (fun u => (y u).2.1 0 ^ 2 + (y u).2.1 1 ^ 2 + (y u).2.1 2 ^ 2 +
        (y u).2.1 3 ^ 2) 0 u := by
      intro u hu
      have hd := hasDerivAt_pi.1 (d2 u hu)
      refine ((((hd 0).fun_pow 2).fun_add ((hd 1).fun_pow 2)).fun_add ((hd 2).fun_pow 2)).fun_add
        ((hd 3).fun_pow 2) |>.congr_deriv ?_
      simp only [turnField, Pi.smul_apply, smul_eq_mul, product_0, product_1, product_2, product_3,
        Matrix.cons_val_zero, Matrix.cons_val_one, cons4_2, cons4_3]
      ring
    have h := const_Ioo hc ⟨ha, hb⟩ ht
    rw [← isUnit4_iff]
    have h1 := (isUnit4_iff q0).2 hq0
    unfold IsUnit4 at h1 ⊢
    rw [h0] at h
    rw [← h]
    exact h1
  refine fun t ht => ⟨f1 t ht, f2 t ht, ?_⟩
  have hsq : ∀ t, npNorm (y t).2.2 ^ 2 = (y t).2.2 ⬝ᵥ (y t).2.2 := fun t => by rw [npNorm_sq_dot, npDot_eq_dotProduct]
  have := grow_le (u := fun t => npNorm (y t).2.2 ^ 2) (u' := fun t => 2 * ((y t).2.2 ⬝ᵥ T (y t))) (M := 2 * C) ha hb
    (fun t _ => sq_nonneg _) (fun t ht => ⟨?_, ?_⟩) ht
  · rw [h0] at this
    exact this
  · rw [funext hsq]
    refine (hasDerivAt_dot3 (d3 t ht) (d3 t ht)).congr_deriv ?_
    simp only [turnField]
    rw [dotProduct_comm (T (y t) - _), dotProduct_sub, dot_cross_self]
    ring
  · have := hC (y t) (by
      rw [f1 t ht]
      exact abs_le.2 ⟨hτa.trans ht.1.le, ht.2.le.trans hbτ⟩) (f2 t ht)
    rw [abs_mul, abs_two]
    linarith

/-- From every unit quaternion and every angular momentum there is a motion for all times. -/
theorem turn_forever {Ji : M3} {T : Turn → V3} (hT : ContDiff ℝ 1 T)
    (hC : ∀ τ : ℝ, ∃ C : ℝ, ∀ p : Turn, |p.1| ≤ τ → npNorm p.2.1 = 1 → |p.2.2 ⬝ᵥ T p| ≤ C * (1 + npNorm p.2.2 ^ 2))
    {q0 : V4} (hq0 : npNorm q0 = 1) (H0 : V3) :
    ∃ y : ℝ → Turn, y 0 = (0, q0, H0) ∧ ∀ t, HasDerivAt y (turnField Ji T (y t)) t ∧ (y t).1 = t ∧
      npNorm (y t).2.1 = 1 := by
  have hF : ∀ x ∈ (univ : Set Turn), ContDiffAt ℝ 1 (turnField Ji T) x := fun x _ =>
    (contDiff_turnField Ji hT).contDiffAt
  have win : ∀ t ∈ (univ : Set ℝ), ∃ a b y, a < 0 ∧ 0 < b ∧ t ∈ Ioo a b ∧ y 0 = (0, q0, H0) ∧
      Along (turnField Ji T) univ y a b := by
    intro t _
    set τ := |t| + 1 with hτ
    have hτ0 : 0 < τ := by positivity
    obtain ⟨C', hC'⟩ := hC τ
    set C := max C' 0
    have hC2 : ∀ p : Turn, |p.1| ≤ τ → npNorm p.2.1 = 1 → |p.2.2 ⬝ᵥ T p| ≤ C * (1 + npNorm p.2.2 ^ 2) := by
      intro p h1 h2
      refine (hC' p h1 h2).trans ?_
      have := sq_nonneg (npNorm p.2.2)
      gcongr
      exact le_max_left _ _
    have hC0 : 0 ≤ C := le_max_right _ _
    set R := (npNorm H0 ^ 2 + 1) * Real.exp (2 * C * τ) with hR
    have hR0 : 0 ≤ R := by positivity
    have inball : ∀ p : Turn, |p.1| ≤ τ → npNorm p.2.1 = 1 → npNorm p.2.2 ^ 2 + 1 ≤ R →
        p ∈ (Metric.closedBall (0 : ℝ) τ) ×ˢ (Metric.closedBall (0 : V4) 1) ×ˢ (Metric.closedBall (0 : V3) R) := by
      intro p h1 h2 h3
      refine ⟨?_, ?_, ?_⟩
      · rw [mem_closedBall_zero_iff]
        exact h1
      · rw [mem_closedBall_zero_iff, pi_norm_le_iff_of_nonneg zero_le_one]
        exact fun i => (abs_le_npNorm _ i).trans h2.le
      · rw [mem_closedBall_zero_iff, pi_norm_le_iff_of_nonneg hR0]
        intro i
        refine (abs_le_npNorm _ i).trans ?_
        nlinarith [sq_nonneg (npNorm p.2.2 - 1), npNorm_nonneg p.2.2]
    obtain ⟨y, h0, hy⟩ := along_extends hF isOpen_univ
      (K := (Metric.closedBall (0 : ℝ) τ) ×ˢ (Metric.closedBall (0 : V4) 1) ×ˢ (Metric.closedBall (0 : V3) R))
      ((isCompact_closedBall _ _).prod ((isCompact_closedBall _ _).prod (isCompact_closedBall _ _)))
      (subset_univ _) (x0 := (0, q0, H0)) (a := -τ) (b := τ)
      (inball _ (by simpa using hτ0.le) hq0 (by
        rw [hR]
        refine le_mul_of_one_le_right (by positivity) (Real.one_le_exp (by positivity))))
      (by linarith) hτ0 (by
        intro a' b' y h1 h2 h3 h4 h5 hy t ht
        obtain ⟨e1, e2, e3⟩ := turn_facts hC2 hq0 h1 h2 h3 h4 h5 hy t ht
        have ht' : |t| ≤ τ := abs_le.2 ⟨h1.trans ht.1.le, ht.2.le.trans h4⟩
        refine inball _ (by rw [e1]; exact ht') e2 (e3.trans ?_)
        rw [hR]
        gcongr)
    exact ⟨-τ, τ, y, by linarith, hτ0, abs_lt.1 (by rw [hτ]; linarith), h0, hy⟩
  obtain ⟨y, h0, hy⟩ := along_glue hF isOpen_univ (mem_univ _) win
  refine ⟨y, h0, fun t => ⟨(hy t (mem_univ _)).1, ?_⟩⟩
  obtain ⟨C, hC'⟩ := hC (|t| + 1)
  have hτ : (0 : ℝ) < |t| + 1 := by positivity
  obtain ⟨e1, e2, -⟩ := turn_facts hC' hq0 (a := -(|t| + 1)) (b := |t| + 1) le_rfl (by linarith) hτ le_rfl h0
    (fun s _ => hy s (mem_univ _)) t (abs_lt.1 (by linarith))
  exact ⟨e1, e2⟩

/-- A motion that starts as that one does and follows the same equations from then on is the same from then on. -/
theorem flow_unique_right {E : Type} [NormedAddCommGroup E] [NormedSpace ℝ E] {F : E → E} (hF : ContDiff ℝ 1 F)
    {y z : ℝ → E} (hy : ∀ t, HasDerivAt y (F (y t)) t) (hz : ∀ t, 0 ≤ t → HasDerivAt z (F (z t)) t)
    (h0 : y 0 = z 0) : ∀ t, 0 ≤ t → y t = z t := by
  set x : ℝ → E := fun t => if t < 0 then y t else z t with hx
  have xz : ∀ t, 0 ≤ t → x t = z t := fun t ht => by rw [hx]; exact if_neg (not_lt.2 ht)
  have xy : ∀ t, t ≤ 0 → x t = y t := fun t ht => by
    rcases ht.lt_or_eq with h | h
    · rw [hx]; exact if_pos h
    · rw [h, xz 0 le_rfl, h0]
  have dx : ∀ t, HasDerivAt x (F (x t)) t := by
    intro t
    rcases lt_trichotomy t 0 with h | h | h
    · rw [xy t h.le]
      refine (hy t).congr_of_eventuallyEq ?_
      filter_upwards [gt_mem_nhds h] with u hu
      exact xy u hu.le
    · have l : HasDerivWithinAt x (F (x t)) (Iic t) t := by
        rw [xy t h.le]
        exact (hy t).hasDerivWithinAt.congr (fun u hu => xy u (hu.trans h.le)) (xy t h.le)
      have r : HasDerivWithinAt x (F (x t)) (Ici t) t := by
        rw [xz t h.ge]
        exact (hz t h.ge).hasDerivWithinAt.congr (fun u hu => xz u (h.ge.trans hu)) (xz t h.ge)
      have := l.union r
      rwa [Iic_union_Ici, hasDerivWithinAt_univ] at this
    · rw [xz t h.le]
      refine (hz t h.le).congr_of_eventuallyEq ?_
      filter_upwards [lt_mem_nhds h] with u hu
      exact xz u hu.le
  intro t ht
  have := flow_unique (F := F) (y := y) (z := x) (lo := -1) (hi := t + 1) (t0 := 0)
    (fun s _ => hF.contDiffAt) (fun s _ => hy s) (fun s _ => dx s)
    ⟨by norm_num, by linarith⟩ (by rw [xy 0 le_rfl]) t ⟨by linarith, by linarith⟩
  rw [this, xz t ht]

end Adcs
