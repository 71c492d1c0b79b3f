import Verif.Props.Flae
import Verif.Props.Triad

set_option autoImplicit false

/-! # C143: when `flae` succeeds, and that the two attitude estimators agree -/

namespace Adcs

open Vec Quat AttEst Matrix

/-- A rotation is fixed by what it does to two directions. -/
theorem sandwich_two {p q : V4} (hp : npNorm p = 1) (hq : npNorm q = 1) {r1 r2 : V3} (hr : r1 ⨯₃ r2 ≠ 0)
    (h1 : sandwich q r1 = sandwich p r1) (h2 : sandwich q r2 = sandwich p r2) : q = p ∨ q = -p := by
  refine C06_sandwich_faithful q p hq hp fun v => ?_
  have h3 : sandwich q (r1 ⨯₃ r2) = sandwich p (r1 ⨯₃ r2) := by
    rw [sandwich_cross ((isUnit4_iff q).2 hq), sandwich_cross ((isUnit4_iff p).2 hp), h1, h2]
  set r3 := r1 ⨯₃ r2 with hr3
  have hdec : npDot r3 r3 • v = npDot v (r2 ⨯₃ r3) • r1 + npDot v (r3 ⨯₃ r1) • r2 + npDot v r3 • r3 := by
    rw [hr3]
    simp only [← npCross_eq_crossProduct]
    apply vec3_ext <;> simp [npDot3, npCross_0, npCross_1, npCross_2] <;> ring
  have key : npDot r3 r3 • sandwich q v = npDot r3 r3 • sandwich p v := by
    rw [← sandwich_smul, ← sandwich_smul, hdec]
    simp only [sandwich_add, sandwich_smul, h1, h2, h3]
  exact smul_right_injective _ (npDot_self_pos hr).ne' key

theorem unit_dot_le {u w : V3} (hu : npNorm u = 1) (hw : npNorm w = 1) : npDot u w ≤ 1 ∧ (npDot u w = 1 → u = w) := by
  have h1 := npNorm3_sq u
  have h2 := npNorm3_sq w
  rw [hu] at h1
  rw [hw] at h2
  rw [npDot3]
  constructor
  · nlinarith [sq_nonneg (u 0 - w 0), sq_nonneg (u 1 - w 1), sq_nonneg (u 2 - w 2)]
  · intro h
    have e : (u 0 - w 0) ^ 2 + (u 1 - w 1) ^ 2 + (u 2 - w 2) ^ 2 = 0 := by nlinarith
    apply vec3_ext
    · nlinarith [sq_nonneg (u 0 - w 0), sq_nonneg (u 1 - w 1), sq_nonneg (u 2 - w 2)]
    · nlinarith [sq_nonneg (u 0 - w 0), sq_nonneg (u 1 - w 1), sq_nonneg (u 2 - w 2)]
    · nlinarith [sq_nonneg (u 0 - w 0), sq_nonneg (u 1 - w 1), sq_nonneg (u 2 - w 2)]

theorem normalize_sandwich {p : V4} (hp : npNorm p = 1) {r : V3} (hr : r ≠ 0) :
    normalizeV (sandwich p r) = sandwich p (normalizeV r) := by
  have hn := (C06_sandwich_preserves p hp r 0).2.1
  have hs : sandwich p r ≠ 0 := by
    intro h0
    rw [h0, npNorm_eq_zero.2 rfl] at hn
    exact hr (npNorm_eq_zero.1 hn.symm)
  rw [normalize_eq hs, normalize_eq hr, hn, sandwich_smul]

/-- With exact observations, the gain of an attitude other than `p` is less than the sum of the weights. -/
theorem gain_lt {l : List (ℝ × V3 × V3)} {p q : V4} (hp : npNorm p = 1) (hq : npNorm q = 1)
    (ha : ∀ t ∈ l, 0 ≤ t.1) (hb : ∀ t ∈ l, t.2.1 ≠ 0 ∧ t.2.2 = sandwich p t.2.1)
    {t : ℝ × V3 × V3} (ht : t ∈ l) (hpos : 0 < t.1) (hne : sandwich q t.2.1 ≠ sandwich p t.2.1) :
    gain l q < (l.map fun t => t.1).sum := by
  have hu : ∀ t ∈ l, npNorm (normalizeV t.2.2) = 1 ∧ npNorm (sandwich q (normalizeV t.2.1)) = 1 := by
    intro t ht
    obtain ⟨h1, h2⟩ := hb t ht
    rw [h2, normalize_sandwich hp h1, (C06_sandwich_preserves p hp _ 0).2.1, (C06_sandwich_preserves q hq _ 0).2.1]
    exact ⟨npNorm_normalize h1, npNorm_normalize h1⟩
  unfold gain
  refine List.sum_lt_sum _ _ (fun t ht => ?_) ⟨t, ht, ?_⟩
  · have := (unit_dot_le (hu t ht).1 (hu t ht).2).1
    nlinarith [ha t ht]
  · have h := unit_dot_le (hu t ht).1 (hu t ht).2
    have hlt : npDot (normalizeV t.2.2) (sandwich q (normalizeV t.2.1)) < 1 := by
      refine lt_of_le_of_ne h.1 fun he => hne ?_
      have h3 := h.2 he
      obtain ⟨h1, h2⟩ := hb t ht
      rw [h2, normalize_sandwich hp h1, normalize_eq h1, sandwich_smul, sandwich_smul] at h3
      exact (smul_right_injective _ (by have := npNorm_pos h1; positivity) h3).symm
    nlinarith

/-- Elimination goes through when the form is negative on the vectors without a last component. -/
theorem nullVector_ok {W : Matrix (Fin 4) (Fin 4) ℝ} {lam : ℝ} (hs : W.IsSymm)
    (hneg : ∀ y : V4, y ≠ 0 → y 3 = 0 → y ⬝ᵥ (W *ᵥ y) < lam * (y ⬝ᵥ y)) : ∃ q, nullVector W lam = .ok q := by
  have s10 : W 1 0 = W 0 1 := hs.apply 0 1
  have s20 : W 2 0 = W 0 2 := hs.apply 0 2
  have s21 : W 2 1 = W 1 2 := hs.apply 1 2
  have hform : ∀ a b c : ℝ, (a ≠ 0 ∨ b ≠ 0 ∨ c ≠ 0) →
      (W 0 0 - lam) * a ^ 2 + (W 1 1 - lam) * b ^ 2 + (W 2 2 - lam) * c ^ 2 + 2 * W 0 1 * a * b + 2 * W 0 2 * a * c
        + 2 * W 1 2 * b * c < 0 := by
    intro a b c h
    have := hneg ![a, b, c, 0] (by
      intro h0
      rcases h with h | h | h
      · exact h (by simpa using congrFun h0 0)
      · exact h (by simpa using congrFun h0 1)
      · exact h (by simpa using congrFun h0 2)) rfl
    simp only [dotProduct, mulVec, Fin.sum_univ_four, Matrix.cons_val_zero, Matrix.cons_val_one, cons4_2, cons4_3,
      s10, s20, s21] at this
    linarith
  have p0 : W 0 0 - lam < 0 := by have := hform 1 0 0 (by simp); linarith
  set n00 := W 0 0 - lam with h00
  set n11 := W 1 1 - lam with h11
  set n22 := W 2 2 - lam with h22
  have p1 : n11 - W 0 1 * (W 0 1 / n00) < 0 := by
    have := hform (-(W 0 1 / n00)) 1 0 (by simp)
    have e : n00 * (-(W 0 1 / n00)) ^ 2 + n11 * 1 ^ 2 + n22 * 0 ^ 2 + 2 * W 0 1 * (-(W 0 1 / n00)) * 1
      + 2 * W 0 2 * (-(W 0 1 / n00)) * 0 + 2 * W 1 2 * 1 * 0 = n11 - W 0 1 * (W 0 1 / n00) := by
      have := p0.ne
      field_simp
      ring
    linarith
  set m11 := n11 - W 0 1 * (W 0 1 / n00) with hm11
  set m12 := W 1 2 - W 0 1 * (W 0 2 / n00) with hm12
  have p2 : n22 - W 0 2 * (W 0 2 / n00) - m12 * (m12 / m11) < 0 := by
    have := hform (-((W 0 2 - m12 / m11 * W 0 1) / n00)) (-(m12 / m11)) 1 (by simp)
    have e : n00 * (-((W 0 2 - m12 / m11 * W 0 1) / n00)) ^ 2 + n11 * (-(m12 / m11)) ^ 2 + n22 * 1 ^ 2
        + 2 * W 0 1 * (-((W 0 2 - m12 / m11 * W 0 1) / n00)) * (-(m12 / m11))
        + 2 * W 0 2 * (-((W 0 2 - m12 / m11 * W 0 1) / n00)) * 1 + 2 * W 1 2 * (-(m12 / m11)) * 1
        = n22 - W 0 2 * (W 0 2 / n00) - m12 * (m12 / m11) := by
      have hn : n11 = m11 + W 0 1 * (W 0 1 / n00) := by rw [hm11]; ring
      have hw : W 1 2 = m12 + W 0 1 * (W 0 2 / n00) := by rw [hm12]; ring
      rw [hn, hw]
      have h0 := p0.ne
      have h1 := p1.ne
      clear_value m11 m12 n00
      field_simp
      ring
    linarith
  unfold nullVector
  have c00 : charRows W lam 0 0 = n00 := by simp [charRows, h00]
  have e1 : pivotStep (charRows W lam) 0 = .ok fun j => if j = 0 then (fun c => charRows W lam 0 c / n00)
      else fun c => charRows W lam j c - charRows W lam j 0 * (charRows W lam 0 c / n00) := by
    rw [pivotStep, c00, if_neg p0.ne]
  rw [e1]
  simp only [bind, Except.bind]
  set N1 : Fin 4 → V4 := fun j => if j = 0 then (fun c => charRows W lam 0 c / n00)
      else fun c => charRows W lam j c - charRows W lam j 0 * (charRows W lam 0 c / n00) with hN1
  have d11 : N1 1 1 = m11 := by simp [hN1, charRows, hm11, h11, s10]
  have d12 : N1 1 2 = m12 := by simp [hN1, charRows, hm12, s10]
  have d21 : N1 2 1 = m12 := by simp [hN1, charRows, hm12, s20, s21]; ring
  have d22 : N1 2 2 = n22 - W 0 2 * (W 0 2 / n00) := by simp [hN1, charRows, h22, s20]
  have e2 : pivotStep N1 1 = .ok fun j => if j = 1 then (fun c => N1 1 c / m11)
      else fun c => N1 j c - N1 j 1 * (N1 1 c / m11) := by
    rw [pivotStep, d11, if_neg p1.ne]
  rw [e2]
  dsimp only
  set N2 : Fin 4 → V4 := fun j => if j = 1 then (fun c => N1 1 c / m11)
      else fun c => N1 j c - N1 j 1 * (N1 1 c / m11) with hN2
  have d : N2 2 2 ≠ 0 := by
    have : N2 2 2 = n22 - W 0 2 * (W 0 2 / n00) - m12 * (m12 / m11) := by simp [hN2, d12, d21, d22]
    rw [this]; exact p2.ne
  rw [pivotStep, if_neg d]
  exact ⟨_, rfl⟩

theorem flaeRoot_exact {l : List (ℝ × V3 × V3)} {p : V4} (hp : npNorm p = 1) (hw : (l.map fun t => t.1).sum = 1)
    (hb : ∀ t ∈ l, t.2.1 ≠ 0 ∧ t.2.2 = sandwich p t.2.1) : flaeRoot l = .ok 1 := by
  rw [← isUnit4_iff] at hp
  have hW := wMat_hMat_exact hp hb
  rw [hw, one_smul] at hW
  have h0 : quartic 1 (tau1 (hMat l 0) (hMat l 1) (hMat l 2))
      (tau2 (hMat l 0) (hMat l 1) (hMat l 2)) (tau3 (hMat l 0) (hMat l 1) (hMat l 2)) = 0 := by
    rw [← det_wMat]
    apply exists_mulVec_eq_zero_iff.1
    refine ⟨p, ?_, ?_⟩
    · rintro rfl; simp [IsUnit4] at hp
    · rw [sub_mulVec, hW]; simp
  rw [flaeRoot, newton, if_pos h0]

/-- With exact observations of an attitude `p`, non-negative weights summing to one, and two observations of
positive weight in different directions, `flae` returns `p` up to sign, unless the last component of `p` is zero;
then it returns nothing. -/
theorem C143_flae {l : List (ℝ × V3 × V3)} {p : V4} (hp : npNorm p = 1) (ha : ∀ t ∈ l, 0 ≤ t.1)
    (hw : (l.map fun t => t.1).sum = 1) (hb : ∀ t ∈ l, t.2.1 ≠ 0 ∧ t.2.2 = sandwich p t.2.1)
    (h2 : ∃ t ∈ l, ∃ t' ∈ l, 0 < t.1 ∧ 0 < t'.1 ∧ t.2.1 ⨯₃ t'.2.1 ≠ 0) :
    if p 3 = 0 then ∀ q, flae l ≠ .ok q else ∃ q, flae l = .ok q ∧ (q = p ∨ q = -p) := by
  split_ifs with h3
  · exact C21_flae_fails_without_roll hp h3 hw hb
  obtain ⟨q, hq⟩ : ∃ q, nullVector (wMat (hMat l 0) (hMat l 1) (hMat l 2)) 1 = .ok q := by
    refine nullVector_ok (wMat_isHermitian _ _ _) fun y hy hy3 => ?_
    -- the unit vector along `y` is not an attitude that explains the observations
    have hn := npNorm_pos hy
    set u : V4 := (npNorm y)⁻¹ • y with hu
    have hu1 : npNorm u = 1 := by rw [hu, ← normalize_eq hy]; exact npNorm_normalize hy
    have hyu : y = npNorm y • u := by rw [hu, smul_smul, mul_inv_cancel₀ hn.ne', one_smul]
    have hup : ¬ (u = p ∨ u = -p) := by
      rintro (h | h)
      · apply h3; rw [← h, hu]; simp [hy3]
      · apply h3
        have : u 3 = -p 3 := by rw [h]; rfl
        rw [hu] at this
        simp [hy3] at this
        exact this
    have hlt : gain l u < 1 := by
      obtain ⟨t, ht, t', ht', p1, p2, hne⟩ := h2
      rw [← hw]
      by_cases e1 : sandwich u t.2.1 = sandwich p t.2.1
      · refine gain_lt hp hu1 ha hb ht' p2 fun e2 => hup (sandwich_two hp hu1 hne e1 e2)
      · exact gain_lt hp hu1 ha hb ht p1 e1
    rw [← form_hMat] at hlt
    have e : y ⬝ᵥ (wMat (hMat l 0) (hMat l 1) (hMat l 2) *ᵥ y)
        = npNorm y ^ 2 * (u ⬝ᵥ (wMat (hMat l 0) (hMat l 1) (hMat l 2) *ᵥ u)) := by
      conv_lhs => rw [hyu]
      rw [mulVec_smul, smul_dotProduct, dotProduct_smul]
      simp only [smul_eq_mul]; ring
    have e2 : y ⬝ᵥ y = npNorm y ^ 2 := (npNorm_sq_dot y).symm
    rw [e, e2, one_mul]
    have : 0 < npNorm y ^ 2 := by positivity
    have hlt' : u ⬝ᵥ (wMat (hMat l 0) (hMat l 1) (hMat l 2) *ᵥ u) < 1 := hlt
    nlinarith
  have hf : flae l = .ok q := flae_eq_ok.2 ⟨1, flaeRoot_exact hp hw hb, hq⟩
  exact ⟨q, hf, C21_flae_exact hp hw hb hf⟩

/-- On exact observations `triad_algorithm` and `flae` return the same attitude (up to the sign of the
quaternion), outside of the cases in which one of them breaks down. -/
theorem C143_agree {l : List (ℝ × V3 × V3)} {p : V4} (hp : npNorm p = 1) (h3 : p 3 ≠ 0) (ha : ∀ t ∈ l, 0 ≤ t.1)
    (hw : (l.map fun t => t.1).sum = 1) (hb : ∀ t ∈ l, t.2.1 ≠ 0 ∧ t.2.2 = sandwich p t.2.1)
    {a1 a2 : ℝ} {r1 r2 b1 b2 : V3} (h1 : (a1, r1, b1) ∈ l) (h2 : (a2, r2, b2) ∈ l) (hp1 : 0 < a1) (hp2 : 0 < a2)
    (hr : r1 ⨯₃ r2 ≠ 0) (hn : npNorm r1 = 1) (hne : b1 ≠ -r1) :
    ∃ q q', triad r1 r2 b1 b2 = .ok (some q) ∧ flae l = .ok q' ∧ (q' = q ∨ q' = -q) ∧
      ∀ v, sandwich q' v = sandwich q v := by
  have e1 : b1 = sandwich p r1 := (hb _ h1).2
  have e2 : b2 = sandwich p r2 := (hb _ h2).2
  obtain ⟨q, hq, hqp⟩ := C19_triad_exact r1 r2 p hp hn (by rw [← e1]; exact hne) hr
  have hf := C143_flae hp ha hw hb ⟨_, h1, _, h2, hp1, hp2, hr⟩
  rw [if_neg h3] at hf
  obtain ⟨q', hq', hqp'⟩ := hf
  have hs : q' = q ∨ q' = -q := by
    rcases hqp with rfl | rfl <;> rcases hqp' with rfl | rfl <;> simp
  refine ⟨q, q', by rw [e1, e2]; exact hq, hq', hs, fun v => ?_⟩
  rcases hs with rfl | rfl
  · rfl
  · apply vec3_ext <;> simp [sandwich_0, sandwich_1, sandwich_2]

theorem flae_congr {l l' : List (ℝ × V3 × V3)} (h : ∀ i, hMat l i = hMat l' i) : flae l = flae l' := by
  unfold flae
  simp only [h]

/-- The order of the observations does not matter. -/
theorem C143_order {l l' : List (ℝ × V3 × V3)} (h : l.Perm l') : flae l = flae l' := by
  refine flae_congr fun i => funext fun j => ?_
  simp only [hMat, sumAcross, hats]
  exact ((h.map _).map _).sum_eq

/-- The lengths of the observed vectors do not matter. -/
theorem C143_scale {l : List (ℝ × V3 × V3)} (f g : ℝ × V3 × V3 → ℝ) (hf : ∀ t, 0 < f t) (hg : ∀ t, 0 < g t) :
    flae (l.map fun t => (t.1, f t • t.2.1, g t • t.2.2)) = flae l := by
  have hn : ∀ (c : ℝ) (x : V3), 0 < c → normalizeV (c • x) = normalizeV x := by
    intro c x hc
    by_cases hx : x = 0
    · rw [hx, smul_zero]
    · rw [normalize_eq hx, normalize_eq (smul_ne_zero hc.ne' hx), npNorm_smul, abs_of_pos hc, smul_smul]
      congr 1
      have := (npNorm_pos hx).ne'
      field_simp
  refine flae_congr fun i => funext fun j => ?_
  simp only [hMat, sumAcross, hats, List.map_map]
  congr 1
  refine List.map_congr_left fun t _ => ?_
  simp only [Function.comp, hn _ _ (hf t), hn _ _ (hg t)]

/-- Two directions seen after the cyclic permutation of the axes. -/
example : ∃ (l : List (ℝ × V3 × V3)) (p : V4), npNorm p = 1 ∧ p 3 ≠ 0 ∧ (∀ t ∈ l, 0 ≤ t.1) ∧
    (l.map fun t => t.1).sum = 1 ∧ (∀ t ∈ l, t.2.1 ≠ 0 ∧ t.2.2 = sandwich p t.2.1) ∧
    ∃ t ∈ l, ∃ t' ∈ l, 0 < t.1 ∧ 0 < t'.1 ∧ t.2.1 ⨯₃ t'.2.1 ≠ 0 ∧ npNorm t.2.1 = 1 ∧ t.2.2 ≠ -t.2.1 := by
  refine ⟨flaeSample, ![1/2, 1/2, 1/2, 1/2], npNorm_vec4 (by norm_num), by simp, ?_, by simp [flaeSample]; norm_num,
    flaeSample_hb, (1/3, ![1, 0, 0], ![0, 0, 1]), by simp [flaeSample], (1/3, ![0, 1, 0], ![1, 0, 0]),
    by simp [flaeSample], by norm_num, by norm_num, ?_, npNorm_vec3 (by norm_num), ?_⟩
  · intro t ht
    simp only [flaeSample, List.mem_cons, List.not_mem_nil, or_false] at ht
    rcases ht with rfl | rfl | rfl <;> norm_num
  · intro h; have := congrFun h 2; simp [cross_apply] at this
  · intro h; have := congrFun h 0; simp at this

end Adcs
