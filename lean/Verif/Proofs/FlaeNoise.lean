import Verif.Proofs.Flae

set_option autoImplicit false

/-! # Lemmas about `flae` on observations that do not agree: Newton's method, elimination, and the spectrum -/

namespace Adcs.AttEst

open Adcs Vec Quat Matrix

/-! ### Newton's method from above the largest of four real roots -/

section
variable {l0 l1 l2 l3 t1 t2 t3 : ℝ}

theorem quartic_roots (hf : ∀ x, quartic x t1 t2 t3 = (x - l0) * (x - l1) * (x - l2) * (x - l3)) :
    l0 + l1 + l2 + l3 = 0 ∧ ∀ x, quarticDeriv x t1 t2 t3 = (x - l1) * (x - l2) * (x - l3)
      + (x - l0) * ((x - l2) * (x - l3) + (x - l1) * (x - l3) + (x - l1) * (x - l2)) := by
  have a0 := hf 0
  have a1 := hf 1
  have a2 := hf (-1)
  have a3 := hf 2
  simp only [quartic] at a0 a1 a2 a3
  have e1 : l0 + l1 + l2 + l3 = 0 := by linear_combination (1/6) * a3 - (1/2) * a1 + (1/2) * a0 - (1/6) * a2
  refine ⟨e1, fun x => ?_⟩
  simp only [quarticDeriv]
  have e2 : t1 = l0*l1+l0*l2+l0*l3+l1*l2+l1*l3+l2*l3 := by linear_combination (1/2) * a1 + (1/2) * a2 - a0
  have e3 : t2 = -(l0*l1*l2+l0*l1*l3+l0*l2*l3+l1*l2*l3) := by linear_combination (1/2) * a1 - (1/2) * a2 - e1
  rw [e2, e3]
  linear_combination -3 * x^2 * (-e1)

/-- One step of Newton's method from `e` above the largest root, when the other roots are lower by at least `d`. -/
theorem newton_step (hf : ∀ x, quartic x t1 t2 t3 = (x - l0) * (x - l1) * (x - l2) * (x - l3)) {d : ℝ} (hd : 0 ≤ d)
    (h1 : l1 ≤ l0 - d) (h2 : l2 ≤ l0 - d) (h3 : l3 ≤ l0 - d) {x : ℝ} (hx : l0 < x) :
    quartic x t1 t2 t3 ≠ 0 ∧ 0 < quarticDeriv x t1 t2 t3 ∧
    (x - l0) / 4 ≤ quartic x t1 t2 t3 / quarticDeriv x t1 t2 t3 ∧
    quartic x t1 t2 t3 / quarticDeriv x t1 t2 t3 < x - l0 ∧
    x - quartic x t1 t2 t3 / quarticDeriv x t1 t2 t3 - l0 ≤ 3 * (x - l0) ^ 2 / (4 * (x - l0) + d) := by
  rw [hf, (quartic_roots hf).2, sub_right_comm x _ l0]
  have p0 : 0 < x - l0 := by linarith
  have q1 : x - l0 + d ≤ x - l1 := by linarith
  have q2 : x - l0 + d ≤ x - l2 := by linarith
  have q3 : x - l0 + d ≤ x - l3 := by linarith
  have p1 : 0 < x - l1 := by linarith
  have p2 : 0 < x - l2 := by linarith
  have p3 : 0 < x - l3 := by linarith
  generalize x - l0 = e at *
  generalize x - l1 = a at *
  generalize x - l2 = b at *
  generalize x - l3 = c at *
  have hD : 0 < a * b * c + e * (b * c + a * c + a * b) := by positivity
  have k1 : (e + d) * (b * c) ≤ a * b * c := by nlinarith [mul_pos p2 p3]
  have k2 : (e + d) * (a * c) ≤ a * b * c := by nlinarith [mul_pos p1 p3]
  have k3 : (e + d) * (a * b) ≤ a * b * c := by nlinarith [mul_pos p1 p2]
  have hQ : (e + d) * (b * c + a * c + a * b) ≤ 3 * (a * b * c) := by linarith
  have hQ0 : 0 < b * c + a * c + a * b := by positivity
  set P := a * b * c with hP
  set Q := b * c + a * c + a * b with hQdef
  have hP0 : 0 < P := by positivity
  have hN : e * a * b * c = e * P := by rw [hP]; ring
  rw [hN]
  refine ⟨by positivity, hD, ?_, ?_, ?_⟩
  · rw [le_div_iff₀ hD]
    nlinarith [mul_nonneg hd hQ0.le]
  · rw [div_lt_iff₀ hD]
    nlinarith [mul_pos p0 hQ0]
  · have he : e - e * P / (P + e * Q) = e ^ 2 * Q / (P + e * Q) := by
      field_simp
      ring
    rw [he, div_le_div_iff₀ hD (by positivity)]
    have : 0 ≤ e ^ 2 * (3 * P - (e + d) * Q) := by
      have : 0 ≤ 3 * P - (e + d) * Q := by linarith
      positivity
    nlinarith

/-- Where Newton's method stops it is close to the largest root, and above it unless it began there. -/
theorem newton_close (hf : ∀ x, quartic x t1 t2 t3 = (x - l0) * (x - l1) * (x - l2) * (x - l3)) {d : ℝ} (hd : 0 < d)
    (h1 : l1 ≤ l0 - d) (h2 : l2 ≤ l0 - d) (h3 : l3 ≤ l0 - d) (n : ℕ) {x0 lam : ℝ} (hx : l0 ≤ x0) (hx1 : x0 ≤ 1)
    (h0 : 0 ≤ l0)
    (hn : newton (fun x => quartic x t1 t2 t3) (fun x => quarticDeriv x t1 t2 t3) 1.48e-8 0.00001 n x0 = .ok lam) :
    lam - l0 ≤ 5e-9 / d ∧ (l0 < x0 → l0 < lam) ∧ (x0 = l0 → lam = l0) := by
  induction n generalizing x0 with
  | zero => simp [newton] at hn
  | succ n ih =>
    unfold newton at hn
    rcases hx.lt_or_eq with hgt | heq
    · obtain ⟨s1, s2, s3, s4, s5⟩ := newton_step hf hd.le h1 h2 h3 hgt
      simp only [if_neg s1, if_neg s2.ne'] at hn
      set N := quartic x0 t1 t2 t3 / quarticDeriv x0 t1 t2 t3 with hN
      have hN0 : 0 < N := by linarith
      split_ifs at hn with hc
      · simp only [Except.ok.injEq] at hn
        rw [← hn]
        refine ⟨?_, fun _ => by linarith, fun h => by linarith⟩
        rw [show x0 - N - x0 = -N by ring, abs_neg, abs_of_pos hN0, abs_of_nonneg (by linarith)] at hc
        have he : x0 - l0 ≤ 4.00592e-5 := by norm_num at hc ⊢; linarith
        refine s5.trans ?_
        have hp : 0 < 4 * (x0 - l0) + d := by linarith
        rw [div_le_div_iff₀ hp hd]
        have e2 : (x0 - l0) ^ 2 ≤ 4.00592e-5 ^ 2 := by
          apply pow_le_pow_left₀ (by linarith) he
        have : 3 * (x0 - l0) ^ 2 ≤ 5e-9 := by norm_num at e2 ⊢; linarith
        nlinarith
      · obtain ⟨i1, i2, i3⟩ := ih (by linarith : l0 ≤ x0 - N) (by linarith) hn
        exact ⟨i1, fun _ => i2 (by linarith), fun h => by linarith⟩
    · have hz : quartic x0 t1 t2 t3 = 0 := by rw [hf, ← heq]; ring
      simp only [hz, if_true, Except.ok.injEq] at hn
      have : (0 : ℝ) ≤ 5e-9 / d := by positivity
      refine ⟨by linarith, fun h => by linarith, fun _ => by linarith⟩

theorem newton_next (hf : ∀ x, quartic x t1 t2 t3 = (x - l0) * (x - l1) * (x - l2) * (x - l3)) {d : ℝ} (hd : 0 < d)
    (h1 : l1 ≤ l0 - d) (h2 : l2 ≤ l0 - d) (h3 : l3 ≤ l0 - d) (n : ℕ) {E : ℝ}
    (H : ∀ x, l0 ≤ x → x - l0 ≤ 3 * E ^ 2 / (4 * E + d) → ∃ lam,
      newton (fun x => quartic x t1 t2 t3) (fun x => quarticDeriv x t1 t2 t3) 1.48e-8 0.00001 n x = .ok lam)
    {x0 : ℝ} (hx : l0 ≤ x0) (hE : x0 - l0 ≤ E) : ∃ lam,
      newton (fun x => quartic x t1 t2 t3) (fun x => quarticDeriv x t1 t2 t3) 1.48e-8 0.00001 (n + 1) x0 = .ok lam := by
  unfold newton
  rcases hx.lt_or_eq with hgt | heq
  · obtain ⟨s1, s2, s3, s4, s5⟩ := newton_step hf hd.le h1 h2 h3 hgt
    simp only [if_neg s1, if_neg s2.ne']
    split_ifs with hc
    · exact ⟨_, rfl⟩
    · refine H _ (by linarith) (s5.trans ?_)
      have p0 : 0 < x0 - l0 := by linarith
      have p1 : 0 < E := by linarith
      rw [div_le_div_iff₀ (by positivity) (by positivity)]
      have : 0 ≤ (E - (x0 - l0)) * (4 * E * (x0 - l0) + d * (E + (x0 - l0))) :=
        mul_nonneg (by linarith) (by positivity)
      nlinarith
  · have hz : quartic x0 t1 t2 t3 = 0 := by rw [hf, ← heq]; ring
    exact ⟨x0, by simp [hz]⟩

/-- Four steps are enough when the largest root is below 1 by at most a tenth of its distance to the others. -/
theorem newton_returns (hf : ∀ x, quartic x t1 t2 t3 = (x - l0) * (x - l1) * (x - l2) * (x - l3)) {d : ℝ} (hd : 0 < d)
    (h1 : l1 ≤ l0 - d) (h2 : l2 ≤ l0 - d) (h3 : l3 ≤ l0 - d) (hx : l0 ≤ 1) (hE : 1 - l0 ≤ d / 10) : ∃ lam,
      newton (fun x => quartic x t1 t2 t3) (fun x => quarticDeriv x t1 t2 t3) 1.48e-8 0.00001 4 1 = .ok lam := by
  have hs := (quartic_roots hf).1
  have hl : d ≤ 4 / 3 * l0 := by linarith
  have key : ∀ {E k k' : ℝ}, 0 < k → E = k * d → 3 * k ^ 2 ≤ k' * (4 * k + 1) → 3 * E ^ 2 / (4 * E + d) ≤ k' * d := by
    intro E k k' hk hE h
    have hp : 0 < 4 * E + d := by rw [hE]; positivity
    rw [div_le_iff₀ hp, hE]
    have : 0 ≤ d ^ 2 * (k' * (4 * k + 1) - 3 * k ^ 2) := mul_nonneg (by positivity) (by linarith)
    nlinarith
  refine newton_next hf hd h1 h2 h3 3 (E := 1 / 10 * d) (fun x hx hE => ?_) hx (by linarith)
  refine newton_next hf hd h1 h2 h3 2 (E := 0.0215 * d) (fun x hx hE => ?_) hx
    (hE.trans (key (k := 1 / 10) (by norm_num) rfl (by norm_num)))
  refine newton_next hf hd h1 h2 h3 1 (E := 0.0013 * d) (fun x hx hE => ?_) hx
    (hE.trans (key (k := 0.0215) (by norm_num) rfl (by norm_num)))
  have hE' := hE.trans (key (k := 0.0013) (k' := 5.1e-6) (by norm_num) rfl (by norm_num))
  unfold newton
  rcases hx.lt_or_eq with hgt | heq
  · obtain ⟨s1, s2, s3, s4, s5⟩ := newton_step hf hd.le h1 h2 h3 hgt
    simp only [if_neg s1, if_neg s2.ne']
    rw [if_pos]
    · exact ⟨_, rfl⟩
    · rw [show ∀ a b : ℝ, a - b - a = -b by intro a b; ring, abs_neg, abs_of_pos (by linarith),
        abs_of_nonneg (by linarith)]
      norm_num at hE' ⊢
      linarith
  · have hz : quartic x t1 t2 t3 = 0 := by rw [hf, ← heq]; ring
    exact ⟨x, by simp [hz]⟩

end

/-! ### Elimination -/

theorem pivotStep_back {N N' : Fin 4 → V4} {k : Fin 4} (h : pivotStep N k = .ok N') (hk : k ≠ 3) {y : V4}
    (hy : ∀ i, i ≠ 3 → N' i ⬝ᵥ y = 0) (i : Fin 4) (hi : i ≠ 3) : N i ⬝ᵥ y = 0 := by
  unfold pivotStep at h
  split_ifs at h with hkk
  simp only [Except.ok.injEq] at h
  subst h
  have hrow : (fun c => N k c / N k k) ⬝ᵥ y = 0 := by simpa using hy k hk
  have hNk : N k ⬝ᵥ y = 0 := by
    have : N k = N k k • (fun c => N k c / N k k) := by
      funext c; simp only [Pi.smul_apply, smul_eq_mul]; field_simp
    rw [this, smul_dotProduct, hrow, smul_zero]
  by_cases hik : i = k
  · rw [hik, hNk]
  · have := hy i hi
    simp only [if_neg hik] at this
    have e : N i = (fun c => N i c - N i k * (N k c / N k k)) + N i k • (fun c => N k c / N k k) := by
      funext c; simp
    rw [e, add_dotProduct, smul_dotProduct, hrow, this]; simp

/-- What the elimination returns satisfies the first three equations, for any `lam`. -/
theorem nullVector_rows {W : Matrix (Fin 4) (Fin 4) ℝ} {lam : ℝ} {q : V4} (h : nullVector W lam = .ok q) :
    ∀ i, i ≠ 3 → (W *ᵥ q) i = lam * q i := by
  unfold nullVector at h
  cases h1 : pivotStep (charRows W lam) 0 with
  | error e => rw [h1] at h; exact absurd h (by simp [bind, Except.bind])
  | ok N1 =>
  cases h2 : pivotStep N1 1 with
  | error e => rw [h1] at h; simp only [bind, Except.bind, h2] at h; exact absurd h (by simp)
  | ok N2 =>
  cases h3 : pivotStep N2 2 with
  | error e => rw [h1] at h; simp only [bind, Except.bind, h2, h3] at h; exact absurd h (by simp)
  | ok N3 =>
  rw [h1] at h
  simp only [bind, Except.bind, h2, h3, pure, Except.pure, Except.ok.injEq] at h
  have hne : (![N3 0 3, N3 1 3, N3 2 3, -1] : V4) ≠ 0 := by
    intro h0; simpa using congrFun h0 3
  have c0 := pivotStep_col' h3 (c := 0) (by decide) (pivotStep_col' h2 (c := 0) (by decide) (pivotStep_col h1))
  have c1 := pivotStep_col' h3 (c := 1) (by decide) (pivotStep_col h2)
  have c2 := pivotStep_col h3
  have k3 : ∀ i, i ≠ 3 → N3 i ⬝ᵥ q = 0 := by
    intro i hi
    rw [← h, normalize_eq hne, dotProduct_smul]
    suffices N3 i ⬝ᵥ ![N3 0 3, N3 1 3, N3 2 3, -1] = 0 by rw [this, smul_zero]
    simp only [dotProduct, Fin.sum_univ_four, c0, c1, c2]
    fin_cases i
    · simp
    · simp
    · simp
    · exact absurd rfl hi
  have k0 := pivotStep_back h1 (by decide) (pivotStep_back h2 (by decide) (pivotStep_back h3 (by decide) k3))
  intro i hi
  have := k0 i hi
  simp only [charRows, dotProduct, sub_mul, Finset.sum_sub_distrib] at this
  simp only [mulVec, dotProduct]
  have e : ∑ x, (if i = x then lam else 0) * q x = lam * q i := by simp
  linarith

/-- The sign of the last component. -/
theorem nullVector_neg {W : Matrix (Fin 4) (Fin 4) ℝ} {lam : ℝ} {q : V4} (h : nullVector W lam = .ok q) : q 3 < 0 := by
  unfold nullVector at h
  cases h1 : pivotStep (charRows W lam) 0 with
  | error e => rw [h1] at h; exact absurd h (by simp [bind, Except.bind])
  | ok N1 =>
  cases h2 : pivotStep N1 1 with
  | error e => rw [h1] at h; simp only [bind, Except.bind, h2] at h; exact absurd h (by simp)
  | ok N2 =>
  cases h3 : pivotStep N2 2 with
  | error e => rw [h1] at h; simp only [bind, Except.bind, h2, h3] at h; exact absurd h (by simp)
  | ok N3 =>
  rw [h1] at h
  simp only [bind, Except.bind, h2, h3, pure, Except.pure, Except.ok.injEq] at h
  have hne : (![N3 0 3, N3 1 3, N3 2 3, -1] : V4) ≠ 0 := by
    intro h0; simpa using congrFun h0 3
  rw [← h, normalize_eq hne]
  have := npNorm_pos hne
  simpa using this

/-! ### The spectrum of a symmetric matrix -/

theorem symm_dot {W : Matrix (Fin 4) (Fin 4) ℝ} (hs : W.IsSymm) (x y : V4) : x ⬝ᵥ (W *ᵥ y) = (W *ᵥ x) ⬝ᵥ y := by
  rw [dotProduct_mulVec, ← mulVec_transpose, hs.eq]

/-- The eigenvectors, as functions. -/
theorem eigenbasis {W : Matrix (Fin 4) (Fin 4) ℝ} (hA : W.IsHermitian) : ∃ v : Fin 4 → V4,
    (∀ i j, v i ⬝ᵥ v j = if i = j then 1 else 0) ∧ ∀ i, W *ᵥ v i = hA.eigenvalues i • v i := by
  refine ⟨fun i => ⇑(hA.eigenvectorBasis i), fun i j => ?_, fun i => hA.mulVec_eigenvectorBasis i⟩
  have := (orthonormal_iff_ite.1 hA.eigenvectorBasis.orthonormal) j i
  rw [EuclideanSpace.inner_eq_star_dotProduct] at this
  simp only [eq_comm] at this ⊢
  simpa using this

/-- If the form is at most `m` on the unit vectors across `p`, all eigenvalues but the largest are at most `m`. -/
theorem eigenvalue_le {W : Matrix (Fin 4) (Fin 4) ℝ} (hA : W.IsHermitian) {p : V4} {m : ℝ}
    (hm : ∀ y : V4, y ⬝ᵥ y = 1 → y ⬝ᵥ p = 0 → y ⬝ᵥ (W *ᵥ y) ≤ m) {i : Fin 4}
    (hi : ∀ j, hA.eigenvalues j ≤ hA.eigenvalues i) {j : Fin 4} (hj : j ≠ i) : hA.eigenvalues j ≤ m := by
  obtain ⟨v, ho, hv⟩ := eigenbasis hA
  have hii : v i ⬝ᵥ v i = 1 := by rw [ho, if_pos rfl]
  have hjj : v j ⬝ᵥ v j = 1 := by rw [ho, if_pos rfl]
  have hij : v i ⬝ᵥ v j = 0 := by rw [ho, if_neg hj.symm]
  have hji : v j ⬝ᵥ v i = 0 := by rw [ho, if_neg hj]
  have form : ∀ a b : ℝ, (a • v i + b • v j) ⬝ᵥ (W *ᵥ (a • v i + b • v j))
      = a ^ 2 * hA.eigenvalues i + b ^ 2 * hA.eigenvalues j := by
    intro a b
    simp only [mulVec_add, mulVec_smul, hv, add_dotProduct, dotProduct_add, smul_dotProduct, dotProduct_smul, hii, hjj,
      hij, hji, smul_eq_mul]
    ring
  by_cases h0 : v j ⬝ᵥ p = 0
  · have := hm (v j) hjj h0
    rw [hv, dotProduct_smul, hjj] at this
    simpa using this
  · set s := v i ⬝ᵥ p with hs
    set t := v j ⬝ᵥ p with ht
    have hr : 0 < t ^ 2 + s ^ 2 := by positivity
    set r := Real.sqrt (t ^ 2 + s ^ 2) with hrdef
    have hr0 : 0 < r := Real.sqrt_pos.2 hr
    have hr2 : r ^ 2 = t ^ 2 + s ^ 2 := Real.sq_sqrt hr.le
    have := hm ((t / r) • v i + (-s / r) • v j) (by
      simp only [add_dotProduct, dotProduct_add, smul_dotProduct, dotProduct_smul, hii, hjj, hij, hji, smul_eq_mul]
      field_simp
      linarith) (by
      simp only [add_dotProduct, smul_dotProduct, ← hs, ← ht, smul_eq_mul]
      field_simp
      ring)
    rw [form] at this
    have e : (t / r) ^ 2 + (-s / r) ^ 2 = 1 := by
      field_simp
      linarith
    have h5 : hA.eigenvalues j = (t / r) ^ 2 * hA.eigenvalues j + (-s / r) ^ 2 * hA.eigenvalues j := by
      rw [← add_mul, e, one_mul]
    have h6 := mul_le_mul_of_nonneg_left (hi j) (sq_nonneg (t / r))
    linarith

/-- A vector at which the form is as large as the largest eigenvalue is an eigenvector. -/
theorem eigen_of_max {W : Matrix (Fin 4) (Fin 4) ℝ} (hs : W.IsSymm) {u : V4} {mu : ℝ}
    (hm : ∀ y : V4, y ⬝ᵥ (W *ᵥ y) ≤ mu * (y ⬝ᵥ y)) (hu : mu * (u ⬝ᵥ u) ≤ u ⬝ᵥ (W *ᵥ u)) : W *ᵥ u = mu • u := by
  set z := mu • u - W *ᵥ u with hz
  suffices z ⬝ᵥ z = 0 by
    have h0 : z = 0 := dotProduct_self_eq_zero.1 this
    rw [hz, sub_eq_zero] at h0
    exact h0.symm
  by_contra hne
  have hzz : 0 < z ⬝ᵥ z := lt_of_le_of_ne (by simp only [dotProduct]; exact Finset.sum_nonneg fun i _ => mul_self_nonneg _)
    (Ne.symm hne)
  set c := mu * (z ⬝ᵥ z) - z ⬝ᵥ (W *ᵥ z) with hc
  have hc0 : 0 ≤ c := by have := hm z; linarith
  have key : ∀ t : ℝ, 0 ≤ -(2 * t * (z ⬝ᵥ z)) + t ^ 2 * c := by
    intro t
    have h := hm (u - t • z)
    have e1 : (u - t • z) ⬝ᵥ (W *ᵥ (u - t • z)) = u ⬝ᵥ (W *ᵥ u) - 2 * t * (z ⬝ᵥ (W *ᵥ u)) + t ^ 2 * (z ⬝ᵥ (W *ᵥ z)) := by
      have := symm_dot hs u z
      rw [dotProduct_comm (W *ᵥ u)] at this
      simp only [mulVec_sub, mulVec_smul, sub_dotProduct, dotProduct_sub, smul_dotProduct, dotProduct_smul, smul_eq_mul,
        this]
      ring
    have e2 : (u - t • z) ⬝ᵥ (u - t • z) = u ⬝ᵥ u - 2 * t * (z ⬝ᵥ u) + t ^ 2 * (z ⬝ᵥ z) := by
      simp only [sub_dotProduct, dotProduct_sub, smul_dotProduct, dotProduct_smul, smul_eq_mul, dotProduct_comm u z]
      ring
    have e3 : z ⬝ᵥ z = mu * (z ⬝ᵥ u) - z ⬝ᵥ (W *ᵥ u) := by
      conv_lhs => rw [hz]
      rw [sub_dotProduct, smul_dotProduct, dotProduct_comm u z, dotProduct_comm (W *ᵥ u), smul_eq_mul]
    rw [e1, e2] at h
    have h1 : mu * (u ⬝ᵥ u) = u ⬝ᵥ (W *ᵥ u) := le_antisymm hu (hm u)
    have e4 : 2 * t * (z ⬝ᵥ z) = 2 * t * (mu * (z ⬝ᵥ u) - z ⬝ᵥ (W *ᵥ u)) := by rw [← e3]
    rw [hc]
    linarith
  have hcp : 0 < c + 1 := by linarith
  have h := key ((z ⬝ᵥ z) / (c + 1))
  have e : -(2 * ((z ⬝ᵥ z) / (c + 1)) * (z ⬝ᵥ z)) + ((z ⬝ᵥ z) / (c + 1)) ^ 2 * c
      = -((z ⬝ᵥ z) ^ 2 * (c + 2) / (c + 1) ^ 2) := by
    field_simp
    ring
  rw [e] at h
  have : 0 < (z ⬝ᵥ z) ^ 2 * (c + 2) / (c + 1) ^ 2 := by positivity
  linarith

end Adcs.AttEst
