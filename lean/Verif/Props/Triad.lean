import Verif.Proofs.Triad
import Verif.Props.Quat

set_option autoImplicit false

/-! # C19, C20: the TRIAD algorithm -/

namespace Adcs

open Vec Quat AttEst
open scoped Matrix

/-- What the two branches of the algorithm have in common. -/
theorem triad_core {b r b3 r3 : V3} {α β ρ : ℝ} (hb : IsUnit3 b) (hr : IsUnit3 r)
    (hd : 0 < 1 + npDot b r) (hr3 : npDot r r3 = 0) (hb3 : npDot b3 b = 0) (hρ : 0 < ρ)
    (h0 : α ^ 2 + β ^ 2 = 1 / (2 * (1 + npDot b r)))
    (h1 : α ^ 2 - β ^ 2 = ((1 + npDot b r) * npDot b3 r3 - npDot b r3 * npDot r b3) /
      (2 * ρ * (1 + npDot b r)))
    (h2 : 2 * α * β = npDot (b + r) (npCross b3 r3) / (2 * ρ * (1 + npDot b r))) :
    IsUnit4 (triadQuat b r α β) ∧ sandwich (triadQuat b r α β) r = b ∧
    sandwich (triadQuat b r α β) r3 = ((1 + npDot b r) * npDot r3 r3 / ρ) • b3 := by
  have hd' := hd.ne'
  refine ⟨?_, ?_, ?_⟩
  · unfold IsUnit4; rw [triadQuat_sumSq hb hr, h0]; field_simp
  · rw [triadQuat_first hb hr, h0]
    have : 1 / (2 * (1 + npDot b r)) * (2 * (1 + npDot b r)) = 1 := by field_simp
    rw [this, one_smul]
  · rw [triadQuat_second hb hr hr3]
    have e1 := triadImg_mu (w := b3) (b := b) (r := r) (v := r3)
    rw [hb3, zero_add] at e1
    have e2 := triadImg_nu (w := b3) (r := r) (v := r3) hb hb3
    have hp := plane_decomp hb (triadImg_orth (r := r) (v := r3) hb) hb3
    rw [triadImg_sq hb hr hr3] at hp
    have h3 : 2 * (α ^ 2 - β ^ 2) =
        npDot b3 (triadImg b r r3) * (1 / (ρ * (1 + npDot b r))) := by
      rw [h1, e1]; field_simp
    have h4 : 4 * α * β =
        npDot b3 (npCross (triadImg b r r3) b) * (1 / (ρ * (1 + npDot b r))) := by
      rw [e2]; rw [show 4 * α * β = 2 * (2 * α * β) by ring, h2]; field_simp
    rw [h3, h4, mul_comm (npDot b3 (triadImg b r r3)),
      mul_comm (npDot b3 (npCross (triadImg b r r3) b)), mul_smul, mul_smul, ← smul_add, hp,
      smul_smul]
    congr 1
    field_simp

theorem unit_dot_ge {b r : V3} (hb : IsUnit3 b) (hr : IsUnit3 r) : 0 ≤ 1 + npDot b r := by
  unfold IsUnit3 at hb hr
  rw [npDot3]
  nlinarith [sq_nonneg (b 0 + r 0), sq_nonneg (b 1 + r 1), sq_nonneg (b 2 + r 2)]

theorem unit_dot_pos {b r : V3} (hb : IsUnit3 b) (hr : IsUnit3 r) (h : b ≠ -r) :
    0 < 1 + npDot b r := by
  refine lt_of_le_of_ne (unit_dot_ge hb hr) fun h0 => h ?_
  unfold IsUnit3 at hb hr
  rw [npDot3] at h0
  have hs : (b 0 + r 0) ^ 2 + (b 1 + r 1) ^ 2 + (b 2 + r 2) ^ 2 = 0 := by
    linear_combination hb + hr - 2 * h0
  have a0 : b 0 + r 0 = 0 := by nlinarith [sq_nonneg (b 0 + r 0), sq_nonneg (b 1 + r 1), sq_nonneg (b 2 + r 2)]
  have a1 : b 1 + r 1 = 0 := by nlinarith [sq_nonneg (b 0 + r 0), sq_nonneg (b 1 + r 1), sq_nonneg (b 2 + r 2)]
  have a2 : b 2 + r 2 = 0 := by nlinarith [sq_nonneg (b 0 + r 0), sq_nonneg (b 1 + r 1), sq_nonneg (b 2 + r 2)]
  apply vec3_ext <;> simp <;> linarith

theorem npDot_self_pos {n : ℕ} {v : Fin n → ℝ} (h : v ≠ 0) : 0 < npDot v v := by
  rw [← npNorm_sq_dot]; exact pow_pos (npNorm_pos h) 2

theorem triad_munu {b r b3 r3 : V3} (hb : IsUnit3 b) (hr : IsUnit3 r)
    (hr3 : npDot r r3 = 0) (hb3 : npDot b3 b = 0) :
    ((1 + npDot b r) * npDot b3 r3 - npDot b r3 * npDot r b3) ^ 2 +
      npDot (b + r) (npCross b3 r3) ^ 2 = (1 + npDot b r) ^ 2 * npDot r3 r3 * npDot b3 b3 := by
  have e1 := triadImg_mu (w := b3) (b := b) (r := r) (v := r3)
  rw [hb3, zero_add] at e1
  have e2 := triadImg_nu (w := b3) (r := r) (v := r3) hb hb3
  have hp := plane_decomp hb (triadImg_orth (r := r) (v := r3) hb) hb3
  rw [triadImg_sq hb hr hr3, e1, e2] at hp
  have hq := congrArg (fun x => npDot b3 x) hp
  have lin : ∀ (s t : ℝ) (x y : V3), npDot b3 (s • x + t • y) = s * npDot b3 x + t * npDot b3 y := by
    intro s t x y; simp [npDot3]; ring
  have lin' : ∀ (s : ℝ) (x : V3), npDot b3 (s • x) = s * npDot b3 x := by
    intro s x; simp [npDot3]; ring
  simp only [lin, lin'] at hq
  rw [e1, e2] at hq
  linear_combination hq

/-- C19.  For unit `r1`, `b1` with `b1 ≠ -r1` and non-degenerate second vectors, the result is a
unit quaternion carrying `r1` to `b1` and `r1 × r2` to a positive multiple of `b1 × b2`. -/
theorem C19_triad (r1 r2 b1 b2 : V3) (hr1 : npNorm r1 = 1) (hb1 : npNorm b1 = 1)
    (hne : b1 ≠ -r1) (hr : r1 ⨯₃ r2 ≠ 0) (hb : b1 ⨯₃ b2 ≠ 0) :
    ∃ q, triad r1 r2 b1 b2 = .ok (some q) ∧ npNorm q = 1 ∧ sandwich q r1 = b1 ∧
      ∃ k : ℝ, 0 < k ∧ sandwich q (r1 ⨯₃ r2) = k • (b1 ⨯₃ b2) := by
  have ur := (isUnit3_iff r1).2 hr1
  have ub := (isUnit3_iff b1).2 hb1
  rw [← npCross_eq_crossProduct] at hr hb ⊢
  rw [← npCross_eq_crossProduct]
  have hd := unit_dot_pos ub ur hne
  have o1 : npDot r1 (npCross r1 r2) = 0 := by
    simp [npDot3, npCross_0, npCross_1, npCross_2]; ring
  have o2 : npDot (npCross b1 b2) b1 = 0 := by
    simp [npDot3, npCross_0, npCross_1, npCross_2]; ring
  set r3 := npCross r1 r2 with hr3
  set b3 := npCross b1 b2 with hb3
  have hmn := triad_munu ub ur o1 o2
  have pr := npDot_self_pos hr
  have pb := npDot_self_pos hb
  set d := 1 + npDot b1 r1 with hdd
  set mu := d * npDot b3 r3 - npDot b1 r3 * npDot r1 b3 with hmu
  set nu := npDot (b1 + r1) (npCross b3 r3) with hnu
  have hpos : 0 < mu ^ 2 + nu ^ 2 := by rw [hmn]; positivity
  set rho := Real.sqrt (mu ^ 2 + nu ^ 2) with hrho
  have prho : 0 < rho := Real.sqrt_pos.2 hpos
  have srho : rho ^ 2 = mu ^ 2 + nu ^ 2 := Real.sq_sqrt hpos.le
  have fin : ∀ α β : ℝ, α ^ 2 + β ^ 2 = 1 / (2 * d) → α ^ 2 - β ^ 2 = mu / (2 * rho * d) →
      2 * α * β = nu / (2 * rho * d) →
      npNorm (triadQuat b1 r1 α β) = 1 ∧ sandwich (triadQuat b1 r1 α β) r1 = b1 ∧
        ∃ k : ℝ, 0 < k ∧ sandwich (triadQuat b1 r1 α β) r3 = k • b3 := by
    intro α β h0 h1 h2
    obtain ⟨c1, c2, c3⟩ := triad_core ub ur hd o1 o2 prho h0 h1 h2
    exact ⟨(isUnit4_iff _).1 c1, c2, _, by positivity, c3⟩
  by_cases hm : mu ≥ 0
  · have hx : 0 < rho * ((rho + mu) * d) := by positivity
    set s := Real.sqrt (rho * ((rho + mu) * d)) with hs
    have ps : 0 < s := Real.sqrt_pos.2 hx
    have ss : s ^ 2 = rho * ((rho + mu) * d) := Real.sq_sqrt hx.le
    refine ⟨triadQuat b1 r1 (0.5 * 1 / s * (rho + mu)) (0.5 * 1 / s * nu), ?_, ?_⟩
    · unfold triad
      simp only [isFreshObject, Bool.or_self, Bool.false_eq_true, if_false]
      rw [← hr3, ← hb3, ← hdd, ← hmu, ← hnu, ← hrho, if_pos hm, npSqrt, if_neg (not_lt.2 hx.le),
        ← hs]
      simp only [npDiv, if_neg ps.ne']
      congr 2
      apply vec4_ext <;> simp [triadQuat, ← hdd] <;> ring
    · have p : 0 < rho + mu := by linarith
      apply fin
      · have : (0.5 * 1 / s * (rho + mu)) ^ 2 + (0.5 * 1 / s * nu) ^ 2 =
          0.25 * ((rho + mu) ^ 2 + nu ^ 2) / s ^ 2 := by ring
        rw [this, ss, show (rho + mu) ^ 2 + nu ^ 2 = 2 * rho * (rho + mu) by
          linear_combination -srho]
        field_simp; ring
      · have : (0.5 * 1 / s * (rho + mu)) ^ 2 - (0.5 * 1 / s * nu) ^ 2 =
          0.25 * ((rho + mu) ^ 2 - nu ^ 2) / s ^ 2 := by ring
        rw [this, ss, show (rho + mu) ^ 2 - nu ^ 2 = 2 * mu * (rho + mu) by
          linear_combination srho]
        field_simp; ring
      · have : 2 * (0.5 * 1 / s * (rho + mu)) * (0.5 * 1 / s * nu) =
          0.5 * ((rho + mu) * nu) / s ^ 2 := by ring
        rw [this, ss]
        field_simp; ring
  · have hm' : mu < 0 := not_le.1 hm
    have p : 0 < rho - mu := by linarith
    have hx : 0 < rho * (rho - mu) * d := by positivity
    set s := Real.sqrt (rho * (rho - mu) * d) with hs
    have ps : 0 < s := Real.sqrt_pos.2 hx
    have ss : s ^ 2 = rho * (rho - mu) * d := Real.sq_sqrt hx.le
    refine ⟨triadQuat b1 r1 (0.5 * 1 / s * nu) (0.5 * 1 / s * (rho - mu)), ?_, ?_⟩
    · unfold triad
      simp only [isFreshObject, Bool.or_self, Bool.false_eq_true, if_false]
      rw [← hr3, ← hb3, ← hdd, ← hmu, ← hnu, ← hrho, if_neg hm, npSqrt, if_neg (not_lt.2 hx.le),
        ← hs]
      simp only [npDiv, if_neg ps.ne']
      congr 2
      apply vec4_ext <;> simp [triadQuat, ← hdd] <;> ring
    · apply fin
      · have : (0.5 * 1 / s * nu) ^ 2 + (0.5 * 1 / s * (rho - mu)) ^ 2 =
          0.25 * ((rho - mu) ^ 2 + nu ^ 2) / s ^ 2 := by ring
        rw [this, ss, show (rho - mu) ^ 2 + nu ^ 2 = 2 * rho * (rho - mu) by
          linear_combination -srho]
        field_simp; ring
      · have : (0.5 * 1 / s * nu) ^ 2 - (0.5 * 1 / s * (rho - mu)) ^ 2 =
          0.25 * (nu ^ 2 - (rho - mu) ^ 2) / s ^ 2 := by ring
        rw [this, ss, show nu ^ 2 - (rho - mu) ^ 2 = 2 * mu * (rho - mu) by
          linear_combination -srho]
        field_simp; ring
      · have : 2 * (0.5 * 1 / s * nu) * (0.5 * 1 / s * (rho - mu)) =
          0.5 * ((rho - mu) * nu) / s ^ 2 := by ring
        rw [this, ss]
        field_simp; ring

/-- C19: with noise-free data of attitude `p` the algorithm returns `p` or `-p`. -/
theorem C19_triad_exact (r1 r2 : V3) (p : V4) (hp : npNorm p = 1) (hr1 : npNorm r1 = 1)
    (hne : sandwich p r1 ≠ -r1) (hr : r1 ⨯₃ r2 ≠ 0) :
    ∃ q, triad r1 r2 (sandwich p r1) (sandwich p r2) = .ok (some q) ∧ (q = p ∨ q = -p) := by
  have up := (isUnit4_iff p).2 hp
  obtain ⟨hdot, hnorm, hcross⟩ := C06_sandwich_preserves p hp r1 r2
  have hc : sandwich p r1 ⨯₃ sandwich p r2 ≠ 0 := by
    rw [← hcross]
    intro h0
    apply hr
    have : npNorm (r1 ⨯₃ r2) = 0 := by
      rw [← (C06_sandwich_preserves p hp (r1 ⨯₃ r2) 0).2.1, h0, npNorm_eq_zero]
    exact npNorm_eq_zero.1 this
  obtain ⟨q, hq, hu, h1, k, hk, h3⟩ := C19_triad r1 r2 _ _ hr1 (by rw [hnorm, hr1]) hne hr hc
  refine ⟨q, hq, C06_sandwich_faithful q p hu hp ?_⟩
  rw [← hcross] at h3
  have uq := (isUnit4_iff q).2 hu
  -- k = 1 by norms
  have hk1 : k = 1 := by
    have n1 := (C06_sandwich_preserves q hu (r1 ⨯₃ r2) 0).2.1
    have n2 := (C06_sandwich_preserves p hp (r1 ⨯₃ r2) 0).2.1
    rw [h3, npNorm_smul, n2, abs_of_pos hk] at n1
    have := (npNorm_pos hr).ne'
    field_simp at n1
    exact n1
  rw [hk1, one_smul] at h3
  -- agree on the third basis vector
  have h4 : sandwich q (r1 ⨯₃ (r1 ⨯₃ r2)) = sandwich p (r1 ⨯₃ (r1 ⨯₃ r2)) := by
    rw [sandwich_cross uq, sandwich_cross up, h1, h3]
  intro v
  set r3 := r1 ⨯₃ r2 with hr3
  have o1 : npDot r1 r3 = 0 := by
    rw [hr3, ← npCross_eq_crossProduct]
    simp [npDot3, npCross_0, npCross_1, npCross_2]; ring
  have ur : r1 0 ^ 2 + r1 1 ^ 2 + r1 2 ^ 2 = 1 := (isUnit3_iff r1).2 hr1
  have hdec : npDot r3 r3 • v = (npDot r3 r3 * npDot v r1) • r1 + npDot v r3 • r3 +
      npDot v (r1 ⨯₃ r3) • (r1 ⨯₃ r3) := by
    rw [npDot3] at o1
    rw [← npCross_eq_crossProduct]
    apply vec3_ext <;> simp [npDot3, npCross_0, npCross_1, npCross_2] <;> grind
  have key : npDot r3 r3 • sandwich q v = npDot r3 r3 • sandwich p v := by
    rw [← sandwich_smul, ← sandwich_smul, hdec]
    simp only [sandwich_add, sandwich_smul, h1, h3, h4]
  exact smul_right_injective _ (npDot_self_pos hr).ne' key

/-- Non-vacuity of C19 (in the branch `mu < 0`). -/
example : ∃ r1 r2 b1 b2 : V3, npNorm r1 = 1 ∧ npNorm b1 = 1 ∧ b1 ≠ -r1 ∧ r1 ⨯₃ r2 ≠ 0 ∧
    b1 ⨯₃ b2 ≠ 0 := by
  refine ⟨![1, 0, 0], ![0, 1, 0], ![3 / 5, 4 / 5, 0], ![0, 0, 2], npNorm_vec3 (by norm_num),
    npNorm_vec3 (by norm_num), ?_, ?_, ?_⟩
  · intro h; have := congrFun h 1; simp at this
  · intro h; have := congrFun h 2; simp [cross_apply] at this
  · intro h; have := congrFun h 0; simp [cross_apply] at this

/-- The full property: degenerate input gives the value `False`. -/
def TriadReportsDegenerate : Prop :=
  ∀ r1 r2 b1 b2 : V3, npNorm r1 = 1 → npNorm b1 = 1 →
    (r1 ⨯₃ r2 = 0 ∨ b1 ⨯₃ b2 = 0 ∨ b1 = -r1) → triad r1 r2 b1 b2 = .ok none

/-- C20 is violated as strongly as possible: no input whatever yields `False`. -/
theorem C20_never_false (r1 r2 b1 b2 : V3) : triad r1 r2 b1 b2 ≠ .ok none := by
  unfold triad
  simp only [isFreshObject, Bool.or_self, Bool.false_eq_true, if_false]
  split_ifs <;> (unfold npSqrt npDiv; split_ifs) <;> simp <;> split_ifs <;> simp

theorem C20_degenerate_not_reported : ¬ TriadReportsDegenerate := fun h =>
  C20_never_false ![1, 0, 0] ![1, 0, 0] ![1, 0, 0] ![0, 1, 0]
    (h _ _ _ _ (npNorm_vec3 (by norm_num)) (npNorm_vec3 (by norm_num))
      (Or.inl (by rw [← npCross_eq_crossProduct]; ext i; fin_cases i <;> simp [npCross])))

/-- C20, what happens instead: every degenerate input gives a non-finite array (nan), never a
plausible quaternion.  Missing against the full property: the value `False`. -/
theorem C20_degenerate_partial (r1 r2 b1 b2 : V3) (hr1 : npNorm r1 = 1)
    (h : r1 ⨯₃ r2 = 0 ∨ b1 ⨯₃ b2 = 0 ∨ b1 = -r1) :
    triad r1 r2 b1 b2 = .error .nonFinite := by
  rw [← npCross_eq_crossProduct, ← npCross_eq_crossProduct] at h
  unfold triad
  simp only [isFreshObject, Bool.or_self, Bool.false_eq_true, if_false]
  have z1 : ∀ x : V3, npDot x 0 = 0 := fun x => by simp [npDot]
  have z2 : ∀ x : V3, npDot 0 x = 0 := fun x => by simp [npDot]
  have z3 : ∀ x : V3, npCross x 0 = 0 := fun x => by
    rw [npCross_eq_crossProduct]; simp
  have z4 : ∀ x : V3, npCross 0 x = 0 := fun x => by
    rw [npCross_eq_crossProduct]; simp
  rcases h with h | h | h
  · rw [h]; simp [z1, z3, npSqrt, npDiv]
  · rw [h]; simp [z1, z2, z4, npSqrt, npDiv]
  · have hd : 1 + npDot b1 r1 = 0 := by
      have : r1 0 ^ 2 + r1 1 ^ 2 + r1 2 ^ 2 = 1 := (isUnit3_iff r1).2 hr1
      rw [h, npDot3]; simp; linear_combination -this
    rw [hd]
    split_ifs <;> simp [npSqrt, npDiv]

example : npNorm (![0, 1, 0] : V3) = 1 ∧ (![0, 1, 0] : V3) ⨯₃ ![0, 3, 0] = 0 :=
  ⟨npNorm_vec3 (by norm_num), by
    rw [← npCross_eq_crossProduct]; ext i; fin_cases i <;> simp [npCross]⟩

end Adcs
