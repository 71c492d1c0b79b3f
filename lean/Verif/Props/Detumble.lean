import Verif.Props.Bbq
import Verif.Props.MagControl
import Verif.Props.SunSide
import Verif.Props.Spin

set_option autoImplicit false

/-! # C179: what detumbling does to the angular momentum in a fixed and in a turning field -/

namespace Adcs

open Str Sens JDay Quat Vec Dyn Ctl Spec
open scoped Matrix

/-- The satellite of the controller turns under the moment that `detumble` asks for, or a part of at least `μ₀`
of it, in a field whose direction in inertial coordinates is `b` and whose strength is any. -/
def Spec.Detumbling (c : MagController) (μ₀ : ℝ) (b : ℝ → V3) (q : ℝ → V4) (w : ℝ → V3) : Prop :=
  ∀ t, 0 ≤ t → npNorm (q t) = 1 ∧ ∃ (β μ : ℝ) (m : V3), β ≠ 0 ∧ μ₀ ≤ μ ∧ μ ≤ 1 ∧
    magMoment (β • sandwich (q t) (b t)) (c.detumbleTorque (w t)) = .ok m ∧
    TurnsAt c.sat.totalMoment q w (μ • m) (β • sandwich (q t) (b t)) t

/-- A direction that turns in the plane of `e₁` and `e₂` with the rate `n`. -/
noncomputable def Spec.turning (n : ℝ) (e₁ e₂ : V3) (t : ℝ) : V3 := Real.cos (n * t) • e₁ + Real.sin (n * t) • e₂

/-- Any momentum `H` in body coordinates that changes by the magnetic torque of a part of the moment that takes it
away. -/
def Damped (H : ℝ → V3) (μ₀ : ℝ) (b : ℝ → V3) (q : ℝ → V4) (w : ℝ → V3) : Prop :=
  ∀ t, 0 ≤ t → npNorm (q t) = 1 ∧ ∃ (β μ : ℝ) (m : V3), β ≠ 0 ∧ μ₀ ≤ μ ∧ μ ≤ 1 ∧
    magMoment (β • sandwich (q t) (b t)) ((-kBbq) • H t) = .ok m ∧
    HasDerivAt q ((0.5 : ℝ) • product (q t) ![0, w t 0, w t 1, w t 2]) t ∧
    HasDerivAt H ((μ • m) ⨯₃ (β • sandwich (q t) (b t)) - w t ⨯₃ H t) t

theorem Spec.Detumbling.damped {c : MagController} {μ₀ : ℝ} {b : ℝ → V3} {q : ℝ → V4} {w : ℝ → V3}
    (h : Spec.Detumbling c μ₀ b q w) : Damped (fun τ => c.sat.totalMoment *ᵥ w τ) μ₀ b q w := by
  intro t ht
  obtain ⟨hq, β, μ, m, h1, h2, h3, h4, h5⟩ := h t ht
  exact ⟨hq, β, μ, m, h1, h2, h3, h4, h5.attitude, h5.momentum⟩

/-- Component of the angular momentum along a direction that moves in inertial space. -/
theorem hasDerivAt_along {H : ℝ → V3} {q : ℝ → V4} {w : ℝ → V3} {T : V3} {t : ℝ}
    (hq : HasDerivAt q ((0.5 : ℝ) • product (q t) ![0, w t 0, w t 1, w t 2]) t)
    (hH : HasDerivAt H (T - w t ⨯₃ H t) t) {a : ℝ → V3} {a' : V3} (ha : HasDerivAt a a' t) :
    HasDerivAt (fun τ => H τ ⬝ᵥ sandwich (q τ) (a τ))
      (sandwich (q t) (a t) ⬝ᵥ T + H t ⬝ᵥ sandwich (q t) a') t := by
  have h := hasDerivAt_sandwich2 hq ha
  rw [sandwich_kinematics, npCross_eq_crossProduct] at h
  refine (hasDerivAt_dot3 hH h).congr_deriv ?_
  generalize H t = h
  generalize sandwich (q t) (a t) = A
  generalize sandwich (q t) a' = A'
  generalize w t = w
  simp only [Pi.sub_apply, cross_apply, Matrix.vec3_dotProduct, Matrix.cons_val_zero, Matrix.cons_val_one, cons3_2]
  ring

theorem decay_of_deriv {f f' : ℝ → ℝ} {γ : ℝ} (h : ∀ t, 0 ≤ t → HasDerivAt f (f' t) t)
    (hle : ∀ t, 0 ≤ t → f' t ≤ -γ * f t) {t : ℝ} (ht : 0 ≤ t) : f t ≤ Real.exp (-γ * t) * f 0 := by
  have hg : ∀ s, 0 ≤ s → HasDerivAt (fun τ => Real.exp (γ * τ) * f τ)
      (Real.exp (γ * s) * γ * f s + Real.exp (γ * s) * f' s) s := by
    intro s hs
    have h1 : HasDerivAt (fun τ => Real.exp (γ * τ)) (Real.exp (γ * s) * γ) s := by
      simpa using ((hasDerivAt_id s).const_mul γ).exp
    exact h1.fun_mul (h s hs)
  have hanti : AntitoneOn (fun τ => Real.exp (γ * τ) * f τ) (Set.Ici 0) := by
    refine antitoneOn_of_deriv_nonpos (convex_Ici 0)
      (fun s hs => (hg s hs).continuousAt.continuousWithinAt)
      (fun s hs => (hg s (interior_subset hs)).differentiableAt.differentiableWithinAt) ?_
    intro s hs
    have hs0 : 0 ≤ s := interior_subset hs
    rw [(hg s hs0).deriv]
    have := mul_le_mul_of_nonneg_left (hle s hs0) (Real.exp_pos (γ * s)).le
    linarith
  have h1 := hanti (Set.self_mem_Ici) (Set.mem_Ici.2 ht) ht
  simp only [mul_zero, Real.exp_zero, one_mul] at h1
  have h2 : Real.exp (-γ * t) * Real.exp (γ * t) = 1 := by
    rw [← Real.exp_add]; simp
  calc f t = Real.exp (-γ * t) * (Real.exp (γ * t) * f t) := by rw [← mul_assoc, h2, one_mul]
    _ ≤ _ := mul_le_mul_of_nonneg_left h1 (Real.exp_pos _).le

theorem along_const {H : ℝ → V3} {q : ℝ → V4} {w : ℝ → V3} (b : V3)
    (h : ∀ t, 0 ≤ t → ∃ (β : ℝ) (m : V3), HasDerivAt q ((0.5 : ℝ) • product (q t) ![0, w t 0, w t 1, w t 2]) t ∧
      HasDerivAt H (m ⨯₃ (β • sandwich (q t) b) - w t ⨯₃ H t) t) {t : ℝ} (ht : 0 ≤ t) :
    H t ⬝ᵥ sandwich (q t) b = H 0 ⬝ᵥ sandwich (q 0) b := by
  refine constant_of_deriv (f := fun τ => H τ ⬝ᵥ sandwich (q τ) b) ?_ ht
  intro s hs
  obtain ⟨β, m, hT⟩ := h s hs
  refine (hasDerivAt_along hT.1 hT.2 (hasDerivAt_const s b)).congr_deriv ?_
  have h0 : sandwich (q s) 0 = 0 := by rw [sandwich_eq_dcm, Matrix.mulVec_zero]
  rw [h0, dotProduct_zero, add_zero]
  generalize sandwich (q s) b = A
  simp only [cross_apply, Matrix.vec3_dotProduct, Matrix.cons_val_zero, Matrix.cons_val_one, cons3_2,
    Pi.smul_apply, smul_eq_mul]
  ring

/-- Whatever the torquers do, the angular momentum along a field of fixed direction stays. -/
theorem C179_along {J : M3} {q : ℝ → V4} {w : ℝ → V3} (b : V3)
    (h : ∀ t, 0 ≤ t → ∃ (β : ℝ) (m : V3), TurnsAt J q w m (β • sandwich (q t) b) t) {t : ℝ} (ht : 0 ≤ t) :
    (J *ᵥ w t) ⬝ᵥ sandwich (q t) b = (J *ᵥ w 0) ⬝ᵥ sandwich (q 0) b := by
  exact along_const (H := fun τ => J *ᵥ w τ) b (fun s hs => by
    obtain ⟨β, m, hT⟩ := h s hs
    exact ⟨β, m, hT.attitude, hT.momentum⟩) ht

/-- The torque in the direction `u`. -/
theorem detumbling_dot {A H m : V3} {β μ : ℝ} (hA : A ⬝ᵥ A = 1) (hβ : β ≠ 0)
    (hm : magMoment (β • A) ((-kBbq) • H) = .ok m) (u : V3) :
    u ⬝ᵥ ((μ • m) ⨯₃ (β • A)) = -(kBbq * μ) * (u ⬝ᵥ H - (A ⬝ᵥ u) * (A ⬝ᵥ H)) := by
  have hB : β • A ≠ 0 := by
    intro h
    rcases smul_eq_zero.1 h with h | h
    · exact hβ h
    · rw [h] at hA; simp at hA
  have e := detumble_dot hB H u hm
  rw [LinearMap.map_smul₂, dotProduct_smul, e, smul_dotProduct, smul_dotProduct, smul_dotProduct,
    dotProduct_smul, hA]
  simp only [smul_eq_mul]
  field_simp

theorem unit3_dot {v : V3} (h : npNorm v = 1) : v ⬝ᵥ v = 1 := by
  have := npNorm_sq_dot v
  rw [npDot_eq_dotProduct, h] at this
  linarith

/-- The claim: detumbling removes all angular momentum, whatever field there is. -/
def C179_claim : Prop :=
  ∀ (model : CtlModel) (h3 : model.sat.nMt = 3) (mass : ℝ) (dims : V3) (ab cd : ℝ),
    Built model.sat mass dims ab cd → model.sat.totalMoment.PosDef →
    ∀ (c : MagController), MagController.init model h3 false = .ok c →
    ∀ (b : V3) (q : ℝ → V4) (w : ℝ → V3), npNorm b = 1 → Spec.Detumbling c 1 (fun _ => b) q w →
      Filter.Tendsto (fun t => npNorm (c.sat.totalMoment *ᵥ w t)) Filter.atTop (nhds 0)

theorem damped_fixed {H : ℝ → V3} {μ₀ : ℝ} {b : V3} (hb : npNorm b = 1) {q : ℝ → V4} {w : ℝ → V3}
    (h : Damped H μ₀ (fun _ => b) q w) {t : ℝ} (ht : 0 ≤ t) :
    H t ⬝ᵥ sandwich (q t) b = H 0 ⬝ᵥ sandwich (q 0) b ∧
    npNorm (Spec.across (sandwich (q t) b) (H t)) ≤
      Real.exp (-(kBbq * μ₀) * t) * npNorm (Spec.across (sandwich (q 0) b) (H 0)) := by
  have hx : ∀ t, 0 ≤ t → H t ⬝ᵥ sandwich (q t) b = H 0 ⬝ᵥ sandwich (q 0) b := fun t ht =>
    along_const b (fun s hs => by
      obtain ⟨-, β, μ, m, -, -, -, -, hT⟩ := h s hs
      exact ⟨β, _, hT⟩) ht
  refine ⟨hx t ht, ?_⟩
  have hsq : ∀ s, 0 ≤ s → npNorm (Spec.across (sandwich (q s) b) (H s)) ^ 2 =
      H s ⬝ᵥ H s - (H 0 ⬝ᵥ sandwich (q 0) b) ^ 2 := by
    intro s hs
    have hA : sandwich (q s) b ⬝ᵥ sandwich (q s) b = 1 := by
      rw [sandwich_dot ((isUnit4_iff _).2 (h s hs).1), unit3_dot hb]
    rw [npNorm_sq_dot, npDot_eq_dotProduct, Spec.across, sub_dotProduct, dotProduct_sub, dotProduct_sub,
      smul_dotProduct, dotProduct_smul, smul_dotProduct, dotProduct_smul, hA,
      dotProduct_comm (sandwich (q s) b) (H s), ← hx s hs]
    simp only [smul_eq_mul]
    ring
  have key : H t ⬝ᵥ H t - (H 0 ⬝ᵥ sandwich (q 0) b) ^ 2 ≤
      Real.exp (-(2 * (kBbq * μ₀)) * t) * (H 0 ⬝ᵥ H 0 - (H 0 ⬝ᵥ sandwich (q 0) b) ^ 2) := by
    have hex : ∀ s, ∃ r, 0 ≤ s → HasDerivAt (fun τ => H τ ⬝ᵥ H τ - (H 0 ⬝ᵥ sandwich (q 0) b) ^ 2) r s ∧
        r ≤ -(2 * (kBbq * μ₀)) * (H s ⬝ᵥ H s - (H 0 ⬝ᵥ sandwich (q 0) b) ^ 2) := by
      intro s
      by_cases hs : 0 ≤ s
      swap
      · exact ⟨0, fun h => absurd h hs⟩
      obtain ⟨hq, β, μ, m, hβ, hμ, -, hm, hT1, hT⟩ := h s hs
      have hA : sandwich (q s) b ⬝ᵥ sandwich (q s) b = 1 := by
        rw [sandwich_dot ((isUnit4_iff _).2 hq), unit3_dot hb]
      refine ⟨_, fun _ => ⟨(hasDerivAt_dot3 hT hT).sub_const _, ?_⟩⟩
      have e := detumbling_dot (μ := μ) hA hβ hm (H s)
      have e2 : ((μ • m) ⨯₃ (β • sandwich (q s) b) - w s ⨯₃ H s) ⬝ᵥ H s +
          H s ⬝ᵥ ((μ • m) ⨯₃ (β • sandwich (q s) b) - w s ⨯₃ H s) =
          2 * (H s ⬝ᵥ ((μ • m) ⨯₃ (β • sandwich (q s) b))) := by
        have : H s ⬝ᵥ (w s ⨯₃ H s) = 0 := by rw [dot_cross_self]
        rw [dotProduct_comm _ (H s), dotProduct_sub, this]
        ring
      have hnn := sq_nonneg (npNorm (Spec.across (sandwich (q s) b) (H s)))
      rw [hsq s hs] at hnn
      change _ ≤ _
      rw [dotProduct_comm (sandwich (q s) b) (H s), hx s hs] at e
      rw [e2, e]
      have := mul_le_mul_of_nonneg_left hμ kBbq_pos.le
      nlinarith
    choose r hr using hex
    exact decay_of_deriv (f := fun τ => H τ ⬝ᵥ H τ - (H 0 ⬝ᵥ sandwich (q 0) b) ^ 2) (f' := r)
      (fun s hs => (hr s hs).1) (fun s hs => (hr s hs).2) ht
  have h2 : (Real.exp (-(kBbq * μ₀) * t)) ^ 2 = Real.exp (-(2 * (kBbq * μ₀)) * t) := by
    rw [← Real.exp_nat_mul]; congr 1; push_cast; ring
  refine le_of_sq_le_sq ?_ (mul_nonneg (Real.exp_pos _).le (npNorm_nonneg _))
  rw [mul_pow, hsq t ht, hsq 0 le_rfl, h2]
  exact key

/-- What holds of it in a field of fixed direction: the angular momentum across the field dies out exponentially,
that along the field stays for ever. Missing: that the latter disappears, which is false. -/
theorem C179_fixed_partial {c : MagController} {μ₀ : ℝ} {b : V3} (hb : npNorm b = 1) {q : ℝ → V4} {w : ℝ → V3}
    (h : Spec.Detumbling c μ₀ (fun _ => b) q w) {t : ℝ} (ht : 0 ≤ t) :
    let H := fun τ => c.sat.totalMoment *ᵥ w τ
    H t ⬝ᵥ sandwich (q t) b = H 0 ⬝ᵥ sandwich (q 0) b ∧
    npNorm (Spec.across (sandwich (q t) b) (H t)) ≤
      Real.exp (-(kBbq * μ₀) * t) * npNorm (Spec.across (sandwich (q 0) b) (H 0)) :=
  damped_fixed hb h.damped ht

/-- The estimate behind the next theorem: `x` along the field, `y` across it in its plane, `z` normal to that. -/
theorem turning_estimate {k μ₀ μ n x y z : ℝ} (hk : 0 < k) (hn : 0 < n) (h0 : 0 < μ₀) (h1 : μ₀ ≤ μ) (h2 : μ ≤ 1) :
    let g := k * μ₀ * n / (2 * n ^ 2 + k ^ 2)
    2 * x * (n * y) + 2 * y * (-(n * x) - k * μ * y) + 2 * z * (-(k * μ) * z) +
      2 * g * (n * y * y + x * (-(n * x) - k * μ * y)) ≤ -(g * n) * (x ^ 2 + y ^ 2 + z ^ 2) := by
  intro g
  have hd : 0 < 2 * n ^ 2 + k ^ 2 := by positivity
  have hg : g * (2 * n ^ 2 + k ^ 2) = k * μ₀ * n := by simp only [g]; field_simp
  have hg0 : 0 < g := by positivity
  have hgn : 2 * (g * n) ≤ k * μ₀ := by
    have : 2 * (g * n) * n ≤ k * μ₀ * n := by nlinarith [mul_pos hg0 (pow_pos hk 2)]
    exact le_of_mul_le_mul_right this hn
  have hkm : k * μ₀ ≤ k * μ := mul_le_mul_of_nonneg_left h1 hk.le
  have hμ : 0 < μ := h0.trans_le h1
  -- the mixed term
  have hmix : -(2 * g * (k * μ) * (x * y)) * n ≤ g * n ^ 2 * x ^ 2 + g * k ^ 2 * y ^ 2 := by
    have e1 : 0 ≤ g * (n * x + k * μ * y) ^ 2 := by positivity
    have e2 : g * (k ^ 2 * y ^ 2) * μ ^ 2 ≤ g * (k ^ 2 * y ^ 2) := by
      have : μ ^ 2 ≤ 1 := by nlinarith
      have h3 : 0 ≤ g * (k ^ 2 * y ^ 2) := by positivity
      nlinarith
    nlinarith
  have hz : g * n * z ^ 2 ≤ 2 * (k * μ) * z ^ 2 := by
    have := sq_nonneg z
    nlinarith [mul_pos hk h0]
  -- multiply by `n`
  refine le_of_mul_le_mul_right ?_ hn
  have hy : (2 * g * n ^ 2 + g * k ^ 2 + g * n ^ 2) * y ^ 2 ≤ 2 * (k * μ) * n * y ^ 2 := by
    refine mul_le_mul_of_nonneg_right ?_ (sq_nonneg y)
    have e3 : g * n ^ 2 ≤ k * μ₀ * n := by nlinarith [mul_pos hg0 (pow_pos hk 2), mul_pos hg0 (pow_pos hn 2)]
    have e4 : k * μ₀ * n ≤ k * μ * n := mul_le_mul_of_nonneg_right hkm hn.le
    nlinarith
  have hzn := mul_le_mul_of_nonneg_right hz hn.le
  nlinarith

theorem turning_frame {e₁ e₂ : V3} (h : Spec.Plane e₁ e₂) (n t : ℝ) :
    Spec.Plane (Spec.turning n e₁ e₂ t) (-Real.sin (n * t) • e₁ + Real.cos (n * t) • e₂) := by
  obtain ⟨h1, h2, h3⟩ := h
  have g1 := unit3_dot h1
  have g2 := unit3_dot h2
  have hc := Real.sin_sq_add_cos_sq (n * t)
  have k1 : ∀ a b : ℝ, a ^ 2 + b ^ 2 = 1 → npNorm (a • e₁ + b • e₂) = 1 := by
    intro a b hab
    have : npNorm (a • e₁ + b • e₂) ^ 2 = 1 := by
      rw [npNorm_sq_dot, npDot_eq_dotProduct]
      simp only [add_dotProduct, dotProduct_add, smul_dotProduct, dotProduct_smul, smul_eq_mul, g1, g2, h3,
        dotProduct_comm e₂ e₁]
      linarith
    have hn := npNorm_nonneg (a • e₁ + b • e₂)
    nlinarith
  refine ⟨k1 _ _ (by linarith), k1 _ _ (by rw [neg_sq]; linarith), ?_⟩
  simp only [Spec.turning, add_dotProduct, dotProduct_add, smul_dotProduct, dotProduct_smul, smul_eq_mul, g1, g2, h3,
    dotProduct_comm e₂ e₁]
  ring

theorem plane_sq' {a b : V3} (h : Spec.Plane a b) (s : V3) :
    (s ⬝ᵥ a) ^ 2 + (s ⬝ᵥ b) ^ 2 + (s ⬝ᵥ (a ⨯₃ b)) ^ 2 = s ⬝ᵥ s := by
  obtain ⟨h1, h2, h3⟩ := h
  have gram : (s ⬝ᵥ (a ⨯₃ b)) ^ 2 = (s ⬝ᵥ s) * ((a ⬝ᵥ a) * (b ⬝ᵥ b) - (a ⬝ᵥ b) ^ 2) -
      (s ⬝ᵥ a) * ((s ⬝ᵥ a) * (b ⬝ᵥ b) - (a ⬝ᵥ b) * (s ⬝ᵥ b)) +
      (s ⬝ᵥ b) * ((s ⬝ᵥ a) * (a ⬝ᵥ b) - (a ⬝ᵥ a) * (s ⬝ᵥ b)) := by
    simp only [Matrix.vec3_dotProduct, cross_apply, Matrix.cons_val_zero, Matrix.cons_val_one, cons3_2]
    ring
  rw [gram, h3, unit3_dot h1, unit3_dot h2]
  ring

theorem hasDerivAt_turning (n : ℝ) (e₁ e₂ : V3) (t : ℝ) :
    HasDerivAt (Spec.turning n e₁ e₂) (n • (-Real.sin (n * t) • e₁ + Real.cos (n * t) • e₂)) t ∧
    HasDerivAt (fun τ => -Real.sin (n * τ) • e₁ + Real.cos (n * τ) • e₂) (-n • Spec.turning n e₁ e₂ t) t := by
  have hn : HasDerivAt (fun τ : ℝ => n * τ) n t := by simpa using (hasDerivAt_id t).const_mul n
  have hc := hn.cos
  have hs := hn.sin
  constructor
  · refine ((hc.smul_const e₁).add (hs.smul_const e₂)).congr_deriv ?_
    module
  · refine ((hs.fun_neg.smul_const e₁).add (hc.smul_const e₂)).congr_deriv ?_
    unfold Spec.turning
    module

theorem turning_normal {e₁ e₂ : V3} (n t : ℝ) :
    Spec.turning n e₁ e₂ t ⨯₃ (-Real.sin (n * t) • e₁ + Real.cos (n * t) • e₂) = e₁ ⨯₃ e₂ := by
  have hc := Real.sin_sq_add_cos_sq (n * t)
  have e : Real.cos (n * t) * Real.cos (n * t) + Real.sin (n * t) * Real.sin (n * t) = 1 := by linarith
  unfold Spec.turning
  generalize Real.cos (n * t) = C at *
  generalize Real.sin (n * t) = S at *
  calc _ = (C * C + S * S) • (e₁ ⨯₃ e₂) := by
        apply vec3_ext <;>
          simp only [cross_apply, Matrix.cons_val_zero, Matrix.cons_val_one, cons3_2, Pi.add_apply, Pi.smul_apply,
            smul_eq_mul, Pi.neg_apply, neg_smul] <;> ring
    _ = _ := by rw [e, one_smul]

theorem damped_turning {H : ℝ → V3} {μ₀ n : ℝ} (h0 : 0 < μ₀) (hn : 0 < n) {e₁ e₂ : V3}
    (he : Spec.Plane e₁ e₂) {q : ℝ → V4} {w : ℝ → V3}
    (h : Damped H μ₀ (Spec.turning n e₁ e₂) q w) {t : ℝ} (ht : 0 ≤ t) :
    npNorm (H t) ^ 2 ≤
      3 * Real.exp (-(2 / 3 * (kBbq * μ₀ * n ^ 2 / (2 * n ^ 2 + kBbq ^ 2))) * t) * npNorm (H 0) ^ 2 := by
  set p := fun τ => -Real.sin (n * τ) • e₁ + Real.cos (n * τ) • e₂ with hp
  set x := fun τ => H τ ⬝ᵥ sandwich (q τ) (Spec.turning n e₁ e₂ τ) with hx
  set y := fun τ => H τ ⬝ᵥ sandwich (q τ) (p τ) with hy
  set z := fun τ => H τ ⬝ᵥ sandwich (q τ) (e₁ ⨯₃ e₂) with hz
  set g := kBbq * μ₀ * n / (2 * n ^ 2 + kBbq ^ 2) with hg
  have hk := kBbq_pos
  have hsq : ∀ s, 0 ≤ s → x s ^ 2 + y s ^ 2 + z s ^ 2 = npNorm (H s) ^ 2 := by
    intro s hs
    have hq := (isUnit4_iff _).2 (h s hs).1
    have hpl := turning_frame he n s
    have hpl' : Spec.Plane (sandwich (q s) (Spec.turning n e₁ e₂ s)) (sandwich (q s) (p s)) := by
      have k : ∀ v : V3, npNorm v = 1 → npNorm (sandwich (q s) v) = 1 := by
        intro v hv
        have : npNorm (sandwich (q s) v) ^ 2 = 1 := by
          rw [npNorm_sq_dot, npDot_eq_dotProduct, sandwich_dot hq, unit3_dot hv]
        have := npNorm_nonneg (sandwich (q s) v)
        nlinarith
      exact ⟨k _ hpl.1, k _ hpl.2.1, by rw [sandwich_dot hq]; exact hpl.2.2⟩
    have e := plane_sq' hpl' (H s)
    rw [← sandwich_cross hq, turning_normal] at e
    rw [npNorm_sq_dot, npDot_eq_dotProduct]
    exact e
  have hder : ∀ s, 0 ≤ s → ∃ μ, μ₀ ≤ μ ∧ μ ≤ 1 ∧ HasDerivAt x (n * y s) s ∧
      HasDerivAt y (-(n * x s) - kBbq * μ * y s) s ∧ HasDerivAt z (-(kBbq * μ) * z s) s := by
    intro s hs
    obtain ⟨hq1, β, μ, m, hβ, hμ, hμ1, hm, hT1, hT⟩ := h s hs
    have hq := (isUnit4_iff _).2 hq1
    have hpl := turning_frame he n s
    obtain ⟨d1, d2⟩ := hasDerivAt_turning n e₁ e₂ s
    have hA : sandwich (q s) (Spec.turning n e₁ e₂ s) ⬝ᵥ sandwich (q s) (Spec.turning n e₁ e₂ s) = 1 := by
      rw [sandwich_dot hq, unit3_dot hpl.1]
    have hAp : sandwich (q s) (Spec.turning n e₁ e₂ s) ⬝ᵥ sandwich (q s) (p s) = 0 := by
      rw [sandwich_dot hq]; exact hpl.2.2
    have hAz : sandwich (q s) (Spec.turning n e₁ e₂ s) ⬝ᵥ sandwich (q s) (e₁ ⨯₃ e₂) = 0 := by
      rw [sandwich_dot hq, ← turning_normal n s, dot_self_cross]
    have tq := fun u => detumbling_dot (μ := μ) hA hβ hm u
    refine ⟨μ, hμ, hμ1, ?_, ?_, ?_⟩
    · refine (hasDerivAt_along hT1 hT d1).congr_deriv ?_
      rw [tq, hA, sandwich_smul, dotProduct_smul, one_mul, sub_self, mul_zero, zero_add, smul_eq_mul]
    · refine (hasDerivAt_along hT1 hT d2).congr_deriv ?_
      rw [tq, hAp, sandwich_smul, dotProduct_smul, smul_eq_mul, dotProduct_comm (sandwich (q s) (p s))]
      simp only [hx, hy]
      ring
    · refine (hasDerivAt_along hT1 hT (hasDerivAt_const s (e₁ ⨯₃ e₂))).congr_deriv ?_
      have hz0 : sandwich (q s) 0 = 0 := by rw [sandwich_eq_dcm, Matrix.mulVec_zero]
      rw [tq, hAz, hz0, dotProduct_zero, dotProduct_comm (sandwich (q s) (e₁ ⨯₃ e₂))]
      simp only [hz]
      ring
  have hd : 0 < 2 * n ^ 2 + kBbq ^ 2 := by positivity
  have hgd : g * (2 * n ^ 2 + kBbq ^ 2) = kBbq * μ₀ * n := by rw [hg]; field_simp
  have hg0 : 0 < g := by positivity
  have hμ1 : μ₀ ≤ 1 := by obtain ⟨μ, a, b, -⟩ := hder 0 le_rfl; exact a.trans b
  have hg1 : g ≤ 1 / 2 := by
    rw [hg, div_le_iff₀ hd]
    nlinarith [sq_nonneg (n - kBbq), mul_pos hk hn, mul_le_mul_of_nonneg_left hμ1 (mul_pos hk hn).le]
  set V := fun τ => x τ ^ 2 + y τ ^ 2 + z τ ^ 2 + 2 * g * (x τ * y τ) with hV
  have hVle : ∀ s, V s ≤ 3 / 2 * (x s ^ 2 + y s ^ 2 + z s ^ 2) := by
    intro s
    have : 2 * g * (x s * y s) ≤ g * (x s ^ 2 + y s ^ 2) := by nlinarith [mul_nonneg hg0.le (sq_nonneg (x s - y s))]
    simp only [hV]
    nlinarith [sq_nonneg (x s), sq_nonneg (y s), sq_nonneg (z s)]
  have hVge : ∀ s, 1 / 2 * (x s ^ 2 + y s ^ 2 + z s ^ 2) ≤ V s := by
    intro s
    have : -(g * (x s ^ 2 + y s ^ 2)) ≤ 2 * g * (x s * y s) := by nlinarith [mul_nonneg hg0.le (sq_nonneg (x s + y s))]
    simp only [hV]
    nlinarith [sq_nonneg (x s), sq_nonneg (y s), sq_nonneg (z s)]
  have hex : ∀ s, ∃ r, 0 ≤ s → HasDerivAt V r s ∧ r ≤ -(2 / 3 * (g * n)) * V s := by
    intro s
    by_cases hs : 0 ≤ s
    swap
    · exact ⟨0, fun h => absurd h hs⟩
    obtain ⟨μ, hμ, hμ1, hdx, hdy, hdz⟩ := hder s hs
    refine ⟨2 * x s * (n * y s) + 2 * y s * (-(n * x s) - kBbq * μ * y s) + 2 * z s * (-(kBbq * μ) * z s) +
      2 * g * (n * y s * y s + x s * (-(n * x s) - kBbq * μ * y s)), fun _ => ⟨?_, ?_⟩⟩
    · refine ((((hdx.fun_pow 2).fun_add (hdy.fun_pow 2)).fun_add (hdz.fun_pow 2)).fun_add
        ((hdx.fun_mul hdy).const_mul (2 * g))).congr_deriv ?_
      simp only [Nat.cast_ofNat, Nat.add_one_sub_one, pow_one]
    · have e := turning_estimate (x := x s) (y := y s) (z := z s) hk hn h0 hμ hμ1
      refine e.trans ?_
      have := mul_le_mul_of_nonneg_left (hVle s) (mul_pos hg0 hn).le
      linarith
  choose r hr using hex
  have hfin := decay_of_deriv (f := V) (f' := r) (fun s hs => (hr s hs).1) (fun s hs => (hr s hs).2) ht
  have e1 := hVge t
  have e2 := hVle 0
  rw [hsq t ht] at e1
  rw [hsq 0 le_rfl] at e2
  have e3 := mul_le_mul_of_nonneg_left e2 (Real.exp_pos (-(2 / 3 * (g * n)) * t)).le
  have hgn : kBbq * μ₀ * n ^ 2 / (2 * n ^ 2 + kBbq ^ 2) = g * n := by rw [hg]; ring
  rw [hgn]
  linarith

/-- And in a field that turns steadily all angular momentum dies out exponentially, whatever the moments of inertia
and the rates. -/
theorem C179_turning_partial {c : MagController} {μ₀ n : ℝ} (h0 : 0 < μ₀) (hn : 0 < n) {e₁ e₂ : V3}
    (he : Spec.Plane e₁ e₂) {q : ℝ → V4} {w : ℝ → V3}
    (h : Spec.Detumbling c μ₀ (Spec.turning n e₁ e₂) q w) {t : ℝ} (ht : 0 ≤ t) :
    npNorm (c.sat.totalMoment *ᵥ w t) ^ 2 ≤
      3 * Real.exp (-(2 / 3 * (kBbq * μ₀ * n ^ 2 / (2 * n ^ 2 + kBbq ^ 2))) * t) *
        npNorm (c.sat.totalMoment *ᵥ w 0) ^ 2 :=
  damped_turning h0 hn he h.damped ht

/-- Turning about the third axis. -/
noncomputable def zTurn (θ : ℝ) : V4 := ![Real.cos (θ / 2), 0, 0, Real.sin (θ / 2)]

theorem zTurn_unit (θ : ℝ) : npNorm (zTurn θ) = 1 := by
  rw [← isUnit4_iff]
  have := Real.sin_sq_add_cos_sq (θ / 2)
  simp only [IsUnit4, zTurn, Matrix.cons_val_zero, Matrix.cons_val_one, cons4_2, cons4_3]
  linarith

theorem zTurn_deriv {θ : ℝ → ℝ} {Ω t : ℝ} (hθ : HasDerivAt θ Ω t) :
    HasDerivAt (fun τ => zTurn (θ τ)) ((0.5 : ℝ) • product (zTurn (θ t)) ![0, 0, 0, Ω]) t := by
  have h2 : HasDerivAt (fun τ => θ τ / 2) (Ω / 2) t := hθ.div_const 2
  rw [hasDerivAt_pi]
  intro i
  fin_cases i
  · refine (h2.cos).congr_deriv ?_
    simp [zTurn, product_0]; ring
  · refine (hasDerivAt_const t (0 : ℝ)).congr_deriv ?_
    simp [zTurn, product_1]
  · refine (hasDerivAt_const t (0 : ℝ)).congr_deriv ?_
    simp [zTurn, product_2]
  · refine (h2.sin).congr_deriv ?_
    simp [zTurn, product_3]; ring

theorem zTurn_turns {D : V3} {θ Ω : ℝ → ℝ} {Ω' t : ℝ} {m B : V3} (hθ : HasDerivAt θ (Ω t) t)
    (hΩ : HasDerivAt Ω Ω' t) (hm : m ⨯₃ B = ![0, 0, D 2 * Ω']) :
    TurnsAt (Matrix.diagonal D) (fun τ => zTurn (θ τ)) (fun τ => ![0, 0, Ω τ]) m B t := by
  constructor
  · exact zTurn_deriv hθ
  · have e : (fun τ => Matrix.diagonal D *ᵥ ![0, 0, Ω τ]) = fun τ => ![0, 0, D 2 * Ω τ] := by
      funext τ
      apply vec3_ext <;> simp [Matrix.mulVec_diagonal]
    rw [e, hm]
    have e2 : Matrix.diagonal D *ᵥ ![0, 0, Ω t] = ![0, 0, D 2 * Ω t] := congrFun e t
    rw [e2]
    rw [hasDerivAt_pi]
    intro i
    fin_cases i
    · refine (hasDerivAt_const t (0 : ℝ)).congr_deriv ?_
      simp [cross_apply]
    · refine (hasDerivAt_const t (0 : ℝ)).congr_deriv ?_
      simp [cross_apply]
    · refine (hΩ.const_mul (D 2)).congr_deriv ?_
      simp [cross_apply]

theorem zTurn_axis (θ : ℝ) : sandwich (zTurn θ) ![0, 0, 1] = ![0, 0, 1] := by
  have := Real.sin_sq_add_cos_sq (θ / 2)
  apply vec3_ext
  · rw [sandwich_0]; simp [zTurn]
  · rw [sandwich_1]; simp [zTurn]
  · rw [sandwich_2]; simp [zTurn]

theorem zTurn_plane (θ : ℝ) (v : V3) (hv : v 2 = 0) : sandwich (zTurn θ) v 2 = 0 := by
  rw [sandwich_2]; simp [zTurn, hv]

/-- A satellite that turns about the direction of the field keeps turning. -/
theorem C179_detumble_fails : ¬ C179_claim := by
  intro H
  obtain ⟨sat, hb, hpd, ⟨h3, hmt⟩, hI, -, -⟩ := exSat3 true []
  set model : CtlModel := ⟨sat, some ⟨0, 0⟩, none⟩ with hmodel
  obtain ⟨c, hc⟩ : ∃ c, MagController.init model h3 false = .ok c := ⟨_, rfl⟩
  have hsat : c.sat = sat := by
    have := Except.ok.inj hc
    subst this
    rfl
  have hJ : c.sat.totalMoment = Matrix.diagonal ![0.012514, 0.012414, 0.006214] := by rw [hsat]; exact hI
  have hax : (![0, 0, 1] : V3) ≠ 0 := by intro h; have := congrFun h 2; norm_num at this
  have hw : (fun t : ℝ => c.sat.totalMoment *ᵥ ((fun _ : ℝ => (![0, 0, 1] : V3)) t)) =
      fun _ => ![0, 0, 0.006214] := by
    funext t
    rw [hJ]
    apply vec3_ext <;> simp [Matrix.mulVec_diagonal]
  have hlim := H model h3 _ _ _ _ hb hpd c hc ![0, 0, 1] (fun τ => zTurn τ) (fun _ => ![0, 0, 1])
    (by rw [npNorm_eq_one, Fin.sum_univ_three]; norm_num) (by
      intro t _
      refine ⟨zTurn_unit t, 1, 1, 0, one_ne_zero, le_rfl, le_rfl, ?_, ?_⟩
      · rw [zTurn_axis, one_smul, magMoment_ok hax]
        congr 1
        apply vec3_ext <;>
          simp [MagController.detumbleTorque, hJ, npCross_0, npCross_1, npCross_2, Matrix.mulVec_diagonal]
      · rw [hJ]
        refine zTurn_turns (θ := fun τ => τ) (Ω := fun _ => 1) (Ω' := 0) (hasDerivAt_id t) (hasDerivAt_const t 1) ?_
        apply vec3_ext <;> simp)
  have hw' : (fun t : ℝ => npNorm (c.sat.totalMoment *ᵥ ((fun _ : ℝ => (![0, 0, 1] : V3)) t))) =
      fun _ => npNorm (![0, 0, 0.006214] : V3) := by
    funext t
    rw [congrFun hw t]
  rw [hw'] at hlim
  have h0 := tendsto_nhds_unique hlim tendsto_const_nhds
  have h1 : npNorm (![0, 0, 0.006214] : V3) ^ 2 = 0.006214 ^ 2 := by
    rw [npNorm_sq_dot, npDot_eq_dotProduct, Matrix.vec3_dotProduct]; norm_num
  rw [← h0] at h1
  norm_num at h1

/-- Motions in a turning field exist: a satellite that spins about the normal of the plane in which the field turns,
once around in an orbit of 92 minutes. -/
example : ∃ (c : MagController) (q : ℝ → V4) (w : ℝ → V3), w 0 = ![0, 0, 1] ∧
    Spec.Plane ![1, 0, 0] ![0, 1, 0] ∧
    Spec.Detumbling c 1 (Spec.turning (2 * Real.pi / 5560.8) ![1, 0, 0] ![0, 1, 0]) q w := by
  obtain ⟨sat, hb, hpd, ⟨h3, hmt⟩, hI, -, -⟩ := exSat3 true []
  set model : CtlModel := ⟨sat, some ⟨0, 0⟩, none⟩ with hmodel
  obtain ⟨c, hc⟩ : ∃ c, MagController.init model h3 false = .ok c := ⟨_, rfl⟩
  have hsat : c.sat = sat := by
    have := Except.ok.inj hc
    subst this
    rfl
  have hJ : c.sat.totalMoment = Matrix.diagonal ![0.012514, 0.012414, 0.006214] := by rw [hsat]; exact hI
  have hk := kBbq_pos
  have hpl : Spec.Plane ![1, 0, 0] ![0, 1, 0] := by
    refine ⟨?_, ?_, ?_⟩
    · rw [npNorm_eq_one, Fin.sum_univ_three]; norm_num
    · rw [npNorm_eq_one, Fin.sum_univ_three]; norm_num
    · simp
  refine ⟨c, fun τ => zTurn ((1 - Real.exp (-kBbq * τ)) / kBbq), fun τ => ![0, 0, Real.exp (-kBbq * τ)],
    by simp, hpl, ?_⟩
  intro t _
  set b := Spec.turning (2 * Real.pi / 5560.8) ![1, 0, 0] ![0, 1, 0] t with hbdef
  set q := zTurn ((1 - Real.exp (-kBbq * t)) / kBbq) with hq
  have hA : sandwich q b ⬝ᵥ sandwich q b = 1 := by
    rw [sandwich_dot ((isUnit4_iff _).2 (zTurn_unit _)), unit3_dot (turning_frame hpl _ t).1]
  have hA2 : sandwich q b 2 = 0 := zTurn_plane _ _ (by simp [hbdef, Spec.turning])
  have hne : sandwich q b ≠ 0 := by
    intro h; rw [h] at hA; simp at hA
  obtain ⟨m, hm, -, hm2⟩ := C65_moment (sandwich q b) (c.detumbleTorque ![0, 0, Real.exp (-kBbq * t)]) hne
  have hT : c.detumbleTorque ![0, 0, Real.exp (-kBbq * t)] =
      ![0, 0, 0.006214 * (Real.exp (-kBbq * t) * -kBbq)] := by
    unfold MagController.detumbleTorque
    rw [hJ]
    apply vec3_ext <;> simp [Matrix.mulVec_diagonal]
    ring
  refine ⟨zTurn_unit _, 1, 1, m, one_ne_zero, le_rfl, le_rfl, by rw [one_smul]; exact hm, ?_⟩
  rw [one_smul, one_smul, hJ]
  have he : HasDerivAt (fun τ => Real.exp (-kBbq * τ)) (Real.exp (-kBbq * t) * -kBbq) t := by
    simpa using ((hasDerivAt_id t).const_mul (-kBbq)).exp
  refine zTurn_turns (θ := fun τ => (1 - Real.exp (-kBbq * τ)) / kBbq) ?_ he ?_
  · refine ((he.const_sub 1).div_const kBbq).congr_deriv ?_
    field_simp
  · rw [hm2, hT]
    have : sandwich q b ⬝ᵥ ![0, 0, 0.006214 * (Real.exp (-kBbq * t) * -kBbq)] = 0 := by
      rw [Matrix.vec3_dotProduct, hA2]; simp
    rw [this]
    simp

end Adcs
