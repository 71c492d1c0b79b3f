import Verif.Props.SampledTrack
import Verif.Props.Integrator

set_option autoImplicit false

/-! # Steps of the integrator under a held command of the tracking law -/

namespace Adcs

open Str Sens JDay Quat Vec Dyn Ctl Spec Set
open scoped Matrix

/-! ## Norms -/

theorem npNorm_eq_euclid {n : ℕ} (x : Fin n → ℝ) : npNorm x = ‖(WithLp.toLp 2 x : EuclideanSpace ℝ (Fin n))‖ := by
  refine (pow_left_inj₀ (npNorm_nonneg _) (norm_nonneg _) two_ne_zero).1 ?_
  rw [npNorm_sq, EuclideanSpace.norm_sq_eq]
  exact Finset.sum_congr rfl fun i _ => by rw [Real.norm_eq_abs, sq_abs]

theorem npNorm_add' {n : ℕ} (x y : Fin n → ℝ) : npNorm (x + y) ≤ npNorm x + npNorm y := by
  simp only [npNorm_eq_euclid, WithLp.toLp_add]
  exact norm_add_le _ _

theorem npNorm_neg' {n : ℕ} (x : Fin n → ℝ) : npNorm (-x) = npNorm x := by
  have := npNorm_smul (-1 : ℝ) x
  rw [neg_one_smul] at this
  rw [this]; simp

theorem npNorm_sub' {n : ℕ} (x y : Fin n → ℝ) : npNorm (x - y) ≤ npNorm x + npNorm y := by
  rw [sub_eq_add_neg, ← npNorm_neg' y]; exact npNorm_add' _ _

theorem dot_le_norms {n : ℕ} (x y : Fin n → ℝ) : |x ⬝ᵥ y| ≤ npNorm x * npNorm y := by
  refine abs_le_of_sq_le_sq ?_ (mul_nonneg (npNorm_nonneg _) (npNorm_nonneg _))
  rw [mul_pow, npNorm_sq, npNorm_sq]
  exact Finset.sum_mul_sq_le_sq_mul_sq _ _ _

theorem dot_self_norm' {n : ℕ} (x : Fin n → ℝ) : x ⬝ᵥ x = npNorm x ^ 2 := by rw [npNorm_sq_dot, npDot_eq_dotProduct]

theorem npNorm_product' (p q : V4) : npNorm (product p q) = npNorm p * npNorm q := by
  refine (pow_left_inj₀ (npNorm_nonneg _) (mul_nonneg (npNorm_nonneg _) (npNorm_nonneg _)) two_ne_zero).1 ?_
  rw [mul_pow, npNorm4_sq, npNorm4_sq, npNorm4_sq, product_0, product_1, product_2, product_3]
  ring

/-- The average of the four slopes. -/
theorem avg_near {n : ℕ} {k k1 k2 k3 k4 : Fin n → ℝ} {X : ℝ} (h1 : npNorm (k1 - k) ≤ X) (h2 : npNorm (k2 - k) ≤ X)
    (h3 : npNorm (k3 - k) ≤ X) (h4 : npNorm (k4 - k) ≤ X) :
    npNorm ((1 / 6 : ℝ) • (k1 + (2 : ℝ) • k2 + (2 : ℝ) • k3 + k4) - k) ≤ X := by
  have e : (1 / 6 : ℝ) • (k1 + (2 : ℝ) • k2 + (2 : ℝ) • k3 + k4) - k =
      (1 / 6 : ℝ) • ((k1 - k) + (2 : ℝ) • (k2 - k) + (2 : ℝ) • (k3 - k) + (k4 - k)) := by
    funext i; simp only [Pi.smul_apply, Pi.add_apply, Pi.sub_apply, smul_eq_mul]; ring
  rw [e, npNorm_smul, abs_of_pos (by norm_num)]
  have a1 := npNorm_add' ((k1 - k) + (2 : ℝ) • (k2 - k) + (2 : ℝ) • (k3 - k)) (k4 - k)
  have a2 := npNorm_add' ((k1 - k) + (2 : ℝ) • (k2 - k)) ((2 : ℝ) • (k3 - k))
  have a3 := npNorm_add' (k1 - k) ((2 : ℝ) • (k2 - k))
  rw [npNorm_smul, abs_of_pos (by norm_num : (0 : ℝ) < 2)] at a2 a3
  linarith

/-! ## One stage -/

/-- The acceleration of the body in the library's equations of motion. -/
def bodyAcc (K J : M3) (law T w hw : V3) : V3 := K *ᵥ (T + law - npCross w (J *ᵥ w + hw))

/-- The rate of the attitude. -/
noncomputable def attRate (q : V4) (w : V3) : V4 := (0.5 : ℝ) • product q (pureQ w)

/-- Constants for a sample: the matrices, the law and the acceleration `k` it asks for, at the rate `w` and the momentum
`hw` of the wheels; `r` measures the error and `rr` adds the torque. -/
structure SimBound (K J : M3) (law k w hw : V3) (j l H Lw κ δ r rr R P Q h : ℝ) : Prop where
  hj0 : 0 ≤ j
  hl0 : 0 ≤ l
  hJ : ∀ x, npNorm (J *ᵥ x) ≤ j * npNorm x
  hK : ∀ x, npNorm (K *ᵥ x) ≤ l * npNorm x
  hk : K *ᵥ (law - npCross w (J *ᵥ w + hw)) = k
  nk : npNorm k ≤ κ * r
  nw : npNorm w ≤ 2 * r
  nH : npNorm hw ≤ H
  nl : npNorm law ≤ r * Lw
  κ0 : 0 ≤ κ
  L0 : 0 ≤ Lw
  δ0 : 0 ≤ δ
  r0 : 0 ≤ r
  err : rr = r + δ
  hR : rr ≤ R
  eP : P = κ + l + 1
  eQ : Q = P * (3 * j * R + H + 1) + 2 * R * (j * P + Lw)
  h0 : 0 ≤ h
  c1 : h * P ≤ 1
  c2 : h * (R * Lw) ≤ 1
  c3 : l * (h * Q) ≤ 1

namespace SimBound

variable {K J : M3} {law k w hw : V3} {j l H Lw κ δ r rr R P Q h : ℝ}

theorem H0 (b : SimBound K J law k w hw j l H Lw κ δ r rr R P Q h) : 0 ≤ H := (npNorm_nonneg _).trans b.nH

theorem rr0 (b : SimBound K J law k w hw j l H Lw κ δ r rr R P Q h) : 0 ≤ rr ∧ r ≤ rr ∧ δ ≤ rr ∧ 0 ≤ R := by
  have := b.err; have := b.δ0; have := b.r0; have := b.hR
  exact ⟨by linarith, by linarith, by linarith, by linarith⟩

theorem P0 (b : SimBound K J law k w hw j l H Lw κ δ r rr R P Q h) : 0 ≤ P := by
  have := b.eP; have := b.κ0; have := b.hl0; linarith

theorem Q0 (b : SimBound K J law k w hw j l H Lw κ δ r rr R P Q h) : 0 ≤ Q := by
  have h1 := b.P0
  have h2 := b.rr0.2.2.2
  have h3 := b.hj0
  have h4 := b.H0
  have h5 := b.L0
  rw [b.eQ]; positivity

theorem stage_w (b : SimBound K J law k w hw j l H Lw κ δ r rr R P Q h) {w' : V3}
    (hw' : npNorm (w' - w) ≤ h * P * rr) : npNorm w' ≤ 3 * rr := by
  have h1 := npNorm_add3 (w' - w) w
  rw [sub_add_cancel] at h1
  have h2 := b.nw
  have h3 := mul_le_mul_of_nonneg_right b.c1 b.rr0.1
  have h4 := b.rr0.2.1
  linarith

theorem stage_acc (b : SimBound K J law k w hw j l H Lw κ δ r rr R P Q h) {w' hw' T : V3}
    (h1 : npNorm (w' - w) ≤ h * P * rr) (h2 : npNorm (hw' - hw) ≤ h * (r * Lw)) (hT : npNorm T ≤ δ) :
    npNorm (bodyAcc K J law T w' hw' - k) ≤ l * δ + l * (h * rr * Q) ∧ npNorm (bodyAcc K J law T w' hw') ≤ P * rr := by
  obtain ⟨g1, g2, g3, g4⟩ := b.rr0
  have hP0 := b.P0
  have hQ0 := b.Q0
  have hH0 := b.H0
  have hj0 := b.hj0
  have hl0 := b.hl0
  have hL0 := b.L0
  have hh0 := b.h0
  have hr0 := b.r0
  have e1 : bodyAcc K J law T w' hw' - k =
      K *ᵥ T - K *ᵥ (npCross (w' - w) (J *ᵥ w' + hw') + npCross w (J *ᵥ (w' - w) + (hw' - hw))) := by
    rw [← b.hk, bodyAcc, ← Matrix.mulVec_sub, ← Matrix.mulVec_sub, Matrix.mulVec_sub J]
    congr 1
    apply vec3_ext <;>
      simp only [Pi.add_apply, Pi.sub_apply, npCross_0, npCross_1, npCross_2] <;> ring
  have a1 : npNorm (J *ᵥ w' + hw') ≤ 3 * j * R + H + 1 := by
    have i1 := npNorm_add3 (J *ᵥ w') hw'
    have i2 := b.hJ w'
    have i3 := mul_le_mul_of_nonneg_left ((b.stage_w h1).trans (mul_le_mul_of_nonneg_left b.hR (by norm_num))) hj0
    have i4 := npNorm_add3 (hw' - hw) hw
    rw [sub_add_cancel] at i4
    have i5 := b.nH
    have i6 : h * (r * Lw) ≤ 1 := by
      refine le_trans ?_ b.c2
      have : r ≤ R := by linarith [b.hR]
      gcongr
    linarith
  have a2 : npNorm (npCross (w' - w) (J *ᵥ w' + hw')) ≤ h * P * rr * (3 * j * R + H + 1) :=
    (cross_norm_le _ _).trans (mul_le_mul h1 a1 (npNorm_nonneg _) (by positivity))
  have a3 : npNorm (J *ᵥ (w' - w) + (hw' - hw)) ≤ h * rr * (j * P + Lw) := by
    have i1 := npNorm_add3 (J *ᵥ (w' - w)) (hw' - hw)
    have i2 := (b.hJ (w' - w)).trans (mul_le_mul_of_nonneg_left h1 hj0)
    have i3 : h * (r * Lw) ≤ h * (rr * Lw) := by gcongr
    linarith
  have a4 : npNorm (npCross w (J *ᵥ (w' - w) + (hw' - hw))) ≤ 2 * R * (h * rr * (j * P + Lw)) := by
    refine (cross_norm_le _ _).trans (mul_le_mul (b.nw.trans ?_) a3 (npNorm_nonneg _) (by positivity))
    linarith [b.hR]
  have a5 : npNorm (npCross (w' - w) (J *ᵥ w' + hw') + npCross w (J *ᵥ (w' - w) + (hw' - hw))) ≤ h * rr * Q := by
    have := npNorm_add3 (npCross (w' - w) (J *ᵥ w' + hw')) (npCross w (J *ᵥ (w' - w) + (hw' - hw)))
    rw [b.eQ]
    linarith
  have a6 : npNorm (bodyAcc K J law T w' hw' - k) ≤ l * δ + l * (h * rr * Q) := by
    rw [e1]
    have i1 := npNorm_sub3 (K *ᵥ T) (K *ᵥ (npCross (w' - w) (J *ᵥ w' + hw') + npCross w (J *ᵥ (w' - w) + (hw' - hw))))
    have i2 := (b.hK T).trans (mul_le_mul_of_nonneg_left hT hl0)
    have i3 := (b.hK (npCross (w' - w) (J *ᵥ w' + hw') + npCross w (J *ᵥ (w' - w) + (hw' - hw)))).trans
      (mul_le_mul_of_nonneg_left a5 hl0)
    linarith
  refine ⟨a6, ?_⟩
  have i1 := npNorm_add3 (bodyAcc K J law T w' hw' - k) k
  rw [sub_add_cancel] at i1
  have i2 := b.nk
  have i3 : κ * r ≤ κ * rr := mul_le_mul_of_nonneg_left g2 b.κ0
  have i4 : l * δ ≤ l * rr := mul_le_mul_of_nonneg_left g3 hl0
  have i5 := mul_le_mul_of_nonneg_right b.c3 g1
  rw [b.eP]
  linarith

end SimBound

/-- The rate of the attitude at a stage. -/
theorem stage_att {q qi q' : V4} {w w' : V3} {h t dt rr R P : ℝ} (hq : npNorm q = 1) (hqi : npNorm qi = 1)
    (h1 : npNorm (q' - qi) ≤ 3 * dt * rr) (h2 : npNorm (qi - q) ≤ 2 * t * rr) (ht : t + dt ≤ h) (ht0 : 0 ≤ t)
    (hdt : 0 ≤ dt) (hrr : 0 ≤ rr) (hR : rr ≤ R)
    (h3 : npNorm w' ≤ 3 * rr) (h4 : npNorm (w' - w) ≤ h * P * rr) (h5 : 3 * dt * rr ≤ 1) :
    npNorm (attRate q' w') ≤ 3 * rr ∧ npNorm (attRate q' w' - attRate q w) ≤ h * rr * ((9 * R + P) / 2) ∧
    |qi ⬝ᵥ attRate q' w'| ≤ 9 * dt * rr ^ 2 := by
  have hn : npNorm q' ≤ 2 := by
    have := npNorm_add' (q' - qi) qi
    rw [sub_add_cancel] at this
    linarith
  have a1 : npNorm (attRate q' w') ≤ 3 * rr := by
    rw [attRate, npNorm_smul, npNorm_product', npNorm_pureQ, abs_of_pos (by norm_num)]
    have := mul_le_mul hn h3 (npNorm_nonneg _) (by norm_num)
    norm_num
    linarith
  refine ⟨a1, ?_, ?_⟩
  · have e : attRate q' w' - attRate q w = (0.5 : ℝ) • (product (q' - q) (pureQ w') + product q (pureQ (w' - w))) := by
      apply vec4_ext <;>
        simp only [attRate, Pi.sub_apply, Pi.smul_apply, Pi.add_apply, smul_eq_mul, product_0, product_1, product_2, product_3,
          pureQ] <;> simp <;> ring
    rw [e, npNorm_smul, abs_of_pos (by norm_num)]
    have i1 := npNorm_add' (product (q' - q) (pureQ w')) (product q (pureQ (w' - w)))
    rw [npNorm_product', npNorm_product', npNorm_pureQ, npNorm_pureQ, hq, one_mul] at i1
    have i2 : npNorm (q' - q) ≤ 3 * h * rr := by
      have := npNorm_add' (q' - qi) (qi - q)
      rw [sub_add_sub_cancel] at this
      have i3 := mul_le_mul_of_nonneg_right ht hrr
      have i4 := mul_nonneg ht0 hrr
      linarith
    have i3 : npNorm (q' - q) * npNorm w' ≤ 3 * h * rr * (3 * R) :=
      mul_le_mul i2 (h3.trans (by linarith)) (npNorm_nonneg _) ((npNorm_nonneg _).trans i2)
    norm_num
    linarith
  · have e : qi ⬝ᵥ attRate q' w' = (qi - q') ⬝ᵥ attRate q' w' := by
      rw [sub_dotProduct, eq_comm, sub_eq_self]
      simp only [attRate, dotProduct, Fin.sum_univ_four, Pi.smul_apply, smul_eq_mul, product_0, product_1, product_2, product_3,
        pureQ]
      simp
      ring
    rw [e]
    refine (dot_le_norms _ _).trans ?_
    rw [← npNorm_neg', neg_sub]
    calc _ ≤ 3 * dt * rr * (3 * rr) := mul_le_mul h1 a1 (npNorm_nonneg _) (by positivity)
      _ = _ := by ring

/-! ## One step -/

/-- The rotational part of a step of the integrator, with the torques `T1`, ... of the environment at the stages. -/
def RotStep (K J : M3) (law : V3) (dt δ : ℝ) (q : V4) (w hw : V3) (q' : V4) (w' hw' : V3) : Prop :=
  ∃ (T1 T2 T3 T4 a1 a2 a3 a4 : V3) (d1 d2 d3 d4 : V4), npNorm T1 ≤ δ ∧ npNorm T2 ≤ δ ∧ npNorm T3 ≤ δ ∧ npNorm T4 ≤ δ ∧
    a1 = bodyAcc K J law T1 w hw ∧ d1 = attRate q w ∧
    a2 = bodyAcc K J law T2 (w + (dt / 2) • a1) (hw - (dt / 2) • law) ∧
    d2 = attRate (q + (dt / 2) • d1) (w + (dt / 2) • a1) ∧
    a3 = bodyAcc K J law T3 (w + (dt / 2) • a2) (hw - (dt / 2) • law) ∧
    d3 = attRate (q + (dt / 2) • d2) (w + (dt / 2) • a2) ∧
    a4 = bodyAcc K J law T4 (w + dt • a3) (hw - dt • law) ∧ d4 = attRate (q + dt • d3) (w + dt • a3) ∧
    w' = w + dt • ((1 / 6 : ℝ) • (a1 + (2 : ℝ) • a2 + (2 : ℝ) • a3 + a4)) ∧
    q' = normalizeV (q + dt • ((1 / 6 : ℝ) • (d1 + (2 : ℝ) • d2 + (2 : ℝ) • d3 + d4))) ∧ hw' = hw - dt • law

/-- The state at the time `t` after the sample, close to that of constant acceleration. -/
structure SimNear (k law : V3) (q : V4) (w hw : V3) (X Y t : ℝ) (q' : V4) (w' hw' : V3) : Prop where
  unit : npNorm q' = 1
  rate : npNorm (w' - w - t • k) ≤ t * X
  att : npNorm (q' - q - t • attRate q w) ≤ t * Y
  mom : hw' = hw - t • law

/-- What the normalisation changes. -/
theorem normalize_near {q d : V4} {x : ℝ} (hq : npNorm q = 1) (h1 : 2 * |q ⬝ᵥ d| + npNorm d ^ 2 ≤ x) (hx : x < 1) :
    npNorm (normalizeV (q + d)) = 1 ∧ npNorm (normalizeV (q + d) - (q + d)) ≤ x := by
  set N := npNorm (q + d) with hN
  have hN0 : 0 ≤ N := npNorm_nonneg _
  have e : N ^ 2 = 1 + (2 * (q ⬝ᵥ d) + npNorm d ^ 2) := by
    rw [hN, ← dot_self_norm', add_dotProduct, dotProduct_add, dotProduct_add, dot_self_norm' q, dot_self_norm' d, hq,
      dotProduct_comm d q]
    ring
  have h2 := abs_le.1 (le_refl |q ⬝ᵥ d|)
  have h3 := sq_nonneg (npNorm d)
  have hne : q + d ≠ 0 := by
    intro h0
    have : N = 0 := by rw [hN, h0]; exact npNorm_eq_zero.2 rfl
    rw [this] at e
    norm_num at e
    linarith
  have hNp : 0 < N := npNorm_pos hne
  refine ⟨npNorm_normalize hne, ?_⟩
  have e2 : normalizeV (q + d) - (q + d) = (N⁻¹ - 1) • (q + d) := by
    rw [normalize_eq hne, sub_smul, one_smul]
  rw [e2, npNorm_smul, ← hN]
  have e3 : |N⁻¹ - 1| * N = |1 - N| := by
    rw [← abs_of_pos hNp, ← abs_mul, abs_of_pos hNp, sub_mul, one_mul, inv_mul_cancel₀ hNp.ne']
  rw [e3, abs_le]
  constructor <;> nlinarith

set_option maxHeartbeats 1000000 in
/-- A step keeps the state close to that of constant acceleration. -/
theorem SimBound.step {K J : M3} {law k w hw : V3} {j l H Lw κ δ r rr R P Q h : ℝ}
    (b : SimBound K J law k w hw j l H Lw κ δ r rr R P Q h) {q : V4} (hq : npNorm q = 1) {t dt X Y : ℝ} (ht0 : 0 ≤ t)
    (hdt : 0 < dt) (ht : t + dt ≤ h) (hX : X = l * δ + l * (h * rr * Q)) (hY : Y = (9 * R + P) / 2 + 27 * R)
    (c4 : h * Y ≤ 1) (c5 : 12 * h * R ≤ 1) {qi qn : V4} {wi hwi wn hwn : V3}
    (hi : SimNear k law q w hw X (h * rr * Y) t qi wi hwi) (hs : RotStep K J law dt δ qi wi hwi qn wn hwn) :
    SimNear k law q w hw X (h * rr * Y) (t + dt) qn wn hwn := by
  obtain ⟨T1, T2, T3, T4, a1, a2, a3, a4, d1, d2, d3, d4, t1, t2, t3, t4, ea1, ed1, ea2, ed2, ea3, ed3, ea4, ed4, ew, eq, eh⟩ := hs
  obtain ⟨g1, g2, g3, g4⟩ := b.rr0
  have hP0 := b.P0
  have hh0 := b.h0
  have hl0 := b.hl0
  -- sizes at the beginning of the step
  have kX : npNorm k + X ≤ P * rr := by
    have i2 := b.nk
    have i3 : κ * r ≤ κ * rr := mul_le_mul_of_nonneg_left g2 b.κ0
    have i4 : l * δ ≤ l * rr := mul_le_mul_of_nonneg_left g3 hl0
    have i5 := mul_le_mul_of_nonneg_right b.c3 g1
    rw [b.eP, hX]
    linarith
  have wi0 : npNorm (wi - w) ≤ t * (P * rr) := by
    have i1 := npNorm_add3 (wi - w - t • k) (t • k)
    rw [sub_add_cancel, npNorm_smul, abs_of_nonneg ht0] at i1
    have i2 := mul_le_mul_of_nonneg_left kX ht0
    have i3 := hi.rate
    linarith
  have qdot : npNorm (attRate q w) ≤ rr := by
    rw [attRate, npNorm_smul, npNorm_product', npNorm_pureQ, hq, abs_of_pos (by norm_num)]
    have := b.nw
    norm_num
    linarith
  have qi0 : npNorm (qi - q) ≤ 2 * t * rr := by
    have i1 := npNorm_add' (qi - q - t • attRate q w) (t • attRate q w)
    rw [sub_add_cancel, npNorm_smul, abs_of_nonneg ht0] at i1
    have i2 := mul_le_mul_of_nonneg_left qdot ht0
    have i3 := hi.att
    have i4 := mul_le_mul_of_nonneg_left (mul_le_mul_of_nonneg_right c4 g1) ht0
    linarith
  have hdr : 12 * dt * rr ≤ 1 := by
    refine le_trans ?_ c5
    have : dt ≤ h := by linarith
    have := b.hR
    gcongr
  have hdr0 : 0 ≤ dt * rr := by positivity
  -- a stage at the time `s` after the beginning of the step
  have stW : ∀ (s : ℝ) (a : V3), 0 ≤ s → s ≤ dt → npNorm a ≤ P * rr → npNorm (wi + s • a - w) ≤ h * P * rr := by
    intro s a hs0 hs1 ha
    have i1 := npNorm_add3 (wi - w) (s • a)
    rw [npNorm_smul, abs_of_nonneg hs0] at i1
    have e : wi + s • a - w = wi - w + s • a := by abel
    rw [e]
    have i2 := mul_le_mul_of_nonneg_left ha hs0
    have i3 := mul_le_mul_of_nonneg_right (show t + s ≤ h by linarith) (mul_nonneg hP0 g1)
    linarith
  have stH : ∀ s : ℝ, 0 ≤ s → s ≤ dt → npNorm (hwi - s • law - hw) ≤ h * (r * Lw) := by
    intro s hs0 hs1
    have e : hwi - s • law - hw = (-(t + s)) • law := by rw [hi.mom, neg_smul, add_smul]; abel
    rw [e, npNorm_smul, abs_neg, abs_of_nonneg (by linarith)]
    exact mul_le_mul (by linarith) b.nl (npNorm_nonneg _) hh0
  have stQ : ∀ (s : ℝ) (d : V4), 0 ≤ s → s ≤ dt → npNorm d ≤ 3 * rr → npNorm (qi + s • d - qi) ≤ 3 * dt * rr := by
    intro s d hs0 hs1 hd
    rw [add_sub_cancel_left, npNorm_smul, abs_of_nonneg hs0]
    calc _ ≤ dt * (3 * rr) := mul_le_mul hs1 hd (npNorm_nonneg _) hdt.le
      _ = _ := by ring
  have st : ∀ (s : ℝ) (a : V3) (d : V4) (T : V3), 0 ≤ s → s ≤ dt → npNorm a ≤ P * rr → npNorm d ≤ 3 * rr → npNorm T ≤ δ →
      npNorm (bodyAcc K J law T (wi + s • a) (hwi - s • law) - k) ≤ X ∧
      npNorm (bodyAcc K J law T (wi + s • a) (hwi - s • law)) ≤ P * rr ∧
      npNorm (attRate (qi + s • d) (wi + s • a)) ≤ 3 * rr ∧
      npNorm (attRate (qi + s • d) (wi + s • a) - attRate q w) ≤ h * rr * ((9 * R + P) / 2) ∧
      |qi ⬝ᵥ attRate (qi + s • d) (wi + s • a)| ≤ 9 * dt * rr ^ 2 := by
    intro s a d T hs0 hs1 ha hd hT
    obtain ⟨i1, i2⟩ := b.stage_acc (stW s a hs0 hs1 ha) (stH s hs0 hs1) hT
    obtain ⟨i3, i4, i5⟩ := stage_att hq hi.unit (stQ s d hs0 hs1 hd) qi0 ht ht0 hdt.le g1 b.hR
      (b.stage_w (stW s a hs0 hs1 ha)) (stW s a hs0 hs1 ha) (by linarith)
    exact ⟨hX ▸ i1, i2, i3, i4, i5⟩
  have z3 : npNorm (0 : V3) = 0 := npNorm_eq_zero.2 rfl
  have z4 : npNorm (0 : V4) = 0 := npNorm_eq_zero.2 rfl
  obtain ⟨A1, B1, C1, D1, E1⟩ := st 0 0 0 T1 le_rfl hdt.le (by rw [z3]; positivity) (by rw [z4]; positivity) t1
  simp only [smul_zero, zero_smul, add_zero, sub_zero, ← ea1, ← ed1] at A1 B1 C1 D1 E1
  obtain ⟨A2, B2, C2, D2, E2⟩ := st (dt / 2) a1 d1 T2 (by positivity) (by linarith) B1 C1 t2
  rw [← ea2] at A2 B2
  rw [← ed2] at C2 D2 E2
  obtain ⟨A3, B3, C3, D3, E3⟩ := st (dt / 2) a2 d2 T3 (by positivity) (by linarith) B2 C2 t3
  rw [← ea3] at A3 B3
  rw [← ed3] at C3 D3 E3
  obtain ⟨A4, B4, C4, D4, E4⟩ := st dt a3 d3 T4 hdt.le le_rfl B3 C3 t4
  rw [← ea4] at A4 B4
  rw [← ed4] at C4 D4 E4
  have hA := avg_near A1 A2 A3 A4
  have hD := avg_near D1 D2 D3 D4
  set am := (1 / 6 : ℝ) • (a1 + (2 : ℝ) • a2 + (2 : ℝ) • a3 + a4) with ham
  set dm := (1 / 6 : ℝ) • (d1 + (2 : ℝ) • d2 + (2 : ℝ) • d3 + d4) with hdm
  have hC : npNorm dm ≤ 3 * rr := by
    have i := avg_near (k := (0 : V4)) ((sub_zero d1).symm ▸ C1) ((sub_zero d2).symm ▸ C2) ((sub_zero d3).symm ▸ C3)
      ((sub_zero d4).symm ▸ C4)
    exact (sub_zero dm) ▸ i
  have hE : |qi ⬝ᵥ dm| ≤ 9 * dt * rr ^ 2 := by
    rw [hdm]
    simp only [dotProduct_smul, dotProduct_add, smul_eq_mul]
    have f1 := abs_le.1 E1
    have f2 := abs_le.1 E2
    have f3 := abs_le.1 E3
    have f4 := abs_le.1 E4
    exact abs_le.2 ⟨by linarith only [f1.1, f2.1, f3.1, f4.1], by linarith only [f1.2, f2.2, f3.2, f4.2]⟩
  have hx : 27 * dt ^ 2 * rr ^ 2 < 1 := by
    have i1 : (12 * dt * rr) ^ 2 ≤ 1 := pow_le_one₀ (by positivity) hdr
    have i2 : 27 * dt ^ 2 * rr ^ 2 = 27 / 144 * (12 * dt * rr) ^ 2 := by ring
    rw [i2]
    linarith only [i1]
  obtain ⟨N1, N2⟩ := normalize_near (d := dt • dm) (x := 27 * dt ^ 2 * rr ^ 2) hi.unit (by
    rw [dotProduct_smul, smul_eq_mul, abs_mul, abs_of_pos hdt, npNorm_smul, abs_of_pos hdt, mul_pow]
    have i1 := mul_le_mul_of_nonneg_left hE hdt.le
    have i2 : npNorm dm ^ 2 ≤ (3 * rr) ^ 2 := pow_le_pow_left₀ (npNorm_nonneg _) hC 2
    have i3 := mul_le_mul_of_nonneg_left i2 (sq_nonneg dt)
    linarith only [i1, i3]) hx
  refine ⟨eq ▸ N1, ?_, ?_, ?_⟩
  · have e : wn - w - (t + dt) • k = (wi - w - t • k) + dt • (am - k) := by
      rw [ew, add_smul, smul_sub]; abel
    rw [e]
    have i1 := npNorm_add3 (wi - w - t • k) (dt • (am - k))
    rw [npNorm_smul, abs_of_pos hdt] at i1
    have i2 := mul_le_mul_of_nonneg_left hA hdt.le
    have i3 := hi.rate
    linarith only [i1, i2, i3]
  · have e : qn - q - (t + dt) • attRate q w = (qi - q - t • attRate q w) + (dt • (dm - attRate q w)
        + (qn - (qi + dt • dm))) := by
      rw [add_smul, smul_sub]; abel
    rw [e]
    have i0 := npNorm_add' (qi - q - t • attRate q w) (dt • (dm - attRate q w) + (qn - (qi + dt • dm)))
    have i1 := npNorm_add' (dt • (dm - attRate q w)) (qn - (qi + dt • dm))
    rw [npNorm_smul, abs_of_pos hdt] at i1
    have i2 := mul_le_mul_of_nonneg_left hD hdt.le
    have i3 := hi.att
    have i4 : npNorm (qn - (qi + dt • dm)) ≤ 27 * dt ^ 2 * rr ^ 2 := by rw [eq]; exact N2
    have i5 : dt ^ 2 * rr ^ 2 ≤ dt * (h * rr * R) := by
      have h1 : dt * rr ≤ h * rr := mul_le_mul_of_nonneg_right (by linarith) g1
      have h2 : dt * rr * rr ≤ h * rr * R := mul_le_mul h1 b.hR g1 (by positivity)
      have h3 := mul_le_mul_of_nonneg_left h2 hdt.le
      linarith only [h3]
    have e2 : (t + dt) * (h * rr * Y) = t * (h * rr * Y) + (dt * (h * rr * ((9 * R + P) / 2)) + 27 * (dt * (h * rr * R))) := by
      rw [hY]; ring
    rw [e2]
    linarith only [i0, i1, i2, i3, i4, i5]
  · rw [eh, hi.mom, add_smul]; abel

/-! ## The function along an interval -/

theorem errorQuat_add (p q qc : V4) : errorQuat (p + q) qc = errorQuat p qc + errorQuat q qc := by
  apply vec4_ext <;> simp only [errorQuat, Pi.add_apply, product_0, product_1, product_2, product_3] <;> ring

theorem errorQuat_smul (c : ℝ) (q qc : V4) : errorQuat (c • q) qc = c • errorQuat q qc := by
  apply vec4_ext <;>
    simp only [errorQuat, Pi.smul_apply, smul_eq_mul, product_0, product_1, product_2, product_3] <;> ring

theorem vecPart_add (p q : V4) : vecPart (p + q) = vecPart p + vecPart q := by
  apply vec3_ext <;> simp only [Pi.add_apply, vecPart_0, vecPart_1, vecPart_2]

theorem vecPart_smul (c : ℝ) (q : V4) : vecPart (c • q) = c • vecPart q := by
  apply vec3_ext <;> simp only [Pi.smul_apply, vecPart_0, vecPart_1, vecPart_2]

theorem errorQuat_norm (q : V4) {qc : V4} (hqc : npNorm qc = 1) : npNorm (errorQuat q qc) = npNorm q := by
  have : npNorm (conjugate qc) = 1 := by
    rw [npNorm_eq_one] at hqc ⊢
    rw [← hqc]
    simp [Fin.sum_univ_four, conjugate]
  rw [errorQuat, npNorm_product', this, one_mul]

theorem attRate_dot (s : ℝ) (q qc : V4) (w : V3) :
    (q - s • qc) ⬝ᵥ attRate q w = s * (vecPart (errorQuat q qc) ⬝ᵥ w) / 2 := by
  simp only [attRate, errorQuat, dotProduct, Fin.sum_univ_four, Fin.sum_univ_three, Pi.sub_apply, Pi.smul_apply, smul_eq_mul,
    product_0, product_1, product_2, product_3, vecPart_0, vecPart_1, vecPart_2, pureQ, conjugate]
  simp
  ring

theorem attRate_vec (q qc : V4) (w : V3) :
    vecPart (errorQuat (attRate q w) qc) ⬝ᵥ w = errorQuat q qc 0 * (w ⬝ᵥ w) / 2 := by
  simp only [attRate, errorQuat, dotProduct, Fin.sum_univ_three, Pi.smul_apply, smul_eq_mul,
    product_0, product_1, product_2, product_3, vecPart_0, vecPart_1, vecPart_2, pureQ, conjugate]
  simp
  ring

/-- The change of the function for a change `h (k + x)` of the rate and `h q' + ρ` of the attitude. -/
theorem strict_change {alpha gamma eps s h : ℝ} {q ρ qc : V4} {w k x : V3} (hs : s = 1 ∨ s = -1) (hq : npNorm q = 1)
    (hqc : npNorm qc = 1) (hk : k = -(s * alpha) • vecPart (errorQuat q qc) - gamma • w)
    (hn : npNorm (q + (h • attRate q w + ρ)) = 1) :
    strict alpha eps s (errorQuat (q + (h • attRate q w + ρ)) qc) (w + h • (k + x)) =
      strict alpha eps s (errorQuat q qc) w
      + h * (-gamma * (w ⬝ᵥ w) + w ⬝ᵥ x + eps * (s * errorQuat q qc 0 * (w ⬝ᵥ w) / 2
        - alpha * (vecPart (errorQuat q qc) ⬝ᵥ vecPart (errorQuat q qc))
        - gamma * (s * (vecPart (errorQuat q qc) ⬝ᵥ w)) + s * (vecPart (errorQuat q qc) ⬝ᵥ x)))
      + (2 * alpha * ((q - s • qc) ⬝ᵥ ρ) + alpha * npNorm (h • attRate q w + ρ) ^ 2 + npNorm (h • (k + x)) ^ 2 / 2
        + eps * (s * (vecPart (errorQuat ρ qc) ⬝ᵥ w)
          + s * (vecPart (errorQuat (h • attRate q w + ρ) qc) ⬝ᵥ (h • (k + x))))) := by
  have hs2 : s * s = 1 := by rcases hs with rfl | rfl <;> norm_num
  set v := vecPart (errorQuat q qc) with hv
  set D := h • attRate q w + ρ with hD
  have e1 : 2 * (1 - s * errorQuat (q + D) qc 0) = 2 * (1 - s * errorQuat q qc 0) + 2 * ((q - s • qc) ⬝ᵥ D) + npNorm D ^ 2 := by
    rw [← quat_dist hs hn hqc, ← quat_dist hs hq hqc]
    have : q + D - s • qc = (q - s • qc) + D := by abel
    have bil : ∀ a b : V4, (a + b) ⬝ᵥ (a + b) = a ⬝ᵥ a + 2 * (a ⬝ᵥ b) + b ⬝ᵥ b := fun a b => by
      rw [add_dotProduct, dotProduct_add, dotProduct_add, dotProduct_comm b a]; ring
    rw [this, ← dot_self_norm', ← dot_self_norm', ← dot_self_norm', bil]
  have e2 : (q - s • qc) ⬝ᵥ D = h * (s * (v ⬝ᵥ w) / 2) + (q - s • qc) ⬝ᵥ ρ := by
    rw [hD, dotProduct_add, dotProduct_smul, attRate_dot, smul_eq_mul]
  have e3 : vecPart (errorQuat (q + D) qc) = v + vecPart (errorQuat D qc) := by rw [errorQuat_add, vecPart_add]
  have e4 : vecPart (errorQuat D qc) ⬝ᵥ w = h * (errorQuat q qc 0 * (w ⬝ᵥ w) / 2) + vecPart (errorQuat ρ qc) ⬝ᵥ w := by
    rw [hD, errorQuat_add, errorQuat_smul, vecPart_add, vecPart_smul, add_dotProduct, smul_dotProduct, attRate_vec, smul_eq_mul]
  have e5 : w ⬝ᵥ k = -(s * alpha) * (v ⬝ᵥ w) - gamma * (w ⬝ᵥ w) := by
    rw [hk, dotProduct_sub, dotProduct_smul, dotProduct_smul, dotProduct_comm w v, smul_eq_mul, smul_eq_mul]
  have e6 : v ⬝ᵥ k = -(s * alpha) * (v ⬝ᵥ v) - gamma * (v ⬝ᵥ w) := by
    rw [hk, dotProduct_sub, dotProduct_smul, dotProduct_smul, smul_eq_mul, smul_eq_mul]
  have e7 : w ⬝ᵥ (h • (k + x)) = h * (w ⬝ᵥ k + w ⬝ᵥ x) := by rw [dotProduct_smul, dotProduct_add, smul_eq_mul]
  have e8 : v ⬝ᵥ (h • (k + x)) = h * (v ⬝ᵥ k + v ⬝ᵥ x) := by rw [dotProduct_smul, dotProduct_add, smul_eq_mul]
  unfold strict lyap
  rw [e3]
  set W := h • (k + x) with hW
  have e9 : (w + W) ⬝ᵥ (w + W) = w ⬝ᵥ w + 2 * (w ⬝ᵥ W) + npNorm W ^ 2 := by
    rw [← dot_self_norm', add_dotProduct, dotProduct_add, dotProduct_add, dotProduct_comm W w]
    ring
  have e10 : (v + vecPart (errorQuat D qc)) ⬝ᵥ (w + W) =
      v ⬝ᵥ w + v ⬝ᵥ W + vecPart (errorQuat D qc) ⬝ᵥ w + vecPart (errorQuat D qc) ⬝ᵥ W := by
    rw [add_dotProduct, dotProduct_add, dotProduct_add]; ring
  rw [e9, e10, e7, e8, e4, e5, e6]
  rw [e2] at e1
  have e11 : s * (s * alpha) = alpha := by rw [← mul_assoc, hs2, one_mul]
  linear_combination alpha * e1 - eps * h * (v ⬝ᵥ v) * e11

/-- The function after an interval of `h`. -/
theorem strict_hold {alpha gamma hyst eps c s h : ℝ} (ha : 0 < alpha) (hg : 0 < gamma) (he : 0 < eps) (hc : 0 < c)
    (h1 : eps ^ 2 ≤ alpha / 2) (h2 : eps * (1 + gamma ^ 2 / alpha) ≤ gamma) (h3 : 3 * c ≤ gamma)
    (h4 : 12 * c ≤ eps * (1 - hyst)) (hs : s = 1 ∨ s = -1) {q q' qc : V4} {w w' k law hw hw' : V3} (hq : npNorm q = 1)
    (hqc : npNorm qc = 1) (hx : -hyst ≤ s * errorQuat q qc 0)
    (hk : k = -(s * alpha) • vecPart (errorQuat q qc) - gamma • w) {A r rr X Y P : ℝ} (hA : 0 ≤ A) (hAA : A ^ 2 = alpha)
    (hr0 : 0 ≤ r) (hrr : r ≤ rr) (hr : lyap alpha s (errorQuat q qc 0) w = r ^ 2) (hh : 0 < h) (hY0 : 0 ≤ Y)
    (hY : h * Y ≤ 1) (hX : 0 ≤ X) (hP : npNorm k + X ≤ P * rr)
    (hn : SimNear k law q w hw X (h * rr * Y) h q' w' hw') :
    strict alpha eps s (errorQuat q' qc) w' ≤ strict alpha eps s (errorQuat q qc) w
      + h * (-c * strict alpha eps s (errorQuat q qc) w + (1 / gamma + eps / alpha) * X ^ 2)
      + h ^ 2 * rr ^ 2 * (2 * A * Y + 4 * alpha + P ^ 2 / 2 + eps * (2 * Y + 2 * P)) := by
  have hs2 : s ^ 2 = 1 := by rcases hs with rfl | rfl <;> norm_num
  have hsa : |s| = 1 := by rcases hs with rfl | rfl <;> simp
  have hrr0 : 0 ≤ rr := hr0.trans hrr
  have hu : IsUnit4 (errorQuat q qc) := errorQuat_unit ((isUnit4_iff _).2 hq) ((isUnit4_iff _).2 hqc)
  have hv := vecPart_unit hu
  have hx1 : s * errorQuat q qc 0 ≤ 1 := by
    have : (s * errorQuat q qc 0) ^ 2 ≤ 1 := by
      rw [mul_pow, hs2, one_mul]; linarith [dot_self_nonneg3 (vecPart (errorQuat q qc))]
    exact (abs_le.1 ((sq_le_one_iff_abs_le_one _).1 this)).2
  -- sizes
  have nw : npNorm w ≤ 2 * r := by
    refine abs_le_of_sq_le_sq' ?_ (by positivity) |>.2
    unfold lyap at hr
    rw [dot_self3] at hr
    have : 0 ≤ 2 * alpha * (1 - s * errorQuat q qc 0) := mul_nonneg (by positivity) (by linarith)
    linarith [sq_nonneg r]
  have ny : A * npNorm (q - s • qc) ≤ r := by
    refine abs_le_of_sq_le_sq' ?_ hr0 |>.2
    rw [mul_pow, hAA, quat_dist hs hq hqc, ← hr]
    unfold lyap
    have := dot_self_nonneg3 w
    linarith
  set x := h⁻¹ • (w' - w - h • k) with hxd
  set ρ := q' - q - h • attRate q w with hρ
  have nx : npNorm x ≤ X := by
    rw [hxd, npNorm_smul, abs_of_pos (inv_pos.2 hh), inv_mul_le_iff₀ hh]
    exact hn.rate
  have nρ : npNorm ρ ≤ h * (h * rr * Y) := hn.att
  have ew : w' = w + h • (k + x) := by
    rw [hxd, smul_add, smul_inv_smul₀ hh.ne']; abel
  have eq : q' = q + (h • attRate q w + ρ) := by rw [hρ]; abel
  have hun : npNorm (q + (h • attRate q w + ρ)) = 1 := by rw [← eq]; exact hn.unit
  have key := strict_change (eps := eps) (x := x) hs hq hqc hk hun
  rw [← eq, ← ew] at key
  rw [key]
  have hp : (s * (vecPart (errorQuat q qc) ⬝ᵥ w)) ^ 2 ≤ (w ⬝ᵥ w) * (vecPart (errorQuat q qc) ⬝ᵥ vecPart (errorQuat q qc)) := by
    rw [mul_pow, hs2, one_mul, mul_comm]; exact dot_sq_le _ _
  have hdec := decay_ineq (a := w ⬝ᵥ w) (b := vecPart (errorQuat q qc) ⬝ᵥ vecPart (errorQuat q qc))
    (p := s * (vecPart (errorQuat q qc) ⬝ᵥ w)) (x := s * errorQuat q qc 0) (r := w ⬝ᵥ x)
    (u := s * (vecPart (errorQuat q qc) ⬝ᵥ x)) (D := x ⬝ᵥ x) ha hg he hc h1 h2 h3 h4 (dot_self_nonneg3 _) (dot_self_nonneg3 _)
    (by rw [hv, mul_pow, hs2, one_mul]) (dot_self_nonneg3 _) hx hp (dot_sq_le _ _)
    (by rw [mul_pow, hs2, one_mul]; exact dot_sq_le _ _)
  have hst : strict alpha eps s (errorQuat q qc) w = w ⬝ᵥ w / 2 + 2 * alpha * (1 - s * errorQuat q qc 0)
      + eps * (s * (vecPart (errorQuat q qc) ⬝ᵥ w)) := rfl
  rw [← hst, dot_self3 x] at hdec
  have hD : npNorm x ^ 2 ≤ X ^ 2 := pow_le_pow_left₀ (npNorm_nonneg _) nx 2
  have hD' := mul_le_mul_of_nonneg_left hD (show 0 ≤ 1 / gamma + eps / alpha by positivity)
  have hmain := mul_le_mul_of_nonneg_left (hdec.trans (by linarith only [hD'] :
    _ ≤ -c * strict alpha eps s (errorQuat q qc) w + (1 / gamma + eps / alpha) * X ^ 2)) hh.le
  -- the remainder
  have nq : npNorm (attRate q w) ≤ rr := by
    rw [attRate, npNorm_smul, npNorm_product', npNorm_pureQ, hq, abs_of_pos (by norm_num)]
    norm_num
    linarith
  have nD : npNorm (h • attRate q w + ρ) ≤ h * (2 * rr) := by
    have i1 := npNorm_add' (h • attRate q w) ρ
    rw [npNorm_smul, abs_of_pos hh] at i1
    have i2 := mul_le_mul_of_nonneg_left nq hh.le
    have i3 := mul_le_mul_of_nonneg_left (mul_le_mul_of_nonneg_right hY hrr0) hh.le
    linarith
  have nW : npNorm (h • (k + x)) ≤ h * (P * rr) := by
    rw [npNorm_smul, abs_of_pos hh]
    refine mul_le_mul_of_nonneg_left ?_ hh.le
    have := npNorm_add3 k x
    linarith
  have hPr : 0 ≤ P * rr := (add_nonneg (npNorm_nonneg k) hX).trans hP
  have t1 : 2 * alpha * ((q - s • qc) ⬝ᵥ ρ) ≤ h ^ 2 * rr ^ 2 * (2 * A * Y) := by
    have i1 := (abs_le.1 (dot_le_norms (q - s • qc) ρ)).2
    have i2 : A * npNorm (q - s • qc) * npNorm ρ ≤ rr * (h * (h * rr * Y)) :=
      mul_le_mul (ny.trans hrr) nρ (npNorm_nonneg _) hrr0
    calc 2 * alpha * ((q - s • qc) ⬝ᵥ ρ) ≤ 2 * alpha * (npNorm (q - s • qc) * npNorm ρ) := by gcongr
      _ = 2 * A * (A * npNorm (q - s • qc) * npNorm ρ) := by rw [← hAA]; ring
      _ ≤ 2 * A * (rr * (h * (h * rr * Y))) := by gcongr
      _ = _ := by ring
  have t2 : alpha * npNorm (h • attRate q w + ρ) ^ 2 ≤ h ^ 2 * rr ^ 2 * (4 * alpha) := by
    have := mul_le_mul_of_nonneg_left (pow_le_pow_left₀ (npNorm_nonneg _) nD 2) ha.le
    linarith
  have t3 : npNorm (h • (k + x)) ^ 2 / 2 ≤ h ^ 2 * rr ^ 2 * (P ^ 2 / 2) := by
    have := pow_le_pow_left₀ (npNorm_nonneg _) nW 2
    linarith
  have t4 : s * (vecPart (errorQuat ρ qc) ⬝ᵥ w) ≤ h ^ 2 * rr ^ 2 * (2 * Y) := by
    refine (le_abs_self _).trans ?_
    rw [abs_mul, hsa, one_mul]
    refine (dot_le_norms _ _).trans ?_
    have i1 : npNorm (vecPart (errorQuat ρ qc)) ≤ h * (h * rr * Y) :=
      (vecPart_le _).trans (by rw [errorQuat_norm _ hqc]; exact nρ)
    calc _ ≤ h * (h * rr * Y) * (2 * rr) := mul_le_mul i1 (nw.trans (by linarith)) (npNorm_nonneg _) (by positivity)
      _ = _ := by ring
  have t5 : s * (vecPart (errorQuat (h • attRate q w + ρ) qc) ⬝ᵥ (h • (k + x))) ≤ h ^ 2 * rr ^ 2 * (2 * P) := by
    refine (le_abs_self _).trans ?_
    rw [abs_mul, hsa, one_mul]
    refine (dot_le_norms _ _).trans ?_
    have i1 : npNorm (vecPart (errorQuat (h • attRate q w + ρ) qc)) ≤ h * (2 * rr) :=
      (vecPart_le _).trans (by rw [errorQuat_norm _ hqc]; exact nD)
    calc _ ≤ h * (2 * rr) * (h * (P * rr)) := mul_le_mul i1 nW (npNorm_nonneg _) (by positivity)
      _ = _ := by ring
  have t6 := mul_le_mul_of_nonneg_left (add_le_add t4 t5) he.le
  linarith only [hmain, t1, t2, t3, t6]

end Adcs
