import Verif.Props.Noise
import Verif.Props.PosFilter

set_option autoImplicit false

/-! # C157: the covariance of the position filter is the covariance of its error -/

namespace Adcs

open Spec Vec Dyn JDay Fr Obs Obs.Pos Sens MeasureTheory ProbabilityTheory
open scoped Matrix

section

variable {Ω : Type} [MeasurableSpace Ω] (μ : Measure Ω)

/-- Specification: the random vector `e` has mean zero and covariance matrix `P`. -/
def Spec.Centred {n : Type} (e : Ω → n → ℝ) (P : Matrix n n ℝ) : Prop :=
  (∀ i, MemLp (fun ω => e ω i) 2 μ) ∧ (∀ i, ∫ ω, e ω i ∂μ = 0) ∧
    ∀ i j, cov[fun ω => e ω i, fun ω => e ω j; μ] = P i j

/-- Specification: no component of `e` is correlated with one of `v`. -/
def Spec.Uncorrelated {n : Type} (e v : Ω → n → ℝ) : Prop :=
  ∀ i j, cov[fun ω => e ω i, fun ω => v ω j; μ] = 0

variable {μ}

theorem mulVec_memLp {n : Type} [Fintype n] {e : Ω → n → ℝ} (h : ∀ i, MemLp (fun ω => e ω i) 2 μ)
    (A : Matrix n n ℝ) (i : n) : MemLp (fun ω => (A *ᵥ e ω) i) 2 μ := by
  simp only [Matrix.mulVec, dotProduct]
  exact memLp_finsetSum _ fun k _ => (h k).const_mul _

theorem mulVec_mean {n : Type} [Fintype n] [IsFiniteMeasure μ] {e : Ω → n → ℝ}
    (h : ∀ i, MemLp (fun ω => e ω i) 2 μ) (h0 : ∀ i, ∫ ω, e ω i ∂μ = 0)
    (A : Matrix n n ℝ) (i : n) : ∫ ω, (A *ᵥ e ω) i ∂μ = 0 := by
  simp only [Matrix.mulVec, dotProduct]
  rw [integral_finsetSum _ fun k _ => ((h k).integrable one_le_two).const_mul _]
  simp [integral_const_mul, h0]

theorem mulVec_cov {n : Type} [Fintype n] [IsFiniteMeasure μ] {e v : Ω → n → ℝ}
    (he : ∀ i, MemLp (fun ω => e ω i) 2 μ) (hv : ∀ i, MemLp (fun ω => v ω i) 2 μ)
    {C : Matrix n n ℝ} (hC : ∀ i j, cov[fun ω => e ω i, fun ω => v ω j; μ] = C i j)
    (A B : Matrix n n ℝ) (i j : n) :
    cov[fun ω => (A *ᵥ e ω) i, fun ω => (B *ᵥ v ω) j; μ] = (A * C * Bᵀ) i j := by
  simp only [Matrix.mulVec, dotProduct]
  rw [covariance_fun_sum_fun_sum (fun k => (he k).const_mul _) (fun k => (hv k).const_mul _)]
  simp only [covariance_const_mul_left, covariance_const_mul_right, hC, Matrix.mul_apply,
    Matrix.transpose_apply, Finset.sum_mul]
  rw [Finset.sum_comm]
  refine Finset.sum_congr rfl fun l _ => Finset.sum_congr rfl fun k _ => ?_
  ring

/-- Adding two uncorrelated linear contributions. -/
theorem centred_add {n : Type} [Fintype n] [IsFiniteMeasure μ] {e v : Ω → n → ℝ} {P R : Matrix n n ℝ}
    (he : Spec.Centred μ e P) (hv : Spec.Centred μ v R) (hev : Spec.Uncorrelated μ e v)
    (A B : Matrix n n ℝ) :
    Spec.Centred μ (fun ω => A *ᵥ e ω + B *ᵥ v ω) (A * P * Aᵀ + B * R * Bᵀ) := by
  have m1 := mulVec_memLp he.1 A
  have m2 := mulVec_memLp hv.1 B
  refine ⟨fun i => (m1 i).add (m2 i), fun i => ?_, fun i j => ?_⟩
  · simp only [Pi.add_apply]
    rw [integral_add ((m1 i).integrable one_le_two) ((m2 i).integrable one_le_two),
      mulVec_mean he.1 he.2.1, mulVec_mean hv.1 hv.2.1, add_zero]
  · have hve : ∀ i j, cov[fun ω => v ω i, fun ω => e ω j; μ] = (0 : Matrix n n ℝ) i j :=
      fun i j => by rw [covariance_comm]; exact hev j i
    have c1 := covariance_add_left (m1 i) (m2 i) ((m1 j).add (m2 j))
    have c2 := covariance_add_right (X := fun ω => (A *ᵥ e ω) i) (m1 i) (m1 j) (m2 j)
    have c3 := covariance_add_right (X := fun ω => (B *ᵥ v ω) i) (m2 i) (m1 j) (m2 j)
    rw [mulVec_cov he.1 he.1 he.2.2, mulVec_cov he.1 hv.1 (C := 0) hev] at c2
    rw [mulVec_cov hv.1 hv.1 hv.2.2, mulVec_cov hv.1 he.1 hve] at c3
    rw [c2, c3] at c1
    simp only [Matrix.mul_zero, Matrix.zero_mul, Matrix.zero_apply, add_zero, zero_add] at c1
    exact c1

theorem uncorrelated_lin {n : Type} [Fintype n] [IsFiniteMeasure μ] {e v w : Ω → n → ℝ}
    (he : ∀ i, MemLp (fun ω => e ω i) 2 μ) (hv : ∀ i, MemLp (fun ω => v ω i) 2 μ)
    (hw : ∀ i, MemLp (fun ω => w ω i) 2 μ)
    (hew : Spec.Uncorrelated μ e w) (hvw : Spec.Uncorrelated μ v w) (A B : Matrix n n ℝ) :
    Spec.Uncorrelated μ (fun ω => A *ᵥ e ω + B *ᵥ v ω) w := by
  classical
  intro i j
  have c1 := covariance_add_left (mulVec_memLp he A i) (mulVec_memLp hv B i) (hw j)
  have c2 := mulVec_cov he hw (C := 0) hew A 1 i j
  have c3 := mulVec_cov hv hw (C := 0) hvw B 1 i j
  simp only [Matrix.one_mulVec, Matrix.mul_zero, Matrix.zero_mul, Matrix.zero_apply] at c2 c3
  rw [c2, c3, add_zero] at c1
  exact c1

/-- The variance of a combination of the components. -/
theorem centred_var {n : Type} [Fintype n] [IsFiniteMeasure μ] {e : Ω → n → ℝ} {P : Matrix n n ℝ}
    (he : Spec.Centred μ e P) (x : n → ℝ) :
    Var[fun ω => x ⬝ᵥ e ω; μ] = x ⬝ᵥ (P *ᵥ x) := by
  have hm : MemLp (fun ω => x ⬝ᵥ e ω) 2 μ := by
    simp only [dotProduct]
    exact memLp_finsetSum _ fun k _ => (he.1 k).const_mul _
  rw [← covariance_self hm.aemeasurable]
  simp only [dotProduct]
  rw [covariance_fun_sum_fun_sum (fun k => (he.1 k).const_mul _) (fun k => (he.1 k).const_mul _)]
  simp only [covariance_const_mul_left, covariance_const_mul_right, he.2.2, Matrix.mulVec, dotProduct,
    Finset.mul_sum]
  refine Finset.sum_congr rfl fun l _ => Finset.sum_congr rfl fun k _ => ?_
  ring

/-- Specification: a reading of the GPS receiver at the true position and velocity `T`, with noise `v`,
given to the filter. -/
noncomputable def Spec.fix {n : ℕ} (k : Pos.Kalman n) (T v : I6 → ℝ) : Pos.Kalman n :=
  (k.update ((T + v) ∘ Sum.inl) ((T + v) ∘ Sum.inr)).2

theorem fix_error {n : ℕ} {k : Pos.Kalman n} (h : Covariance k.P) (T v : I6 → ℝ) :
    (Spec.fix k T v).x - T = (1 - k.P * (k.P + Pos.R)⁻¹) *ᵥ (k.x - T) + (k.P * (k.P + Pos.R)⁻¹) *ᵥ v ∧
    (Spec.fix k T v).P = kpost k.P Pos.R 1 := by
  obtain ⟨-, h2, h3, -⟩ := posUpdate_eq h ((T + v) ∘ Sum.inl) ((T + v) ∘ Sum.inr)
  refine ⟨?_, h2⟩
  rw [Spec.fix, h3, Sum.elim_comp_inl_inr, Matrix.sub_mulVec, Matrix.one_mulVec,
    show T + v - k.x = v - (k.x - T) by abel, Matrix.mulVec_sub]
  abel

theorem gain_mul {P : M6} (h : Covariance P) : P * (P + Pos.R)⁻¹ * (P + Pos.R) = P := by
  rw [Matrix.mul_assoc, Matrix.nonsing_inv_mul _ (isUnit_iff_ne_zero.2
    (h.add_strict posR_strict).det_ne), Matrix.mul_one]

/-- Any gain `L` gives the covariance of the filter's gain plus a covariance. -/
theorem gain_excess {P : M6} (h : Covariance P) (L : M6) :
    (1 - L) * P * (1 - L)ᵀ + L * Pos.R * Lᵀ = kpost P Pos.R 1 +
      (L - P * (P + Pos.R)⁻¹) * ((P + Pos.R) * (L - P * (P + Pos.R)⁻¹)ᵀ) := by
  have hk := gain_mul h
  have hS := (h.add_strict posR_strict)
  set S := P + Pos.R with hSdef
  set K := P * S⁻¹ with hK
  have hR : Pos.R = S - P := by rw [hSdef]; abel
  have hkT : S * Kᵀ = P := by
    have := congrArg Matrix.transpose hk
    rwa [Matrix.transpose_mul, hS.1, h.1] at this
  have hkp : kpost P Pos.R 1 = P - K * P := by
    rw [← pos_kpost, ← hSdef, ← hK, Matrix.sub_mul, Matrix.one_mul]
  rw [hkp, hR]
  have e1 : (L - K) * (S * (L - K)ᵀ) = L * (S * Lᵀ) - L * P - P * Lᵀ + K * P := by
    rw [Matrix.transpose_sub, Matrix.mul_sub S, hkT, Matrix.sub_mul, Matrix.mul_sub, Matrix.mul_sub,
      ← Matrix.mul_assoc K S, hk]
    abel
  rw [e1]
  simp only [Matrix.transpose_sub, Matrix.transpose_one, Matrix.sub_mul, Matrix.mul_sub, Matrix.one_mul,
    Matrix.mul_one, Matrix.mul_assoc]
  abel

theorem fix_centred {n : ℕ} [IsFiniteMeasure μ] {k : Ω → Pos.Kalman n} {P : M6} (hP : Covariance P)
    (hk : ∀ ω, (k ω).P = P) {T : I6 → ℝ} {v : Ω → I6 → ℝ} {R : M6}
    (he : Spec.Centred μ (fun ω => (k ω).x - T) P) (hv : Spec.Centred μ v R)
    (hev : Spec.Uncorrelated μ (fun ω => (k ω).x - T) v) :
    Spec.Centred μ (fun ω => (Spec.fix (k ω) T (v ω)).x - T)
      ((1 - P * (P + Pos.R)⁻¹) * P * (1 - P * (P + Pos.R)⁻¹)ᵀ +
        P * (P + Pos.R)⁻¹ * R * (P * (P + Pos.R)⁻¹)ᵀ) := by
  have h := centred_add he hv hev (1 - P * (P + Pos.R)⁻¹) (P * (P + Pos.R)⁻¹)
  have hf : (fun ω => (Spec.fix (k ω) T (v ω)).x - T) = fun ω =>
      (1 - P * (P + Pos.R)⁻¹) *ᵥ ((k ω).x - T) + (P * (P + Pos.R)⁻¹) *ᵥ v ω := by
    funext ω
    rw [(fix_error (by rw [hk]; exact hP) T (v ω)).1, hk]
  rw [hf]
  exact h

/-- The claim: if the covariance of the filter is that of its error, then after a reading of a GPS
receiver with standard deviations `σp` and `σv` it still is. -/
def C157_claim : Prop :=
  ∀ (Ω : Type) (_ : MeasurableSpace Ω) (μ : Measure Ω) (_ : IsProbabilityMeasure μ) (n : ℕ)
    (k : Ω → Pos.Kalman n) (P : M6) (T : I6 → ℝ) (v : Ω → I6 → ℝ) (σp σv : ℝ), Covariance P →
    (∀ ω, (k ω).P = P) → Spec.Centred μ (fun ω => (k ω).x - T) P → 0 < σp → 0 < σv →
    Spec.Centred μ v (Matrix.diagonal (Sum.elim (fun _ => σp ^ 2) fun _ => σv ^ 2)) →
    Spec.Uncorrelated μ (fun ω => (k ω).x - T) v →
    ∃ P', (∀ ω, (Spec.fix (k ω) T (v ω)).P = P') ∧
      Spec.Centred μ (fun ω => (Spec.fix (k ω) T (v ω)).x - T) P'

/-- If the covariance of the filter is that of its error, and the receiver's standard deviations are
10.0598 m and 0.52038 m/s, then after any number of readings with uncorrelated noise it still is: the
error has mean zero, and the covariance the filter reports.  Missing: receivers with other standard
deviations (`C157_example_fails`). -/
theorem C157_honest_partial {n : ℕ} [IsProbabilityMeasure μ] (k : Ω → Pos.Kalman n) (P : M6)
    (hP : Covariance P) (hk : ∀ ω, (k ω).P = P) (T : I6 → ℝ)
    (he : Spec.Centred μ (fun ω => (k ω).x - T) P) (l : List (Ω → I6 → ℝ))
    (hl : ∀ v ∈ l, Spec.Centred μ v
      (Matrix.diagonal (Sum.elim (fun _ => 10.0598 ^ 2) fun _ => 0.52038 ^ 2)))
    (hel : ∀ v ∈ l, Spec.Uncorrelated μ (fun ω => (k ω).x - T) v)
    (hll : l.Pairwise (Spec.Uncorrelated μ)) :
    ∃ P', Covariance P' ∧ NoLarger P' P ∧
      (∀ ω, (l.foldl (fun k v => Spec.fix k T (v ω)) (k ω)).P = P') ∧
      Spec.Centred μ (fun ω => (l.foldl (fun k v => Spec.fix k T (v ω)) (k ω)).x - T) P' := by
  induction l generalizing k P with
  | nil => exact ⟨P, hP, fun x => le_rfl, hk, he⟩
  | cons v l ih =>
    have hv := hl v (by simp)
    have hev := hel v (by simp)
    rw [List.pairwise_cons] at hll
    have hR : Matrix.diagonal (Sum.elim (fun _ => 10.0598 ^ 2) fun _ => 0.52038 ^ 2) = Pos.R := rfl
    have hc := fix_centred hP hk he hv hev
    rw [hR, gain_excess hP, sub_self, Matrix.zero_mul, add_zero] at hc
    have hu : ∀ w ∈ l, Spec.Uncorrelated μ (fun ω => (Spec.fix (k ω) T (v ω)).x - T) w := by
      intro w hw
      have hf : (fun ω => (Spec.fix (k ω) T (v ω)).x - T) = fun ω =>
          (1 - P * (P + Pos.R)⁻¹) *ᵥ ((k ω).x - T) + (P * (P + Pos.R)⁻¹) *ᵥ v ω := by
        funext ω
        rw [(fix_error (by rw [hk]; exact hP) T (v ω)).1, hk]
      rw [hf]
      exact uncorrelated_lin he.1 hv.1 (hl w (by simp [hw])).1 (hel w (by simp [hw])) (hll.1 w hw) _ _
    obtain ⟨P', h1, h2, h3, h4⟩ := ih (fun ω => Spec.fix (k ω) T (v ω)) (kpost P Pos.R 1)
      (kpost_cov hP posR_strict)
      (fun ω => by rw [(fix_error (by rw [hk]; exact hP) T (v ω)).2, hk]) hc
      (fun w hw => hl w (by simp [hw])) hu hll.2
    exact ⟨P', h1, fun x => (h2 x).trans (kpost_noLarger hP posR_strict x), h3, h4⟩

/-- No other linear use of the reading does better: in every direction the variance of the error after
`update` is at most that after correcting by any matrix times the innovation. -/
theorem C157_optimal {n : ℕ} [IsProbabilityMeasure μ] (k : Ω → Pos.Kalman n) (P : M6)
    (hP : Covariance P) (hk : ∀ ω, (k ω).P = P) (T : I6 → ℝ)
    (he : Spec.Centred μ (fun ω => (k ω).x - T) P) (v : Ω → I6 → ℝ)
    (hv : Spec.Centred μ v (Matrix.diagonal (Sum.elim (fun _ => 10.0598 ^ 2) fun _ => 0.52038 ^ 2)))
    (hev : Spec.Uncorrelated μ (fun ω => (k ω).x - T) v) (L : M6) (x : I6 → ℝ) :
    Var[fun ω => x ⬝ᵥ ((Spec.fix (k ω) T (v ω)).x - T); μ] ≤
      Var[fun ω => x ⬝ᵥ ((k ω).x + L *ᵥ (T + v ω - (k ω).x) - T); μ] := by
  have hR : Matrix.diagonal (Sum.elim (fun _ => 10.0598 ^ 2) fun _ => 0.52038 ^ 2) = Pos.R := rfl
  rw [hR] at hv
  have hc := fix_centred hP hk he hv hev
  rw [gain_excess hP, sub_self, Matrix.zero_mul, add_zero] at hc
  have hL := centred_add he hv hev (1 - L) L
  have hf : (fun ω => (k ω).x + L *ᵥ (T + v ω - (k ω).x) - T) = fun ω =>
      (1 - L) *ᵥ ((k ω).x - T) + L *ᵥ v ω := by
    funext ω
    rw [Matrix.sub_mulVec, Matrix.one_mulVec, show T + v ω - (k ω).x = v ω - ((k ω).x - T) by abel,
      Matrix.mulVec_sub]
    abel
  rw [gain_excess hP] at hL
  rw [show (fun ω => x ⬝ᵥ ((k ω).x + L *ᵥ (T + v ω - (k ω).x) - T)) =
    fun ω => x ⬝ᵥ ((1 - L) *ᵥ ((k ω).x - T) + L *ᵥ v ω) from
      funext fun ω => congrArg (x ⬝ᵥ ·) (congrFun hf ω), centred_var hc, centred_var hL,
    Matrix.add_mulVec, dotProduct_add]
  have := (StrictCovariance.weaken (hP.add_strict posR_strict)).conj (L - P * (P + Pos.R)⁻¹)
  linarith [this.2 x]

end

/-! ### The receiver of the library -/

theorem centred_draws {f : I6 → ℕ} (hf : Function.Injective f) (σ : I6 → ℝ) :
    Spec.Centred Gauss.draws (fun z i => σ i * z (f i)) (Matrix.diagonal fun i => σ i ^ 2) := by
  refine ⟨fun i => (Gauss.memLp_draw _).const_mul _, fun i => ?_, fun i j => ?_⟩
  · rw [integral_const_mul, Gauss.mean_draw, mul_zero]
  · rw [covariance_const_mul_left, covariance_const_mul_right, Gauss.cov_draw, Matrix.diagonal_apply]
    by_cases h : i = j
    · subst h; simp [sq]
    · rw [if_neg h, if_neg fun e => h (hf e)]; ring

theorem uncorrelated_draws {f g : I6 → ℕ} (hfg : ∀ i j, f i ≠ g j) (σ τ : I6 → ℝ) :
    Spec.Uncorrelated Gauss.draws (fun z i => σ i * z (f i)) (fun z i => τ i * z (g i)) := by
  intro i j
  rw [covariance_const_mul_left, covariance_const_mul_right, Gauss.cov_draw, if_neg (hfg i j)]
  ring

/-- The draws used by a reading that starts at draw `m`: three for the position, three for the velocity. -/
def drawOf (m : ℕ) : I6 → ℕ := Sum.elim (fun i => i + m) fun i => i + 3 + m

theorem drawOf_injective (m : ℕ) : Function.Injective (drawOf m) := by
  rintro (i | i) (j | j) h <;> simp only [drawOf, Sum.elim_inl, Sum.elim_inr] at h
  · rw [Sum.inl.injEq]; exact Fin.ext (by omega)
  · omega
  · omega
  · rw [Sum.inr.injEq]; exact Fin.ext (by omega)

theorem drawOf_disjoint {m m' : ℕ} (h : m + 6 ≤ m') (i j : I6) : drawOf m i ≠ drawOf m' j := by
  rcases i with i | i <;> rcases j with j | j <;>
    simp only [drawOf, Sum.elim_inl, Sum.elim_inr] <;> omega

/-- The noise of a position reading followed by a velocity reading, after `m` earlier draws. -/
noncomputable def Spec.gpsNoise (p v : Sensor 3) (m : ℕ) (z : Rng) : I6 → ℝ :=
  let r := p.generateNoise true fun k => z (k + m)
  Sum.elim r.1 (v.generateNoise true r.2).1

theorem gpsNoise_eq (p v : Sensor 3) (hp : p.mean = 0) (hv : v.mean = 0) (m : ℕ) :
    Spec.gpsNoise p v m = fun z i =>
      (Sum.elim (fun _ => p.stdDev) (fun _ => v.stdDev) : I6 → ℝ) i * z (drawOf m i) := by
  funext z i
  rcases i with i | i <;> simp [Spec.gpsNoise, Sensor.generateNoise, normal, drawOf, hp, hv]

/-- The receiver's noise meets the hypotheses: readings of `GPS_pos` and `GPS_vel` sensors with zero mean
have uncorrelated noise, with the standard deviations of the sensors. -/
theorem C157_receiver (p v : Sensor 3) (hp : p.mean = 0) (hv : v.mean = 0) (m : ℕ) :
    Spec.Centred Gauss.draws (Spec.gpsNoise p v m)
      (Matrix.diagonal (Sum.elim (fun _ => p.stdDev ^ 2) fun _ => v.stdDev ^ 2)) ∧
    ∀ m', m + 6 ≤ m' → Spec.Uncorrelated Gauss.draws (Spec.gpsNoise p v m) (Spec.gpsNoise p v m') := by
  refine ⟨?_, fun m' h => ?_⟩
  · rw [gpsNoise_eq p v hp hv]
    have h := centred_draws (drawOf_injective m)
      (Sum.elim (fun _ => p.stdDev) (fun _ => v.stdDev) : I6 → ℝ)
    have e : (fun i => (Sum.elim (fun _ => p.stdDev) (fun _ => v.stdDev) : I6 → ℝ) i ^ 2) =
        Sum.elim (fun _ => p.stdDev ^ 2) fun _ => v.stdDev ^ 2 := by
      funext i; rcases i with i | i <;> rfl
    rwa [e] at h
  · rw [gpsNoise_eq p v hp hv, gpsNoise_eq p v hp hv]
    exact uncorrelated_draws (drawOf_disjoint h) _ _

/-- A filter with covariance `P = 1`, as constructed, whose error is drawn accordingly. -/
noncomputable def exFilter (s : SatState 4) (T : I6 → ℝ) (z : Rng) : Pos.Kalman 4 :=
  { Pos.init 3.986e14 s with x := T + fun i => z (drawOf 0 i) }

theorem exFilter_centred (s : SatState 4) (T : I6 → ℝ) :
    (∀ z, (exFilter s T z).P = 1) ∧
    Spec.Centred Gauss.draws (fun z => (exFilter s T z).x - T) 1 ∧
    ∀ p v : Sensor 3, p.mean = 0 → v.mean = 0 → ∀ m, 6 ≤ m →
      Spec.Uncorrelated Gauss.draws (fun z => (exFilter s T z).x - T) (Spec.gpsNoise p v m) := by
  have h : (fun z => (exFilter s T z).x - T) = fun z i => (1 : ℝ) * z (drawOf 0 i) := by
    funext z i; simp [exFilter]
  refine ⟨fun z => rfl, ?_, fun p v hp hv m hm => ?_⟩
  · rw [h]
    have := centred_draws (drawOf_injective 0) fun _ => 1
    simpa using this
  · rw [h, gpsNoise_eq p v hp hv]
    exact uncorrelated_draws (drawOf_disjoint (by omega)) (fun _ => 1) _

/-- The receiver of the library's examples has standard deviations 30 m and 2 m/s; with it the error of
the filter is larger than the filter reports. -/
theorem C157_example_fails : ¬ C157_claim := by
  intro hc
  obtain ⟨s, -, -⟩ := exState 4
  have h1 : Covariance (1 : M6) := by
    rw [show (1 : M6) = Matrix.diagonal fun _ => 1 from Matrix.diagonal_one.symm]
    exact Covariance.diagonal fun _ => zero_le_one
  obtain ⟨f1, f2, f3⟩ := exFilter_centred s 0
  have hv := C157_receiver ⟨0, 30⟩ ⟨0, 2⟩ rfl rfl 6
  obtain ⟨P', h2, h3⟩ := hc Rng _ Gauss.draws inferInstance 4 (exFilter s 0) 1 0
    (Spec.gpsNoise ⟨0, 30⟩ ⟨0, 2⟩ 6) 30 2 h1 f1 f2 (by norm_num) (by norm_num) hv.1
    (f3 _ _ rfl rfl 6 le_rfl)
  have h4 := fix_centred h1 f1 f2 hv.1 (f3 ⟨0, 30⟩ ⟨0, 2⟩ rfl rfl 6 le_rfl)
  have h5 : P' = kpost 1 Pos.R 1 := by
    rw [← h2 0, (fix_error (by rw [f1]; exact h1) _ _).2, f1]
  have h6 := (h3.2.2 (Sum.inl 0) (Sum.inl 0)).symm.trans (h4.2.2 (Sum.inl 0) (Sum.inl 0))
  rw [h5, ← pos_kpost] at h6
  have hd : ∀ i, (1 : ℝ) + (Sum.elim (fun _ => 10.0598 ^ 2) fun _ => 0.52038 ^ 2 : I6 → ℝ) i ≠ 0 := by
    intro i; rcases i with i | i <;> norm_num
  have hi : (1 + Pos.R : M6)⁻¹ = Matrix.diagonal fun i =>
      (1 + (Sum.elim (fun _ => 10.0598 ^ 2) fun _ => 0.52038 ^ 2 : I6 → ℝ) i)⁻¹ := by
    apply Matrix.inv_eq_right_inv
    rw [Pos.R, show (1 : M6) = Matrix.diagonal fun _ => 1 from Matrix.diagonal_one.symm,
      Matrix.diagonal_add, Matrix.diagonal_mul_diagonal]
    congr 1
    funext i
    exact mul_inv_cancel₀ (hd i)
  rw [hi] at h6
  rw [show (1 : M6) = Matrix.diagonal fun _ => 1 from Matrix.diagonal_one.symm] at h6
  simp only [Matrix.diagonal_mul_diagonal, Matrix.diagonal_sub, Matrix.diagonal_transpose,
    Matrix.diagonal_add, Matrix.diagonal_apply_eq, Sum.elim_inl] at h6
  norm_num at h6

/-- The hypotheses of `C157_honest_partial` are met: three readings of a receiver with the standard
deviations the filter assumes. -/
example (s : SatState 4) (T : I6 → ℝ) : ∃ P', NoLarger P' 1 ∧
    Spec.Centred Gauss.draws (fun z => ([6, 12, 18].foldl (fun k m =>
      Spec.fix k T (Spec.gpsNoise ⟨0, 10.0598⟩ ⟨0, 0.52038⟩ m z)) (exFilter s T z)).x - T) P' := by
  obtain ⟨f1, f2, f3⟩ := exFilter_centred s T
  have hr := C157_receiver ⟨0, 10.0598⟩ ⟨0, 0.52038⟩ rfl rfl
  have h1 : Covariance (1 : M6) := by
    rw [show (1 : M6) = Matrix.diagonal fun _ => 1 from Matrix.diagonal_one.symm]
    exact Covariance.diagonal fun _ => zero_le_one
  obtain ⟨P', -, h2, -, h3⟩ := C157_honest_partial (exFilter s T) 1 h1 f1 T f2
    ([6, 12, 18].map (Spec.gpsNoise ⟨0, 10.0598⟩ ⟨0, 0.52038⟩))
    (by
      intro v hv
      obtain ⟨m, -, rfl⟩ := List.mem_map.1 hv
      exact (hr m).1)
    (by
      intro v hv
      obtain ⟨m, hm, rfl⟩ := List.mem_map.1 hv
      refine f3 _ _ rfl rfl m ?_
      simp only [List.mem_cons, List.not_mem_nil, or_false] at hm
      omega)
    (by
      simp only [List.map_cons, List.map_nil, List.pairwise_cons, List.mem_cons, List.not_mem_nil,
        or_false, forall_eq_or_imp, forall_eq, false_implies, implies_true, List.Pairwise.nil, and_true]
      exact ⟨⟨(hr 6).2 12 le_rfl, (hr 6).2 18 (by norm_num)⟩, (hr 12).2 18 le_rfl⟩)
  exact ⟨P', h2, h3⟩

end Adcs
