import Mathlib.Probability.Independence.InfinitePi
import Mathlib.Probability.Independence.Process.Basic
import Mathlib.Probability.Distributions.Gaussian.Real
import Mathlib.Probability.Moments.Covariance
import Mathlib.Probability.Moments.Variance

set_option autoImplicit false

/-! # Streams of independent standard normal draws

Helper lemmas about the law of an infinite stream of independent standard normal numbers: the first
draws are independent of the rest, the rest is again such a stream, and an affine function of
finitely many draws is normal with the expected moments. -/

namespace Adcs.Gauss

open MeasureTheory ProbabilityTheory

/-- The law of an endless stream of independent standard normal draws. -/
noncomputable def draws : Measure (ℕ → ℝ) := Measure.infinitePi fun _ => gaussianReal 0 1

instance : IsProbabilityMeasure draws := by unfold draws; infer_instance

theorem draws_indep : iIndepFun (fun (k : ℕ) (z : ℕ → ℝ) => z k) draws :=
  iIndepFun_infinitePi (X := fun _ x => x) fun _ => measurable_id

theorem draws_eval (k : ℕ) : draws.map (fun z => z k) = gaussianReal 0 1 :=
  Measure.infinitePi_map_eval (μ := fun _ : ℕ => gaussianReal 0 1) k

theorem draws_inj {α : Type} {f : α → ℕ} (hf : Function.Injective f) :
    draws.map (fun z i => z (f i)) = Measure.infinitePi fun _ => gaussianReal 0 1 :=
  Measure.map_infinitePi_infinitePi_of_inj hf

theorem draws_shift (n : ℕ) : draws.map (fun z k => z (k + n)) = draws :=
  draws_inj (add_left_injective n)

theorem draws_head (n : ℕ) :
    draws.map (fun z (i : Fin n) => z i) = Measure.pi fun _ => gaussianReal 0 1 := by
  rw [draws_inj (f := fun i : Fin n => (i : ℕ)) Fin.val_injective, Measure.infinitePi_eq_pi]

theorem head_tail_indep (n : ℕ) :
    IndepFun (fun (z : ℕ → ℝ) (i : Fin n) => z i) (fun (z : ℕ → ℝ) (k : ℕ) => z (k + n)) draws := by
  refine IndepFun.process_indepFun_process (fun i => by fun_prop) (fun k => by fun_prop) fun I J => ?_
  have hd : Disjoint (I.map Fin.valEmbedding) (J.map (addRightEmbedding n)) := by
    rw [Finset.disjoint_left]
    rintro a ha hb
    simp only [Finset.mem_map, Fin.valEmbedding_apply, addRightEmbedding_apply] at ha hb
    obtain ⟨i, -, rfl⟩ := ha
    obtain ⟨k, -, hk⟩ := hb
    omega
  have h := draws_indep.indepFun_finset _ _ hd fun k => by fun_prop
  exact h.comp
    (φ := fun x (i : I) => x ⟨i.1, Finset.mem_map_of_mem Fin.valEmbedding i.2⟩)
    (ψ := fun x (j : J) => x ⟨j.1 + n, Finset.mem_map_of_mem (addRightEmbedding n) j.2⟩)
    (by fun_prop) (by fun_prop)

/-- The first `n` draws are independent standard normals, the rest is again a stream, and the two
are independent. -/
theorem draws_split (n : ℕ) : draws.map (fun z => ((fun i : Fin n => z i), fun k => z (k + n)))
    = (Measure.pi fun _ => gaussianReal 0 1).prod draws := by
  have h := (indepFun_iff_map_prod_eq_prod_map_map (Measurable.aemeasurable (by fun_prop))
    (Measurable.aemeasurable (by fun_prop))).1 (head_tail_indep n)
  rw [h, draws_head, draws_shift]

theorem split_map {α β : Type} [MeasurableSpace α] [MeasurableSpace β] (n : ℕ)
    {F : (Fin n → ℝ) → α} {G : (ℕ → ℝ) → β} (hF : Measurable F) (hG : Measurable G) :
    draws.map (fun z => (F fun i => z i, G fun k => z (k + n)))
    = ((Measure.pi fun _ => gaussianReal 0 1).map F).prod (draws.map G) := by
  rw [Measure.map_prod_map _ _ hF hG, ← draws_split, Measure.map_map (hF.prodMap hG) (by fun_prop)]
  rfl

theorem gaussian_affine (c s : ℝ) : (gaussianReal 0 1).map (fun x => c + s * x)
    = gaussianReal c (s ^ 2).toNNReal := by
  have : (fun x : ℝ => c + s * x) = (fun x => c + x) ∘ fun x => s * x := rfl
  rw [this, ← Measure.map_map (by fun_prop) (by fun_prop), gaussianReal_map_const_mul,
    gaussianReal_map_const_add, mul_zero, zero_add]
  congr 1
  ext
  simp [Real.coe_toNNReal _ (sq_nonneg s)]

theorem pi_affine {n : ℕ} (c : Fin n → ℝ) (s : ℝ) :
    (Measure.pi fun _ : Fin n => gaussianReal 0 1).map (fun z i => c i + s * z i)
    = Measure.pi fun i => gaussianReal (c i) (s ^ 2).toNNReal := by
  rw [Measure.pi_map_pi (f := fun i x => c i + s * x) fun i => by fun_prop]
  simp only [gaussian_affine]

theorem memLp_draw (k : ℕ) : MemLp (fun z : ℕ → ℝ => z k) 2 draws := by
  have h := memLp_id_gaussianReal (μ := 0) (v := 1) 2
  rw [← draws_eval k] at h
  exact h.comp_of_map (Measurable.aemeasurable (by fun_prop))

theorem mean_draw (k : ℕ) : ∫ z, z k ∂draws = 0 := by
  have h := integral_id_gaussianReal (μ := 0) (v := 1)
  rw [← draws_eval k, integral_map (Measurable.aemeasurable (by fun_prop)) (by fun_prop)] at h
  exact h

theorem cov_draw (j k : ℕ) : cov[fun z => z j, fun z => z k; draws] = if j = k then 1 else 0 := by
  split_ifs with h
  · subst h
    rw [covariance_self (Measurable.aemeasurable (by fun_prop))]
    have h := variance_fun_id_gaussianReal (μ := 0) (v := 1)
    rw [← draws_eval j, variance_map (by fun_prop) (Measurable.aemeasurable (by fun_prop))] at h
    simpa [Function.comp_def] using h
  · exact (draws_indep.indepFun h).covariance_eq_zero (memLp_draw j) (memLp_draw k)

/-- An affine function of the first `N` draws. -/
noncomputable def aff (N : ℕ) (c : ℝ) (a : ℕ → ℝ) (z : ℕ → ℝ) : ℝ :=
  c + ∑ k ∈ Finset.range N, a k * z k

theorem aff_memLp (N : ℕ) (c : ℝ) (a : ℕ → ℝ) : MemLp (aff N c a) 2 draws := by
  unfold aff
  exact (memLp_const c).add (memLp_finsetSum _ fun k _ => (memLp_draw k).const_mul (a k))

theorem aff_mean (N : ℕ) (c : ℝ) (a : ℕ → ℝ) : ∫ z, aff N c a z ∂draws = c := by
  unfold aff
  have h : ∀ k ∈ Finset.range N, Integrable (fun z : ℕ → ℝ => a k * z k) draws := fun k _ =>
    ((memLp_draw k).integrable one_le_two).const_mul (a k)
  rw [integral_add (integrable_const c) (integrable_finsetSum _ h), integral_finsetSum _ h]
  simp [integral_const_mul, mean_draw]

theorem aff_cov (N : ℕ) (c d : ℝ) (a b : ℕ → ℝ) :
    cov[aff N c a, aff N d b; draws] = ∑ k ∈ Finset.range N, a k * b k := by
  unfold aff
  have ha : ∀ k ∈ Finset.range N, MemLp (fun z : ℕ → ℝ => a k * z k) 2 draws := fun k _ =>
    (memLp_draw k).const_mul (a k)
  have hb : ∀ k ∈ Finset.range N, MemLp (fun z : ℕ → ℝ => b k * z k) 2 draws := fun k _ =>
    (memLp_draw k).const_mul (b k)
  rw [covariance_const_add_left ((memLp_finsetSum _ ha).integrable one_le_two),
    covariance_const_add_right ((memLp_finsetSum _ hb).integrable one_le_two),
    covariance_fun_sum_fun_sum' ha hb]
  refine Finset.sum_congr rfl fun j hj => ?_
  simp only [covariance_const_mul_left, covariance_const_mul_right, cov_draw]
  rw [Finset.sum_eq_single j]
  · simp [mul_comm]
  · intro k _ hk; simp [hk.symm]
  · exact fun h => absurd hj h

theorem aff_var (N : ℕ) (c : ℝ) (a : ℕ → ℝ) :
    Var[aff N c a; draws] = ∑ k ∈ Finset.range N, a k ^ 2 := by
  rw [← covariance_self (aff_memLp N c a).aemeasurable, aff_cov]
  simp only [sq]

theorem aff_measurable (N : ℕ) (c : ℝ) (a : ℕ → ℝ) : Measurable (aff N c a) := by
  unfold aff; fun_prop

theorem aff_law (N : ℕ) (c : ℝ) (a : ℕ → ℝ) : draws.map (aff N c a)
    = gaussianReal c (∑ k ∈ Finset.range N, a k ^ 2).toNNReal := by
  induction N with
  | zero =>
    have : aff 0 c a = fun _ => c := by funext z; simp [aff]
    rw [this, Measure.map_const]
    simp only [measure_univ, one_smul]
    rw [← gaussianReal_zero_var]
    simp
  | succ N ih =>
    have hi : IndepFun (aff N c a) (fun z => a N * z N) draws := by
      have h := draws_indep.indepFun_finset (Finset.range N) {N} (by simp) fun k => by fun_prop
      refine h.comp (φ := fun x => c + ∑ k : Finset.range N, a k.1 * x k)
        (ψ := fun x : ({N} : Finset ℕ) → ℝ => a N * x ⟨N, by simp⟩) (by fun_prop) (by fun_prop) |>.congr ?_ ?_
      · refine .of_forall fun z => ?_
        simp only [Function.comp, aff]
        rw [Finset.sum_coe_sort (Finset.range N) (fun k => a k * z k)]
      · exact .of_forall fun z => rfl
    have h2 : draws.map (fun z => a N * z N) = gaussianReal 0 (a N ^ 2).toNNReal := by
      have : (fun z : ℕ → ℝ => a N * z N) = (fun x => 0 + a N * x) ∘ fun z => z N := by
        funext z; simp
      rw [this, ← Measure.map_map (by fun_prop) (by fun_prop), draws_eval, gaussian_affine]
    have h3 := gaussianReal_add_gaussianReal_of_indepFun hi ih h2
    have h4 : aff (N + 1) c a = aff N c a + fun z => a N * z N := by
      funext z; simp [aff, Finset.sum_range_succ, add_assoc]
    rw [h4, h3, add_zero, Finset.sum_range_succ,
      Real.toNNReal_add (Finset.sum_nonneg fun _ _ => sq_nonneg _) (sq_nonneg _)]

end Adcs.Gauss
