import Verif.Proofs.ExampleSat
import Verif.Props.Trigger

set_option autoImplicit false

/-! # C65, C66, C67, C94, C95: magnetic control -/

namespace Adcs

open Str Ctl Sens JDay Quat
open scoped Matrix

/-! ## C65 -/

theorem npDot_pos {B : V3} (h : B ≠ 0) : 0 < npDot B B := by
  have h1 := npNorm_pos h
  have h2 : npNorm B ^ 2 = npDot B B := npNorm_sq_dot B
  rw [← h2]; positivity

theorem magMoment_ok {B : V3} (h : B ≠ 0) (T : V3) :
    magMoment B T = .ok fun i => npCross B T i / npDot B B := by
  simp only [magMoment, npVDiv, if_neg (npDot_pos h).ne']

/-- The moment is orthogonal to the field and its torque `m x B` is the part of the command orthogonal to
the field. -/
theorem C65_moment (B T : V3) (hB : B ≠ 0) : ∃ m, magMoment B T = .ok m ∧ B ⬝ᵥ m = 0 ∧
    m ⨯₃ B = T - ((B ⬝ᵥ T) / (B ⬝ᵥ B)) • B := by
  have hp := npDot_pos hB
  refine ⟨_, magMoment_ok hB T, ?_, ?_⟩
  · simp only [Matrix.vec3_dotProduct, npCross_0, npCross_1, npCross_2]
    field_simp; ring
  · rw [← npCross_eq_crossProduct]
    rw [← npDot_eq_dotProduct B B]
    have hne := hp.ne'
    have hD := npDot3 B B
    generalize npDot B B = D at *
    apply vec3_ext <;>
      simp only [npCross_0, npCross_1, npCross_2, Matrix.vec3_dotProduct, Pi.sub_apply, Pi.smul_apply,
        smul_eq_mul] <;>
      field_simp <;> rw [hD] <;> ring

/-- No moment has a torque nearer to the command, and none with the same torque is smaller. -/
theorem C65_best (B T m : V3) (hB : B ≠ 0) (hm : magMoment B T = .ok m) (m' : V3) :
    npNorm (T - m ⨯₃ B) ≤ npNorm (T - m' ⨯₃ B) ∧ (m' ⨯₃ B = m ⨯₃ B → npNorm m ≤ npNorm m') := by
  obtain ⟨m₀, h0, h1, h2⟩ := C65_moment B T hB
  obtain rfl : m₀ = m := Except.ok.inj (h0.symm.trans hm)
  have hp := npDot_pos hB
  rw [npDot_eq_dotProduct] at hp
  constructor
  · rw [h2]
    unfold npNorm
    apply Real.sqrt_le_sqrt
    set k := (B ⬝ᵥ T) / (B ⬝ᵥ B) with hk
    have hk' : k * (B ⬝ᵥ B) = B ⬝ᵥ T := by rw [hk]; field_simp
    simp only [Fin.sum_univ_three, Pi.sub_apply, Pi.smul_apply, smul_eq_mul, sub_sub_cancel,
      cross_apply, Matrix.cons_val_zero, Matrix.cons_val_one, cons3_2]
    simp only [Matrix.vec3_dotProduct] at hk' hp
    -- the error is `k B` plus something orthogonal to `B`
    have e : ∀ u v w : ℝ, u * B 0 + v * B 1 + w * B 2 = 0 →
        (k * B 0) ^ 2 + (k * B 1) ^ 2 + (k * B 2) ^ 2 ≤
          (k * B 0 + u) ^ 2 + (k * B 1 + v) ^ 2 + (k * B 2 + w) ^ 2 := by
      intro u v w h
      have : (k * B 0 + u) ^ 2 + (k * B 1 + v) ^ 2 + (k * B 2 + w) ^ 2 =
        (k * B 0) ^ 2 + (k * B 1) ^ 2 + (k * B 2) ^ 2 + u ^ 2 + v ^ 2 + w ^ 2 +
          2 * k * (u * B 0 + v * B 1 + w * B 2) := by ring
      rw [this, h]; nlinarith [sq_nonneg u, sq_nonneg v, sq_nonneg w]
    have := e (T 0 - (m' 1 * B 2 - m' 2 * B 1) - k * B 0) (T 1 - (m' 2 * B 0 - m' 0 * B 2) - k * B 1)
      (T 2 - (m' 0 * B 1 - m' 1 * B 0) - k * B 2) (by linear_combination -hk')
    simpa using this
  · intro h
    have hd : (m' - m₀) ⨯₃ B = 0 := by rw [LinearMap.map_sub₂, h, sub_self]
    -- orthogonal parts
    unfold npNorm
    apply Real.sqrt_le_sqrt
    have g0 := congrFun hd 0; have g1 := congrFun hd 1; have g2 := congrFun hd 2
    simp only [cross_apply, Matrix.cons_val_zero, Matrix.cons_val_one, cons3_2, Pi.sub_apply,
      Pi.zero_apply] at g0 g1 g2
    simp only [Matrix.vec3_dotProduct] at h1 hp
    simp only [Fin.sum_univ_three]
    have hz : (m₀ 0 * (m' 0 - m₀ 0) + m₀ 1 * (m' 1 - m₀ 1) + m₀ 2 * (m' 2 - m₀ 2)) *
        (B 0 * B 0 + B 1 * B 1 + B 2 * B 2) = 0 := by
      grind
    have hz' := (mul_eq_zero.1 hz).resolve_right hp.ne'
    nlinarith [sq_nonneg (m' 0 - m₀ 0), sq_nonneg (m' 1 - m₀ 1), sq_nonneg (m' 2 - m₀ 2)]

/-- Without a field there is no moment (numpy divides zero by zero). -/
theorem C65_no_field (T : V3) : magMoment 0 T = .error .nonFinite := by
  simp [magMoment, npVDiv, npDot]

example : ∃ m, magMoment ![0, 0, 3e-5] ![1e-6, 0, 2e-6] = .ok m ∧ m ⨯₃ ![0, 0, 3e-5] = ![1e-6, 0, 0] := by
  obtain ⟨m, h, -, h2⟩ := C65_moment ![0, 0, 3e-5] ![1e-6, 0, 2e-6] (by
    intro h; have := congrFun h 2; norm_num at this)
  refine ⟨m, h, h2.trans ?_⟩
  apply vec3_ext <;> norm_num [Matrix.vec3_dotProduct]

/-! ## C66 -/

theorem kBbq_pos : 0 < kBbq := by
  unfold kBbq
  have := Real.pi_pos
  positivity

/-- Power of the magnetic torque against the vector `u` for the command `-kBbq h`. -/
theorem detumble_dot {B : V3} (hB : B ≠ 0) (h u : V3) {m : V3} (hm : magMoment B ((-kBbq) • h) = .ok m) :
    u ⬝ᵥ (m ⨯₃ B) = -kBbq * (u ⬝ᵥ h - (B ⬝ᵥ u) * (B ⬝ᵥ h) / (B ⬝ᵥ B)) := by
  obtain ⟨m₀, h0, -, h2⟩ := C65_moment B ((-kBbq) • h) hB
  obtain rfl : m₀ = m := Except.ok.inj (h0.symm.trans hm)
  have hp := npDot_pos hB
  rw [npDot_eq_dotProduct] at hp
  rw [h2, dotProduct_sub, dotProduct_smul, dotProduct_smul, dotProduct_smul, dotProduct_comm u B]
  simp only [smul_eq_mul]
  field_simp
  ring

theorem cauchy3 (B h : V3) : (B ⬝ᵥ h) * (B ⬝ᵥ h) ≤ (h ⬝ᵥ h) * (B ⬝ᵥ B) := by
  simp only [Matrix.vec3_dotProduct]
  nlinarith [sq_nonneg (B 0 * h 1 - B 1 * h 0), sq_nonneg (B 1 * h 2 - B 2 * h 1),
    sq_nonneg (B 2 * h 0 - B 0 * h 2)]

/-- Along every motion of the body under the torque of the moment asked for by `detumble`, the squared
magnitude of the angular momentum `h = I w` changes at the rate `-2 k (|h|^2 - (B.h)^2 / |B|^2)`, which
is not positive, and is zero only when `h` is along the field. -/
theorem C66_momentum (c : MagController) (B : V3) (hB : B ≠ 0) (w : ℝ → V3) (t : ℝ) (m : V3)
    (hm : magMoment B (c.detumbleTorque (w t)) = .ok m)
    (motion : HasDerivAt (fun τ => c.sat.totalMoment *ᵥ w τ)
      (m ⨯₃ B - w t ⨯₃ (c.sat.totalMoment *ᵥ w t)) t) :
    ∃ r : ℝ, HasDerivAt (fun τ => (c.sat.totalMoment *ᵥ w τ) ⬝ᵥ (c.sat.totalMoment *ᵥ w τ)) r t ∧
      r ≤ 0 ∧ (r = 0 → (c.sat.totalMoment *ᵥ w t) ⨯₃ B = 0) := by
  set h := fun τ => c.sat.totalMoment *ᵥ w τ with hh
  have hp := npDot_pos hB
  rw [npDot_eq_dotProduct] at hp
  have hd : HasDerivAt (fun τ => h τ ⬝ᵥ h τ)
      (2 * (h t ⬝ᵥ (m ⨯₃ B - w t ⨯₃ h t))) t := by
    have hc := hasDerivAt_pi.1 motion
    have := (((hc 0).fun_mul (hc 0)).fun_add ((hc 1).fun_mul (hc 1))).fun_add ((hc 2).fun_mul (hc 2))
    have e : (fun τ => h τ ⬝ᵥ h τ) = fun τ => h τ 0 * h τ 0 + h τ 1 * h τ 1 + h τ 2 * h τ 2 := by
      funext τ; rw [Matrix.vec3_dotProduct]
    rw [e]
    refine this.congr_deriv ?_
    rw [Matrix.vec3_dotProduct]; ring
  have hval : h t ⬝ᵥ (m ⨯₃ B - w t ⨯₃ h t) =
      -kBbq * (h t ⬝ᵥ h t - (B ⬝ᵥ h t) * (B ⬝ᵥ h t) / (B ⬝ᵥ B)) := by
    rw [dotProduct_sub, dot_cross_self, sub_zero]
    exact detumble_dot hB (h t) (h t) hm
  have hc := cauchy3 B (h t)
  have hle : (B ⬝ᵥ h t) * (B ⬝ᵥ h t) / (B ⬝ᵥ B) ≤ h t ⬝ᵥ h t := (div_le_iff₀ hp).2 hc
  refine ⟨_, hd, ?_, ?_⟩
  · rw [hval]; nlinarith [kBbq_pos]
  · intro h0
    rw [hval] at h0
    have h1 : h t ⬝ᵥ h t - (B ⬝ᵥ h t) * (B ⬝ᵥ h t) / (B ⬝ᵥ B) = 0 := by
      have := kBbq_pos.ne'
      rcases mul_eq_zero.1 h0 with h2 | h2
      · norm_num at h2
      · rcases mul_eq_zero.1 h2 with h3 | h3
        · exact absurd (neg_eq_zero.1 h3) this
        · exact h3
    have h2 : (h t ⬝ᵥ h t) * (B ⬝ᵥ B) - (B ⬝ᵥ h t) * (B ⬝ᵥ h t) = 0 := by
      field_simp at h1; linarith
    have h3 : (h t ⨯₃ B) ⬝ᵥ (h t ⨯₃ B) = 0 := by
      rw [← h2]
      simp only [cross_apply, Matrix.vec3_dotProduct, Matrix.cons_val_zero, Matrix.cons_val_one, cons3_2]
      ring
    exact dotProduct_self_eq_zero.1 h3

/-- The other half of the claim: the torque never increases the kinetic energy `w.I w / 2`, whose rate of
change is `w.T`. -/
def DetumbleNeverAddsEnergy : Prop :=
  ∀ (model : CtlModel) (h3 : model.sat.nMt = 3) (mass : ℝ) (dims : V3) (ab cd : ℝ),
    Built model.sat mass dims ab cd → model.sat.totalMoment.PosDef →
    ∀ (c : MagController), MagController.init model h3 false = .ok c →
    ∀ (B w m : V3), B ≠ 0 → magMoment B (c.detumbleTorque w) = .ok m → w ⬝ᵥ (m ⨯₃ B) ≤ 0

/-- It is false for a body with different moments of inertia. -/
theorem C66_energy_fails : ¬ DetumbleNeverAddsEnergy := by
  intro H
  obtain ⟨sat, hb, hpd, ⟨h3, -⟩, hI, -, -⟩ := exSat3 true []
  have hB : (![1.2, 0, 1] : V3) ≠ 0 := by intro h; have := congrFun h 2; norm_num at this
  have h := H ⟨sat, some ⟨0, 0⟩, none⟩ h3 2 _ _ _ hb hpd _ rfl ![1.2, 0, 1] ![1, 0, 1] _ hB
    (magMoment_ok hB _)
  have h := (detumble_dot hB (sat.totalMoment *ᵥ ![1, 0, 1]) ![1, 0, 1] (magMoment_ok hB _)).symm.le.trans h
  simp only [hI, Matrix.mulVec_diagonal, Matrix.vec3_dotProduct] at h
  have := kBbq_pos
  norm_num at h
  nlinarith

/-- What holds of it: the energy does not increase when the field is along a principal axis of the
inertia, so for every field when the three moments are equal. Missing: other fields. -/
theorem C66_energy_partial (c : MagController) (B w m : V3) (hB : B ≠ 0)
    (hI : c.sat.totalMoment.PosSemidef) (lam : ℝ) (hl : c.sat.totalMoment *ᵥ B = lam • B)
    (hm : magMoment B (c.detumbleTorque w) = .ok m) : w ⬝ᵥ (m ⨯₃ B) ≤ 0 := by
  have hp := npDot_pos hB
  rw [npDot_eq_dotProduct] at hp
  have e := detumble_dot hB (c.sat.totalMoment *ᵥ w) w hm
  rw [e]
  set I := c.sat.totalMoment with hIdef
  have hs : Iᵀ = I := by
    rw [← Matrix.conjTranspose_eq_transpose_of_trivial]; exact hI.isHermitian
  have h1 : B ⬝ᵥ (I *ᵥ w) = lam * (B ⬝ᵥ w) := by
    rw [Matrix.dotProduct_mulVec, ← Matrix.mulVec_transpose, hs, hl, smul_dotProduct, smul_eq_mul]
  set k := (B ⬝ᵥ w) / (B ⬝ᵥ B) with hk
  have h2 := hI.dotProduct_mulVec_nonneg (w - k • B)
  simp only [star_trivial, Matrix.mulVec_sub, Matrix.mulVec_smul, hl, sub_dotProduct, dotProduct_sub,
    smul_dotProduct, dotProduct_smul, smul_eq_mul, h1, dotProduct_comm w B] at h2
  have hk' : k * (B ⬝ᵥ B) = B ⬝ᵥ w := by rw [hk]; field_simp
  have h3 : w ⬝ᵥ I *ᵥ w - (B ⬝ᵥ w) * (B ⬝ᵥ I *ᵥ w) / (B ⬝ᵥ B) = w ⬝ᵥ I *ᵥ w - k * lam * (B ⬝ᵥ w) := by
    rw [h1, hk]; field_simp
  rw [h3]
  have h4 : 0 ≤ w ⬝ᵥ I *ᵥ w - k * lam * (B ⬝ᵥ w) := by
    have e : w ⬝ᵥ I *ᵥ w - k * lam * (B ⬝ᵥ w) = w ⬝ᵥ I *ᵥ w - k * (lam * (B ⬝ᵥ w)) -
      (k * (lam * (B ⬝ᵥ w)) - k * (k * (lam * (B ⬝ᵥ B)))) := by
      linear_combination (-k * lam) * hk'
    rw [e]; linarith
  nlinarith [kBbq_pos]

/-- The hypotheses are met by a concrete satellite, with the field along its long axis. -/
example : ∃ (model : CtlModel) (h3 : model.sat.nMt = 3) (c : MagController),
    MagController.init model h3 false = .ok c ∧ c.sat.totalMoment.PosSemidef ∧
    (![0, 0, 3e-5] : V3) ≠ 0 ∧ c.sat.totalMoment *ᵥ ![0, 0, 3e-5] = (0.006214 : ℝ) • ![0, 0, 3e-5] ∧
    ∃ m, magMoment ![0, 0, 3e-5] (c.detumbleTorque ![1, 2, 3]) = .ok m := by
  obtain ⟨sat, hb, hpd, ⟨h3, -⟩, hI, -, -⟩ := exSat3 true []
  refine ⟨⟨sat, some ⟨0, 0⟩, none⟩, h3, _, rfl, hpd.posSemidef, ?_, ?_, _, magMoment_ok ?_ _⟩
  · intro h; have := congrFun h 2; norm_num at this
  · simp only [hI]
    apply vec3_ext <;> norm_num [Matrix.mulVec_diagonal]
  · intro h; have := congrFun h 2; norm_num at this

/-! ## C67 -/

/-- `no_q_bbq_roll` asks for no torque exactly when `check` is zero; `check` is the norm of the difference
of twice the momentum and the two desired momenta. -/
theorem C67_bbq (c : MagController) (q : V4) (w : V3) :
    (c.bbqTorque q w = 0 ↔ c.check q w = 0) ∧
    c.check q w = npNorm ((2 : ℝ) • (c.sat.totalMoment *ᵥ w) - c.hdBody - sandwich q c.hdIntl) := by
  constructor
  · simp only [MagController.bbqTorque, MagController.check, npNorm_eq_zero, smul_eq_zero, neg_eq_zero,
      kBbq_pos.ne', false_or]
  · simp only [MagController.check]
    congr 1
    rw [two_smul]; abel

/-- Aligned spin: the desired momenta agree in the body and the body spins at the desired rate. -/
theorem C67_aligned (model : CtlModel) (h3 : model.sat.nMt = 3) (bb : Bool) (c : MagController)
    (hc : MagController.init model h3 bb = .ok c) (q : V4) (hq : sandwich q c.hdIntl = c.hdBody) :
    c.check q ![0, 0, 0.02932] = 0 ∧ c.bbqTorque q ![0, 0, 0.02932] = 0 := by
  have h : c.check q ![0, 0, 0.02932] = 0 := by
    have hb : c.hdBody = c.sat.totalMoment *ᵥ ![0, 0, 0.02932] := by
      unfold MagController.init at hc
      split at hc
      · cases hc
      · simp only [Except.ok.injEq] at hc
        subst hc
        simp only [bbq]
        congr 1
        apply vec3_ext <;> norm_num
    rw [(C67_bbq c q _).2, hq, hb, npNorm_eq_zero, two_smul]
    abel
  exact ⟨h, (C67_bbq c q _).1.2 h⟩

/-- `desaturate` asks for no torque exactly when the wheels have the momentum of the reference. -/
theorem C67_desaturate (c : MagController) (whl ref : Fin c.sat.rw.n → ℝ) :
    c.desaturateTorque ref ref = 0 ∧
    (c.desaturateTorque whl ref = 0 ↔ c.sat.rw.momentum whl = c.sat.rw.momentum ref) := by
  simp only [MagController.desaturateTorque, sub_self, smul_zero, smul_eq_zero, neg_eq_zero,
    kBbq_pos.ne', false_or, sub_eq_zero, true_and]

theorem distribute_zero {n : ℕ} (hn : 0 < n) (torquers : Fin n → Magnetorquer)
    (hM : ∀ i, (torquers i).maxM ≠ 0) (hc : ∀ i, (torquers i).getCurrent 0 = .ok 0) :
    distribute torquers 0 = .ok 0 := by
  have hne : (Finset.univ : Finset (Fin n)).Nonempty := ⟨⟨0, hn⟩, Finset.mem_univ _⟩
  have h1 : scaleMoment torquers 0 = .ok 0 := by
    have : pyForall (fun i : Fin n => ratio (torquers i).maxM ((0 : Fin n → ℝ) i)) = .ok fun _ => ⊤ := by
      rw [pyForall_ok]; intro i; simp [ratio, hM i]
    unfold scaleMoment
    rw [this]
    simp [hne]
  unfold distribute
  rw [h1]
  exact pyForall_ok.2 hc

theorem getCurrent_zero {mtType : String} {axis : V3} {maxA : ℝ} {t : Magnetorquer}
    (h : Magnetorquer.init mtType axis maxA = .ok t) : t.getCurrent 0 = .ok 0 := by
  unfold Magnetorquer.init at h
  simp only [mtActuate] at h
  unfold Magnetorquer.getCurrent
  split_ifs at h with h1 h2 h3 <;> simp at h <;> subst h
  · simp [h1]
  · subst h2
    simp only [abs_zero, mul_zero, sub_zero, npSqrt]
    have : ¬ (3481 : ℝ) < 0 := by norm_num
    simp [this, npSign]
  · subst h3; simp

/-- With no torque asked for, a controller without bang-bang commands zero currents, in every field that
is not zero. -/
theorem C67_currents (c : MagController) (hb : c.bangBang = false)
    (hM : ∀ i, (c.torquers i).maxM ≠ 0)
    (ht : ∀ i, ∃ mtType axis maxA, Magnetorquer.init mtType axis maxA = .ok (c.torquers i))
    (B : V3) (hB : B ≠ 0) : c.actuatorCommands B 0 = (.ok 0, c) := by
  have hm : magMoment B 0 = .ok 0 := by
    rw [magMoment_ok hB]
    congr 1
    apply vec3_ext <;> simp [npCross]
  unfold MagController.actuatorCommands
  rw [hm]
  simp only [hb, Bool.false_eq_true, if_false]
  rw [distribute_zero (by norm_num) c.torquers hM fun i => ?_]
  obtain ⟨a, b, d, h⟩ := ht i
  exact getCurrent_zero h

/-- A controller made for a concrete satellite, with wheels at the reference, and one that is aligned. -/
example : ∃ (model : CtlModel) (h3 : model.sat.nMt = 3) (c : MagController),
    MagController.init model h3 false = .ok c ∧ c.bangBang = false ∧ (∀ i, (c.torquers i).maxM ≠ 0) ∧
    c.hdBody ≠ 0 := by
  obtain ⟨sat, hb, hpd, ⟨h3, hmt⟩, hI, -, -⟩ := exSat3 true []
  refine ⟨⟨sat, some ⟨0, 0⟩, none⟩, h3, _, rfl, rfl, ?_, ?_⟩
  · intro i; simp only [hmt, coil]; norm_num
  · intro h
    have := congrFun h 2
    simp only [hI, Matrix.mulVec_diagonal, bbq] at this
    norm_num at this

/-! ## C94: detumbling with the allocated currents -/

/-- Three coils along the axes of the body: the moment of these currents. -/
theorem coils_actuate {torquers : Fin 3 → Magnetorquer} (ht : ∀ i, torquers i = coil (exAxes i))
    {m I : Fin 3 → ℝ} (h : ∀ i, (torquers i).getCurrent (m i) = .ok (I i)) :
    sysActuate torquers I = .ok ((0.631313 * 1.584 : ℝ) • m) := by
  have hI : ∀ i, I i = m i * 0.631313 := by
    intro i
    have := h i
    rw [ht i] at this
    simp only [Magnetorquer.getCurrent, coil, if_true, Except.ok.injEq] at this
    exact this.symm
  have : pyForall (fun i => (torquers i).actuate (I i)) =
      .ok fun i k => exAxes i k * I i * 1.584 := by
    rw [pyForall_ok]
    intro i
    rw [ht i]
    simp [Magnetorquer.actuate, mtActuate, coil]
  unfold sysActuate
  rw [this]
  simp only [Except.ok.injEq]
  funext k
  simp only [Fin.sum_univ_three, hI, exAxes, Pi.single_apply, Pi.smul_apply, smul_eq_mul]
  fin_cases k <;> norm_num [Fin.ext_iff] <;> first | ring1 | (change _ = _ * m 2; ring1)

/-- The claim: the currents commanded by `detumble`, applied to the torquers in the measured field, never
increase the magnitude of the angular momentum, whose squared magnitude changes at the rate `2 h.T`. -/
def DetumbleCurrentsBrake : Prop :=
  ∀ (model : CtlModel) (h3 : model.sat.nMt = 3) (mass : ℝ) (dims : V3) (ab cd : ℝ),
    Built model.sat mass dims ab cd → model.sat.totalMoment.PosDef →
    ∀ (c c' : MagController), MagController.init model h3 false = .ok c →
    (∀ i, c.torquers i = coil (exAxes i)) →
    ∀ (s : Measurements c.sat.rw.n) (I : Fin 3 → ℝ) (m : V3), c.detumble s = (.ok I, c') →
      sysActuate c.torquers I = .ok m →
      (c.sat.totalMoment *ᵥ s.rate) ⬝ᵥ (m ⨯₃ s.mag) ≤ 0

theorem detumble_moment {c c' : MagController} (hb : c.bangBang = false) {s : Measurements c.sat.rw.n}
    {I : Fin 3 → ℝ} (h : c.detumble s = (.ok I, c')) :
    ∃ m, s.mag ≠ 0 ∧ magMoment s.mag (c.detumbleTorque s.rate) = .ok m ∧ distribute c.torquers m = .ok I := by
  unfold MagController.detumble MagController.actuatorCommands at h
  split at h
  · rw [if_neg (by simp [hb])] at h
    cases h
  · rename_i m hm
    rw [if_neg (by simp [hb])] at h
    refine ⟨m, ?_, hm, (Prod.mk.inj h).1⟩
    intro h0
    rw [h0, C65_no_field] at hm
    cases hm

/-- Whenever a component of the moment asked for is negative, the currents speed the tumbling up: the
magnitude of the angular momentum does not decrease, and it increases unless it is along the field. -/
theorem C94_reversed (c c' : MagController) (hb : c.bangBang = false)
    (ht : ∀ i, c.torquers i = coil (exAxes i)) (s : Measurements c.sat.rw.n) (I : Fin 3 → ℝ)
    (h : c.detumble s = (.ok I, c')) (m : V3) (hm : magMoment s.mag (c.detumbleTorque s.rate) = .ok m)
    (i : Fin 3) (hi : m i < 0) :
    ∃ m', sysActuate c.torquers I = .ok m' ∧ 0 ≤ (c.sat.totalMoment *ᵥ s.rate) ⬝ᵥ (m' ⨯₃ s.mag) ∧
      ((c.sat.totalMoment *ᵥ s.rate) ⨯₃ s.mag ≠ 0 → 0 < (c.sat.totalMoment *ᵥ s.rate) ⬝ᵥ (m' ⨯₃ s.mag)) := by
  obtain ⟨m₀, hB, hm0, hd⟩ := detumble_moment hb h
  obtain rfl : m₀ = m := Except.ok.inj (hm0.symm.trans hm)
  obtain ⟨k, hk, hI⟩ := C38_reversed c.torquers m₀ I (fun i => by rw [ht i]; norm_num [coil]) i hi hd
  have hact := coils_actuate ht (m := fun i => k * m₀ i) hI
  have hp := npDot_pos hB
  rw [npDot_eq_dotProduct] at hp
  set hh := c.sat.totalMoment *ᵥ s.rate with hhdef
  have e := detumble_dot hB hh hh hm
  have hc := cauchy3 s.mag hh
  have hle : (s.mag ⬝ᵥ hh) * (s.mag ⬝ᵥ hh) / (s.mag ⬝ᵥ s.mag) ≤ hh ⬝ᵥ hh := (div_le_iff₀ hp).2 hc
  have hval : hh ⬝ᵥ (((0.631313 * 1.584 : ℝ) • fun i => k * m₀ i) ⨯₃ s.mag) =
      0.631313 * 1.584 * k * (-kBbq * (hh ⬝ᵥ hh - (s.mag ⬝ᵥ hh) * (s.mag ⬝ᵥ hh) / (s.mag ⬝ᵥ s.mag))) := by
    rw [← e]
    have : ((0.631313 * 1.584 : ℝ) • fun i => k * m₀ i) = (0.631313 * 1.584 * k : ℝ) • m₀ := by
      funext j; simp [mul_assoc]
    rw [this, LinearMap.map_smul₂, dotProduct_smul, smul_eq_mul]
  refine ⟨_, hact, ?_, ?_⟩
  · rw [hval]
    have : 0 ≤ -k * kBbq * (hh ⬝ᵥ hh - (s.mag ⬝ᵥ hh) * (s.mag ⬝ᵥ hh) / (s.mag ⬝ᵥ s.mag)) :=
      mul_nonneg (mul_nonneg (by linarith) kBbq_pos.le) (by linarith)
    nlinarith
  · intro hne
    rw [hval]
    have hlt : (s.mag ⬝ᵥ hh) * (s.mag ⬝ᵥ hh) / (s.mag ⬝ᵥ s.mag) < hh ⬝ᵥ hh := by
      rw [div_lt_iff₀ hp]
      refine lt_of_le_of_ne hc fun heq => hne (dotProduct_self_eq_zero.1 ?_)
      have h2 : (hh ⬝ᵥ hh) * (s.mag ⬝ᵥ s.mag) - (s.mag ⬝ᵥ hh) * (s.mag ⬝ᵥ hh) = 0 := by rw [heq]; ring
      rw [← h2]
      simp only [cross_apply, Matrix.vec3_dotProduct, Matrix.cons_val_zero, Matrix.cons_val_one, cons3_2]
      ring
    have : 0 < -k * kBbq * (hh ⬝ᵥ hh - (s.mag ⬝ᵥ hh) * (s.mag ⬝ᵥ hh) / (s.mag ⬝ᵥ s.mag)) :=
      mul_pos (mul_pos (by linarith) kBbq_pos) (by linarith)
    nlinarith

theorem distribute_coils {torquers : Fin 3 → Magnetorquer} (ht : ∀ i, torquers i = coil (exAxes i))
    (m : Fin 3 → ℝ) : ∃ I, distribute torquers m = .ok I := by
  have h1 : ∃ r, pyForall (fun i => ratio (torquers i).maxM (m i)) = .ok r := by
    apply pyForall_total
    intro i
    rw [ht i]
    unfold ratio
    split_ifs with h1 h2
    · norm_num [coil] at h2
    · exact ⟨_, rfl⟩
    · exact ⟨_, rfl⟩
  obtain ⟨r, hr⟩ := h1
  unfold distribute scaleMoment
  rw [hr]
  simp only [Finset.univ_nonempty, dif_pos]
  apply pyForall_total
  intro i
  rw [ht i]
  simp [Magnetorquer.getCurrent, coil]

/-- The claim is false: a satellite turning about its first axis in a field along the third. -/
theorem C94_braking_fails : ¬ DetumbleCurrentsBrake := by
  intro H
  obtain ⟨sat, hb, hpd, ⟨h3, hmt⟩, hI, -, -⟩ := exSat3 true []
  set model : CtlModel := ⟨sat, some ⟨0, 0⟩, none⟩ with hmodel
  obtain ⟨c, hc⟩ : ∃ c, MagController.init model h3 false = .ok c := ⟨_, rfl⟩
  have hcs : c.sat = sat ∧ c.bangBang = false ∧ ∀ i, c.torquers i = coil (exAxes i) := by
    have := Except.ok.inj hc
    subst this
    exact ⟨rfl, rfl, hmt⟩
  obtain ⟨hsat, hbb, ht⟩ := hcs
  let s : Measurements c.sat.rw.n := ⟨0, 0, 0, ![1, 0, 0], 0, ![0, 0, 1], 0⟩
  have hB : s.mag ≠ 0 := by intro h; have := congrFun h 2; norm_num [s] at this
  have hm := magMoment_ok hB (c.detumbleTorque s.rate)
  obtain ⟨I, hIr⟩ := distribute_coils ht (fun i => npCross s.mag (c.detumbleTorque s.rate) i / npDot s.mag s.mag)
  have hdet : c.detumble s = (.ok I, c) := by
    unfold MagController.detumble MagController.actuatorCommands
    rw [hm]
    simp only [hbb, Bool.false_eq_true, if_false, hIr]
  obtain ⟨m', hm', -, hpos⟩ := C94_reversed c c hbb ht s I hdet _ hm 1 (by
    have := kBbq_pos
    simp only [s, MagController.detumbleTorque, hsat, hI, npCross_1, npDot3, Pi.smul_apply, smul_eq_mul,
      Matrix.mulVec_diagonal]
    norm_num
    linarith)
  have h1 := H model h3 2 _ _ _ hb hpd c c hc ht s I m' hdet hm'
  have h2 := hpos (by
    intro h
    have := congrFun h 1
    simp only [s, hsat, hI, cross_apply, Matrix.mulVec_diagonal] at this
    norm_num at this)
  linarith

/-- What holds of it: it brakes when no component of the moment asked for is negative. Missing: all other
states, where it is reversed (`C94_reversed`). -/
theorem C94_braking_partial (c c' : MagController) (hb : c.bangBang = false)
    (ht : ∀ i, c.torquers i = coil (exAxes i)) (s : Measurements c.sat.rw.n) (I : Fin 3 → ℝ)
    (h : c.detumble s = (.ok I, c')) (m : V3) (hm : magMoment s.mag (c.detumbleTorque s.rate) = .ok m)
    (hi : ∀ i, 0 ≤ m i) :
    ∃ m', sysActuate c.torquers I = .ok m' ∧ (c.sat.totalMoment *ᵥ s.rate) ⬝ᵥ (m' ⨯₃ s.mag) ≤ 0 := by
  obtain ⟨m₀, hB, hm0, hd⟩ := detumble_moment hb h
  obtain rfl : m₀ = m := Except.ok.inj (hm0.symm.trans hm)
  obtain ⟨k, hk, -, -, hI, -⟩ := C38_distribute_partial c.torquers m₀ I
    (fun i => by rw [ht i]; norm_num [coil]) hi hd
  have hact := coils_actuate ht (m := fun i => k * m₀ i) hI
  have hp := npDot_pos hB
  rw [npDot_eq_dotProduct] at hp
  set hh := c.sat.totalMoment *ᵥ s.rate with hhdef
  have e := detumble_dot hB hh hh hm
  have hc := cauchy3 s.mag hh
  have hle : (s.mag ⬝ᵥ hh) * (s.mag ⬝ᵥ hh) / (s.mag ⬝ᵥ s.mag) ≤ hh ⬝ᵥ hh := (div_le_iff₀ hp).2 hc
  refine ⟨_, hact, ?_⟩
  have : ((0.631313 * 1.584 : ℝ) • fun i => k * m₀ i) = (0.631313 * 1.584 * k : ℝ) • m₀ := by
    funext j; simp [mul_assoc]
  rw [this, LinearMap.map_smul₂, dotProduct_smul, smul_eq_mul, e]
  have : 0 ≤ k * kBbq * (hh ⬝ᵥ hh - (s.mag ⬝ᵥ hh) * (s.mag ⬝ᵥ hh) / (s.mag ⬝ᵥ s.mag)) :=
    mul_nonneg (mul_nonneg (by linarith) kBbq_pos.le) (by linarith)
  nlinarith

/-! ## C95: a bang-bang controller at rest -/

/-- The claim: with no torque to command, the controller commands no current. -/
def RestsAtReference : Prop :=
  ∀ (model : CtlModel) (h3 : model.sat.nMt = 3) (mass : ℝ) (dims : V3) (ab cd : ℝ) (bb : Bool),
    Built model.sat mass dims ab cd → ∀ c : MagController, MagController.init model h3 bb = .ok c →
    (∀ i, c.torquers i = coil (exAxes i)) → ∀ B : V3, B ≠ 0 → (c.actuatorCommands B 0).1 = .ok 0

/-- Moments of full size in every axis give currents in every coil. -/
theorem distribute_full {T : Fin 3 → Magnetorquer} (ht : ∀ i, T i = coil (exAxes i)) {s : Fin 3 → ℝ}
    (hs : ∀ i, s i = 1 ∨ s i = -1) {I : Fin 3 → ℝ}
    (hd : distribute T (fun i => s i * (T 2).maxM) = .ok I) : ∀ i, I i ≠ 0 := by
  set m' : V3 := fun i => s i * (T 2).maxM with hm'
  have hmax : (T 2).maxM = 1.584 := by rw [ht 2]; rfl
  have hne : ∀ i, m' i ≠ 0 := by
    intro i
    simp only [hm', hmax]
    rcases hs i with e | e <;> rw [e] <;> norm_num
  have hk : ∃ k : ℝ, k ≠ 0 ∧ ∀ i, (T i).getCurrent (k * m' i) = .ok (I i) := by
    by_cases hneg : ∃ i, m' i < 0
    · obtain ⟨i, hi⟩ := hneg
      obtain ⟨k, hk, hI⟩ := C38_reversed T m' I (fun i => by rw [ht i]; norm_num [coil]) i hi hd
      exact ⟨k, hk.ne, hI⟩
    · push Not at hneg
      obtain ⟨k, -, -, -, hI, hk1⟩ := C38_distribute_partial T m' I
        (fun i => by rw [ht i]; norm_num [coil]) hneg hd
      refine ⟨k, ?_, hI⟩
      rw [hk1 fun i => ?_]
      · norm_num
      · rw [ht i]
        simp only [hm', hmax, coil]
        rcases hs i with e | e <;> rw [e] <;> norm_num
  obtain ⟨k, hk, hI⟩ := hk
  intro i hi
  have := hI i
  rw [ht i, hi] at this
  simp only [Magnetorquer.getCurrent, coil, if_true, Except.ok.injEq] at this
  have h0 : k * m' i = 0 := by
    rcases mul_eq_zero.1 this with h | h
    · exact h
    · norm_num at h
  exact (mul_ne_zero hk (hne i)) h0

/-- A bang-bang controller with coils never commands zero current, whatever the field (even none) and the
torque, and it always commands some. -/
theorem C95_bang_bang (c : MagController) (hb : c.bangBang = true)
    (htr : ∀ i, (c.triggers i).memory = 1 ∨ (c.triggers i).memory = -1)
    (ht : ∀ i, c.torquers i = coil (exAxes i)) (B T : V3) :
    ∃ I, (c.actuatorCommands B T).1 = .ok I ∧ ∀ i, I i ≠ 0 := by
  have key : ∀ s : Fin 3 → ℝ, (∀ i, s i = 1 ∨ s i = -1) →
      ∃ I, distribute c.torquers (fun i => s i * (c.torquers 2).maxM) = .ok I ∧ ∀ i, I i ≠ 0 := by
    intro s hs
    obtain ⟨I, hI⟩ := distribute_coils ht (fun i => s i * (c.torquers 2).maxM)
    exact ⟨I, hI, distribute_full ht hs hI⟩
  unfold MagController.actuatorCommands
  split
  · rw [if_pos hb]
    exact key _ htr
  · rename_i m hm
    rw [if_pos hb]
    exact key _ fun i => trigger_step_pm (htr i) (m i)

/-- C95 fails: with bang-bang control and no error the trigger keeps its memory, so that the currents are not zero. -/
theorem C95_rest_fails : ¬ RestsAtReference := by
  intro H
  obtain ⟨sat, hb, hpd, ⟨h3, hmt⟩, hI, -, -⟩ := exSat3 true []
  set model : CtlModel := ⟨sat, some ⟨0, 0⟩, none⟩ with hmodel
  obtain ⟨c, hc⟩ : ∃ c, MagController.init model h3 true = .ok c := ⟨_, rfl⟩
  have hcs : c.bangBang = true ∧ (∀ i, c.torquers i = coil (exAxes i)) ∧
      ∀ i, (c.triggers i).memory = 1 ∨ (c.triggers i).memory = -1 := by
    have := Except.ok.inj hc
    subst this
    exact ⟨rfl, hmt, fun i => trigger_init_pm 1 0.3⟩
  obtain ⟨hbb, ht, htr⟩ := hcs
  have hB : (![0, 0, 1] : V3) ≠ 0 := by intro h; have := congrFun h 2; norm_num at this
  have h1 := H model h3 2 _ _ _ true hb c hc ht ![0, 0, 1] hB
  obtain ⟨I, hI, hne⟩ := C95_bang_bang c hbb htr ht ![0, 0, 1] 0
  rw [h1] at hI
  exact hne 0 (by rw [← Except.ok.inj hI]; rfl)

/-- What holds: without bang-bang the currents are zero. Missing: bang-bang control. -/
theorem C95_rest_partial (model : CtlModel) (h3 : model.sat.nMt = 3) (c : MagController)
    (hc : MagController.init model h3 false = .ok c) (hM : ∀ i, (c.torquers i).maxM ≠ 0)
    (ht : ∀ i, ∃ mtType axis maxA, Magnetorquer.init mtType axis maxA = .ok (c.torquers i))
    (B : V3) (hB : B ≠ 0) : (c.actuatorCommands B 0).1 = .ok 0 := by
  have hb : c.bangBang = false := by
    unfold MagController.init at hc
    split at hc
    · cases hc
    · simp only [Except.ok.injEq] at hc; subst hc; rfl
  rw [C67_currents c hb hM ht B hB]

end Adcs
