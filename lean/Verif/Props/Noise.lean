import Verif.Proofs.Gauss
import Verif.Props.Sensors

set_option autoImplicit false

/-! # C154, C155, C156: statistics of the simulated sensors

The draws of numpy's generators are taken to be an endless stream of independent standard normal
numbers, `Gauss.draws`. -/

namespace Adcs

open JDay Fr Dyn Env Sens MeasureTheory ProbabilityTheory
open scoped Matrix

/-- Specification: independent normal components around `c` with standard deviation `σ`. -/
noncomputable def Spec.around {n : ℕ} (c : Fin n → ℝ) (σ : ℝ) : Measure (Fin n → ℝ) :=
  Measure.pi fun i => gaussianReal (c i) (σ ^ 2).toNNReal

/-! ## C154: the law of a noisy measurement -/

/-- The noise of a plain sensor is normal with the sensor's mean and standard deviation, its components
are independent, and what is left of the stream is again a stream of independent standard normals,
independent of the noise. -/
theorem C154_sensor {n : ℕ} (s : Sensor n) : Gauss.draws.map (s.generateNoise true)
    = (Spec.around (fun _ => s.mean) s.stdDev).prod Gauss.draws := by
  have h : s.generateNoise true
      = fun z => ((fun i : Fin n => s.mean + s.stdDev * z i), fun k => z (k + n)) := by
    funext z; simp [Sensor.generateNoise, normal]
  have h2 := Gauss.split_map n (F := fun x i => s.mean + s.stdDev * x i) (G := id) (by fun_prop)
    measurable_id
  rw [Gauss.pi_affine, Measure.map_id] at h2
  rw [h]
  exact h2

/-- The direction to the sun is determined by the time and the position. -/
theorem pointsToSun_unique {c : JClock} {x S S' : V3} (h : PointsToSun c x S)
    (h' : PointsToSun c x S') : S = S' := by
  obtain ⟨h1, k, hk, h2⟩ := h
  obtain ⟨h1', k', hk', h2'⟩ := h'
  have h3 : k • S = k' • S' := by
    have := h2.trans h2'.symm
    exact add_left_cancel this
  have h4 : k = k' := by
    have := congrArg npNorm h3
    rwa [npNorm_smul, npNorm_smul, h1, h1', abs_of_pos hk, abs_of_pos hk', mul_one, mul_one] at this
  subst h4
  exact smul_right_injective _ hk.ne' h3

/-- Specification: what the seven sensors report, less the scalar part of the attitude, and the draws
that are left. -/
def Spec.readings {n : ℕ} (m : Measurements n) (rest : Rng) :
    V3 × V3 × V3 × V3 × (Fin n → ℝ) × V3 × V3 × Rng :=
  (m.pos, m.vel, fun i => m.att i.succ, m.rate, m.whl, m.mag, m.sun, rest)

/-- One sensor after another: `m` draws for this one, the rest of the stream for the others. -/
noncomputable def chain {m : ℕ} {β : Type} (c : Fin m → ℝ) (s : ℝ) (G : Rng → β) (z : Rng) :
    (Fin m → ℝ) × β :=
  (fun i => c i + s * z i, G fun k => z (k + m))

theorem chain_measurable {m : ℕ} {β : Type} [MeasurableSpace β] (c : Fin m → ℝ) (s : ℝ) {G : Rng → β}
    (hG : Measurable G) : Measurable (chain c s G) := by
  unfold chain; fun_prop

theorem chain_law {m : ℕ} {β : Type} [MeasurableSpace β] (c : Fin m → ℝ) (s : ℝ) {G : Rng → β}
    (hG : Measurable G) :
    Gauss.draws.map (chain c s G) = (Spec.around c s).prod (Gauss.draws.map G) := by
  have h := Gauss.split_map m (F := fun x i => c i + s * x i) (by fun_prop) hG
  rw [Gauss.pi_affine] at h
  exact h

/-- Measuring a state that is not at the sun: whatever the suite of sensors, every reading is normal
around the true value plus the mean of the noise, with the standard deviation of its sensor; all
components of all readings are independent of each other and of the draws still to come.  The gyro's
readings lie around the true rate plus the average of its last two biases.  The scalar part of the
attitude is reported without noise. -/
theorem C154_suite {n : ℕ} {a : Raw n} {c : JClock} {s : SatState n}
    (h : SatState.new a (some c) = .ok s) (hx : a.pos ≠ Orb.AU • Orb.earthToSun c.julianDate)
    (u : Suite n) :
    ∃ (m : Rng → Measurements n) (rest : Rng → Rng) (S : V3),
      (∀ z, u.measurement s true z = .ok (m z, rest z)) ∧ PointsToSun c a.pos S ∧
      (∀ z, (m z).att 0 = a.att 0) ∧
      Gauss.draws.map (fun z => Spec.readings (m z) (rest z)) =
        (Spec.around (fun i => a.pos i + u.gpsPos.mean) u.gpsPos.stdDev).prod
        ((Spec.around (fun i => a.vel i + u.gpsVel.mean) u.gpsVel.stdDev).prod
        ((Spec.around (fun i => a.att i.succ + u.star.mean) u.star.stdDev).prod
        ((Spec.around (fun i => a.rate i + (u.gyro.bias i + u.gyro.lastBias i) / 2)
          u.gyro.noiseCoefficient).prod
        ((Spec.around (fun i => a.whl i + u.wheel.mean) u.wheel.stdDev).prod
        ((Spec.around (fun i => toBody a.att (dipole (turned c.thetaGmst earthDipole) a.pos) i
          + u.mag.mean) u.mag.stdDev).prod
        ((Spec.around (fun i => toBody a.att S i + u.sun.mean) u.sun.stdDev).prod Gauss.draws)))))) := by
  choose m rest h1 h2 h3 h4 h5 h6 h7 h8 h9 S0 hS0 h10 using C33_noisy h hx u
  obtain ⟨S, hS, -⟩ := C33_noise_free h hx u fun _ => 0
  refine ⟨m, rest, S, h1, hS, h5, ?_⟩
  have hS0' : ∀ z, S0 z = S := fun z => pointsToSun_unique (hS0 z) hS
  have hf : (fun z => Spec.readings (m z) (rest z)) =
      chain (fun i => a.pos i + u.gpsPos.mean) u.gpsPos.stdDev
      (chain (fun i => a.vel i + u.gpsVel.mean) u.gpsVel.stdDev
      (chain (fun i : Fin 3 => a.att i.succ + u.star.mean) u.star.stdDev
      (chain (fun i => a.rate i + (u.gyro.bias i + u.gyro.lastBias i) / 2) u.gyro.noiseCoefficient
      (chain (fun i => a.whl i + u.wheel.mean) u.wheel.stdDev
      (chain (fun i => toBody a.att (dipole (turned c.thetaGmst earthDipole) a.pos) i + u.mag.mean)
        u.mag.stdDev
      (chain (fun i => toBody a.att S i + u.sun.mean) u.sun.stdDev id)))))) := by
    funext z
    simp only [Spec.readings, chain, id]
    refine Prod.ext ?_ <| Prod.ext ?_ <| Prod.ext ?_ <| Prod.ext ?_ <| Prod.ext ?_ <| Prod.ext ?_ <|
      Prod.ext ?_ ?_
    · funext i; simp only [h3]; ring
    · funext i; simp only [h4]; ring
    · funext i; simp only [h6, add_assoc]
    · funext i; simp only [h7, add_assoc]; norm_num
    · funext i; simp only [h8, add_assoc]; norm_num
    · funext i; simp only [h9, add_assoc]; norm_num [add_comm n]
    · funext i; simp only [h10, hS0', add_assoc]; ring_nf
    · funext k; simp only [h2]; ring_nf
  rw [hf, chain_law _ _ (by
      repeat' apply chain_measurable
      exact measurable_id),
    chain_law _ _ (by
      repeat' apply chain_measurable
      exact measurable_id),
    chain_law _ _ (by
      repeat' apply chain_measurable
      exact measurable_id),
    chain_law _ _ (by
      repeat' apply chain_measurable
      exact measurable_id),
    chain_law _ _ (by
      repeat' apply chain_measurable
      exact measurable_id),
    chain_law _ _ (by
      repeat' apply chain_measurable
      exact measurable_id),
    chain_law _ _ measurable_id, Measure.map_id]

/-- The state of the examples meets the hypotheses. -/
example (u : Suite 4) : ∃ (s : SatState 4) (m : Rng → Measurements 4) (rest : Rng → Rng),
    SatState.new (exRaw 4) (some exClock) = .ok s ∧
    (∀ z, u.measurement s true z = .ok (m z, rest z)) := by
  obtain ⟨s, hs, -⟩ := exState 4
  have hx : (exRaw 4).pos ≠ Orb.AU • Orb.earthToSun exClock.julianDate := by
    intro h
    have h1 := congrArg npNorm h
    rw [npNorm_smul, show npNorm (Orb.earthToSun exClock.julianDate) = 1 from earthToSun_unit _] at h1
    have h2 : npNorm (exRaw 4).pos = 6800000 := by
      simp [exRaw, npNorm, Fin.sum_univ_three]
    rw [h2] at h1
    unfold Orb.AU at h1
    norm_num at h1
  obtain ⟨m, rest, S, h1, -⟩ := C154_suite hs hx u
  exact ⟨s, m, rest, hs, h1⟩

/-! ## C155: the gyro over time -/

/-- A history of the gyro: at every step of length `dt` it is propagated and then read in state `s`.
Returns the readings integrated over the steps, `Σ dt * reading`. -/
noncomputable def gyroRun {n : ℕ} (g : Gyro) : List (ℝ × SatState n) → Rng → Py (V3 × Gyro × Rng)
  | [], rng => .ok (0, g, rng)
  | (dt, s) :: l, rng =>
    match g.propagate dt rng with
    | .error e => .error e
    | .ok (g', rng') =>
      match Sens.measurement (gyroTrue s) (g'.generateNoise true) rng' with
      | .error e => .error e
      | .ok (w, rng'') =>
        match gyroRun g' l rng'' with
        | .error e => .error e
        | .ok (x, r) => .ok (dt • w + x, r)

/-- Specification: the elapsed time of a history. -/
noncomputable def elapsed {n : ℕ} (l : List (ℝ × SatState n)) : ℝ := (l.map Prod.fst).sum

/-- Specification: the angle truly turned, `Σ dt * rate`. -/
noncomputable def turnedAngle {n : ℕ} (l : List (ℝ × SatState n)) : V3 :=
  (l.map fun p => p.1 • p.2.arr.rate).sum

theorem gyroRun_append {n : ℕ} (g : Gyro) (l : List (ℝ × SatState n)) (dt : ℝ) (s : SatState n)
    (rng : Rng) : gyroRun g (l ++ [(dt, s)]) rng =
      match gyroRun g l rng with
      | .error e => .error e
      | .ok (x, g', rng') =>
        match gyroRun g' [(dt, s)] rng' with
        | .error e => .error e
        | .ok (y, r) => .ok (x + y, r) := by
  induction l generalizing g rng with
  | nil =>
    rw [List.nil_append, show gyroRun g [] rng = .ok (0, g, rng) from rfl]
    dsimp only
    cases gyroRun g [(dt, s)] rng with
    | error e => rfl
    | ok r => simp
  | cons p l ih =>
    obtain ⟨d, t⟩ := p
    simp only [List.cons_append]
    rw [gyroRun, gyroRun]
    cases g.propagate d rng with
    | error e => rfl
    | ok r =>
      dsimp only
      cases Sens.measurement (gyroTrue t) (r.1.generateNoise true) r.2 with
      | error e => rfl
      | ok w =>
        dsimp only
        rw [ih]
        cases gyroRun r.1 l w.2 with
        | error e => rfl
        | ok v =>
          dsimp only
          cases gyroRun v.2.1 [(dt, s)] v.2.2 with
          | error e => rfl
          | ok y => simp [add_assoc]

theorem gyroRun_step {n : ℕ} (g : Gyro) {dt : ℝ} (hdt : 0 < dt) (h1 : 0 ≤ g.arwVar)
    (h2 : 0 ≤ g.rrwVar) (s : SatState n) (rng : Rng) :
    ∃ y g', gyroRun g [(dt, s)] rng = .ok (y, g', fun k => rng (k + 6)) ∧
      g'.arwVar = g.arwVar ∧ g'.rrwVar = g.rrwVar ∧ g'.rrwMean = g.rrwMean ∧
      g'.rrwStdDev = g.rrwStdDev ∧
      (∀ i, g'.bias i = g.bias i + Real.sqrt dt * (g.rrwMean + g.rrwStdDev * rng i)) ∧
      ∀ i, y i = dt * (s.arr.rate i + (g.bias i + g'.bias i) / 2 +
        Real.sqrt (g.arwVar / dt + g.rrwVar * dt) * rng (i + 3)) := by
  have hp := propagate_ok g hdt h1 h2 rng
  obtain ⟨w, hw, hw2⟩ := C36_reading s
    { g with lastBias := g.bias
             noiseCoefficient := Real.sqrt (g.arwVar / dt + g.rrwVar * dt)
             bias := fun i => g.bias i + Real.sqrt dt * (g.rrwMean + g.rrwStdDev * rng i) }
    (fun k => rng (k + 3))
  refine ⟨dt • w + 0, { g with
      lastBias := g.bias
      noiseCoefficient := Real.sqrt (g.arwVar / dt + g.rrwVar * dt)
      bias := fun i => g.bias i + Real.sqrt dt * (g.rrwMean + g.rrwStdDev * rng i) },
    ?_, rfl, rfl, rfl, rfl, fun i => rfl, fun i => ?_⟩
  · rw [gyroRun, hp]
    dsimp only
    rw [hw]
    rfl
  · simp only [Pi.add_apply, Pi.smul_apply, smul_eq_mul, Pi.zero_apply, add_zero, hw2]
    ring

/-- Coefficients of a component of the bias after one more step, in terms of the draws. -/
noncomputable def nextB (N : ℕ) (i : Fin 3) (b : ℕ → ℝ) (r : ℝ) (k : ℕ) : ℝ :=
  if k < N then b k else if k = N + i then r else 0

/-- Coefficients of a component of the angle error after one more step. -/
noncomputable def nextA (N : ℕ) (i : Fin 3) (a b : ℕ → ℝ) (dt r c : ℝ) (k : ℕ) : ℝ :=
  if k < N then a k + dt * b k
  else if k = N + i then dt * r / 2 else if k = N + (3 + i) then dt * c else 0

theorem sum_six (N : ℕ) (f : ℕ → ℝ) : ∑ k ∈ Finset.range (N + 6), f k =
    ∑ k ∈ Finset.range N, f k + (f N + f (N + 1) + f (N + 2) + f (N + 3) + f (N + 4) + f (N + 5)) := by
  rw [show N + 6 = N + 1 + 1 + 1 + 1 + 1 + 1 by ring]
  simp only [Finset.sum_range_succ]
  ring

theorem sum_nextB (N : ℕ) (i j : Fin 3) (b b' : ℕ → ℝ) (r : ℝ) :
    ∑ k ∈ Finset.range (N + 6), nextB N i b r k * nextB N j b' r k =
      ∑ k ∈ Finset.range N, b k * b' k + if i = j then r ^ 2 else 0 := by
  rw [sum_six]
  congr 1
  · refine Finset.sum_congr rfl fun k hk => ?_
    simp [nextB, Finset.mem_range.1 hk]
  · fin_cases i <;> fin_cases j <;> simp [nextB, sq]

theorem sum_nextAB (N : ℕ) (i j : Fin 3) (a b b' : ℕ → ℝ) (dt r c : ℝ) :
    ∑ k ∈ Finset.range (N + 6), nextA N i a b dt r c k * nextB N j b' r k =
      ∑ k ∈ Finset.range N, a k * b' k + dt * ∑ k ∈ Finset.range N, b k * b' k +
        if i = j then dt * r ^ 2 / 2 else 0 := by
  rw [sum_six, Finset.mul_sum, ← Finset.sum_add_distrib]
  congr 1
  · refine Finset.sum_congr rfl fun k hk => ?_
    simp [nextA, nextB, Finset.mem_range.1 hk]; ring
  · fin_cases i <;> fin_cases j <;> simp [nextA, nextB] <;> ring

theorem sum_nextA (N : ℕ) (i j : Fin 3) (a b a' b' : ℕ → ℝ) (dt r c : ℝ) :
    ∑ k ∈ Finset.range (N + 6), nextA N i a b dt r c k * nextA N j a' b' dt r c k =
      ∑ k ∈ Finset.range N, a k * a' k + dt * ∑ k ∈ Finset.range N, a k * b' k +
        dt * ∑ k ∈ Finset.range N, a' k * b k + dt ^ 2 * ∑ k ∈ Finset.range N, b k * b' k +
        if i = j then dt ^ 2 * (r ^ 2 / 4 + c ^ 2) else 0 := by
  rw [sum_six, Finset.mul_sum, Finset.mul_sum, Finset.mul_sum, ← Finset.sum_add_distrib,
    ← Finset.sum_add_distrib, ← Finset.sum_add_distrib]
  congr 1
  · refine Finset.sum_congr rfl fun k hk => ?_
    simp [nextA, Finset.mem_range.1 hk]; ring
  · fin_cases i <;> fin_cases j <;> simp [nextA] <;> ring

theorem aff_nextB (N : ℕ) (i : Fin 3) (b : ℕ → ℝ) (d q m s : ℝ) (z : ℕ → ℝ) :
    Gauss.aff N d b z + q * (m + s * z (i + N)) = Gauss.aff (N + 6) (d + q * m) (nextB N i b (q * s)) z := by
  unfold Gauss.aff
  rw [sum_six]
  have h : ∑ k ∈ Finset.range N, nextB N i b (q * s) k * z k = ∑ k ∈ Finset.range N, b k * z k :=
    Finset.sum_congr rfl fun k hk => by simp [nextB, Finset.mem_range.1 hk]
  rw [h]
  fin_cases i <;> simp [nextB, add_comm 1 N, add_comm 2 N] <;> ring

theorem aff_nextA (N : ℕ) (i : Fin 3) (a b : ℕ → ℝ) (c d dt q m s w : ℝ) (z : ℕ → ℝ) :
    Gauss.aff N c a z + dt * ((Gauss.aff N d b z + (Gauss.aff N d b z + q * (m + s * z (i + N)))) / 2
      + w * z (i + 3 + N)) =
    Gauss.aff (N + 6) (c + dt * (d + q * m / 2)) (nextA N i a b dt (q * s) w) z := by
  unfold Gauss.aff
  rw [sum_six]
  have h : ∑ k ∈ Finset.range N, nextA N i a b dt (q * s) w k * z k =
      ∑ k ∈ Finset.range N, a k * z k + dt * ∑ k ∈ Finset.range N, b k * z k := by
    rw [Finset.mul_sum, ← Finset.sum_add_distrib]
    refine Finset.sum_congr rfl fun k hk => ?_
    simp [nextA, Finset.mem_range.1 hk]; ring
  rw [h]
  fin_cases i <;> simp [nextA, add_comm 1 N, add_comm 2 N, add_comm 3 N, add_comm 4 N, add_comm 5 N]
    <;> ring

theorem gyro_moments {n : ℕ} (arwMean arwStd rrwMean rrwStd initBias : ℝ) (l : List (ℝ × SatState n))
    (hl : ∀ p ∈ l, 0 < p.1) :
    ∃ (ca : ℝ) (a b : Fin 3 → ℕ → ℝ),
      (∀ z, ∃ x g, gyroRun (Gyro.init arwMean arwStd rrwMean rrwStd initBias z).1 l
          (Gyro.init arwMean arwStd rrwMean rrwStd initBias z).2 =
            .ok (x, g, fun k => z (k + (3 + 6 * l.length))) ∧
        g.arwVar = arwStd ^ 2 ∧ g.rrwVar = rrwStd ^ 2 / 12 ∧ g.rrwMean = rrwMean ∧
        g.rrwStdDev = rrwStd ∧
        (∀ i, g.bias i = Gauss.aff (3 + 6 * l.length)
          (rrwMean * (l.map fun p => Real.sqrt p.1).sum) (b i) z) ∧
        ∀ i, x i - turnedAngle l i = Gauss.aff (3 + 6 * l.length) ca (a i) z) ∧
      (rrwMean = 0 → ca = 0) ∧
      (∀ i j, ∑ k ∈ Finset.range (3 + 6 * l.length), b i k * b j k =
        if i = j then initBias ^ 2 + rrwStd ^ 2 * elapsed l else 0) ∧
      (∀ i j, ∑ k ∈ Finset.range (3 + 6 * l.length), a i k * b j k =
        if i = j then initBias ^ 2 * elapsed l + rrwStd ^ 2 * elapsed l ^ 2 / 2 else 0) ∧
      (∀ i j, ∑ k ∈ Finset.range (3 + 6 * l.length), a i k * a j k =
        if i = j then initBias ^ 2 * elapsed l ^ 2 + arwStd ^ 2 * elapsed l +
          rrwStd ^ 2 * elapsed l ^ 3 / 3 else 0) := by
  induction l using List.reverseRecOn with
  | nil =>
    refine ⟨0, fun _ _ => 0, fun i k => if k = i then initBias else 0, fun z => ?_, fun _ => rfl, ?_,
      ?_, ?_⟩
    · refine ⟨0, _, rfl, rfl, rfl, rfl, rfl, fun i => ?_, fun i => ?_⟩
      · fin_cases i <;> simp [Gyro.init, normal, Gauss.aff]
      · simp [turnedAngle, Gauss.aff]
    · intro i j
      fin_cases i <;> fin_cases j <;> simp [elapsed, sq]
    · intro i j; simp [elapsed]
    · intro i j; simp [elapsed]
  | append_singleton l p ih =>
    obtain ⟨dt, s⟩ := p
    obtain ⟨ca, a, b, H, h0, h1, h2, h3⟩ := ih fun d hd => hl d (by simp [hd])
    have hdt : 0 < dt := hl (dt, s) (by simp)
    have hN : 3 + 6 * (l ++ [(dt, s)]).length = 3 + 6 * l.length + 6 := by
      simp only [List.length_append, List.length_cons, List.length_nil]; ring
    have hT : elapsed (l ++ [(dt, s)]) = elapsed l + dt := by simp [elapsed]
    have hang : turnedAngle (l ++ [(dt, s)]) = turnedAngle l + dt • s.arr.rate := by
      simp [turnedAngle]
    have hsq : Real.sqrt dt ^ 2 = dt := Real.sq_sqrt hdt.le
    have hc : Real.sqrt (arwStd ^ 2 / dt + rrwStd ^ 2 / 12 * dt) ^ 2 =
        arwStd ^ 2 / dt + rrwStd ^ 2 / 12 * dt := Real.sq_sqrt (by positivity)
    refine ⟨ca + dt * (rrwMean * (l.map fun p => Real.sqrt p.1).sum + Real.sqrt dt * rrwMean / 2),
      fun i => nextA (3 + 6 * l.length) i (a i) (b i) dt (Real.sqrt dt * rrwStd)
        (Real.sqrt (arwStd ^ 2 / dt + rrwStd ^ 2 / 12 * dt)),
      fun i => nextB (3 + 6 * l.length) i (b i) (Real.sqrt dt * rrwStd), fun z => ?_, ?_, ?_, ?_, ?_⟩
    · obtain ⟨x, g, hr, g1, g2, g3, g4, hb, hx⟩ := H z
      obtain ⟨y, g', hs, k1, k2, k3, k4, hb', hy⟩ := gyroRun_step g hdt (by rw [g1]; positivity)
        (by rw [g2]; positivity) s (fun k => z (k + (3 + 6 * l.length)))
      refine ⟨x + y, g', ?_, k1.trans g1, k2.trans g2, k3.trans g3, k4.trans g4, ?_, ?_⟩
      · rw [gyroRun_append, hr]
        dsimp only
        rw [hs]
        dsimp only
        congr 4
        funext k
        rw [hN]
        ring_nf
      · intro i
        rw [hb', hb, g3, g4, aff_nextB, hN]
        congr 1
        simp; ring
      · intro i
        have e := aff_nextA (3 + 6 * l.length) i (a i) (b i) ca
          (rrwMean * (l.map fun p => Real.sqrt p.1).sum) dt (Real.sqrt dt) rrwMean rrwStd
          (Real.sqrt (arwStd ^ 2 / dt + rrwStd ^ 2 / 12 * dt)) z
        rw [hN, ← e, ← hx, ← hb, hang]
        simp only [Pi.add_apply, Pi.smul_apply, smul_eq_mul, hy, hb', g1, g2, g3, g4]
        ring
    · rintro rfl
      simp [h0 rfl]
    · intro i j
      rw [hN, sum_nextB, h1, hT, mul_pow, hsq]
      split_ifs <;> ring
    · intro i j
      rw [hN, sum_nextAB, h1, h2, hT, mul_pow, hsq]
      split_ifs <;> ring
    · intro i j
      rw [hN, sum_nextA, h1, h2, h3, h2, hT, mul_pow, hsq, hc]
      by_cases hij : i = j
      · subst hij
        simp only [if_true]
        field_simp
        ring
      · simp [hij, Ne.symm hij]

/-- Specification: the random variables `θ` and `β` are the error of the integrated readings and the bias
at the end of the history `l` of a newly made gyro. -/
def Spec.GyroOutcome {n : ℕ} (arwMean arwStd rrwMean rrwStd initBias : ℝ) (l : List (ℝ × SatState n))
    (θ β : Rng → V3) : Prop :=
  ∀ z, ∃ g₀ rng₀ x g rng, Gyro.init arwMean arwStd rrwMean rrwStd initBias z = (g₀, rng₀) ∧
    gyroRun g₀ l rng₀ = .ok (x, g, rng) ∧ θ z = x - turnedAngle l ∧ β z = g.bias

/-- The claim: the law of the bias depends on the elapsed time only, not on how it is divided into
steps. -/
def C155_claim : Prop :=
  ∀ (n : ℕ) (arwMean arwStd rrwMean rrwStd initBias : ℝ) (l l' : List (ℝ × SatState n))
    (θ β θ' β' : Rng → V3), (∀ p ∈ l, 0 < p.1) → (∀ p ∈ l', 0 < p.1) → elapsed l = elapsed l' →
    Spec.GyroOutcome arwMean arwStd rrwMean rrwStd initBias l θ β →
    Spec.GyroOutcome arwMean arwStd rrwMean rrwStd initBias l' θ' β' →
    ∀ i, Gauss.draws.map (fun z => β z i) = Gauss.draws.map (fun z => β' z i)

/-- Every history of positive steps has an outcome, and the bias at its end is normal with mean
`rrw_mean * Σ sqrt(dt)` and variance `init_bias² + rrw² T`, where `T` is the elapsed time. -/
theorem C155_bias {n : ℕ} (arwMean arwStd rrwMean rrwStd initBias : ℝ) (l : List (ℝ × SatState n))
    (hl : ∀ p ∈ l, 0 < p.1) :
    ∃ θ β, Spec.GyroOutcome arwMean arwStd rrwMean rrwStd initBias l θ β ∧
      ∀ i, Gauss.draws.map (fun z => β z i) =
        gaussianReal (rrwMean * (l.map fun p => Real.sqrt p.1).sum)
          (initBias ^ 2 + rrwStd ^ 2 * elapsed l).toNNReal := by
  obtain ⟨ca, a, b, H, -, h1, -, -⟩ := gyro_moments arwMean arwStd rrwMean rrwStd initBias l hl
  choose x g hr _ _ _ _ hb hx using H
  refine ⟨fun z => x z - turnedAngle l, fun z => (g z).bias, fun z => ⟨_, _, x z, g z, _, rfl, hr z,
    rfl, rfl⟩, fun i => ?_⟩
  have e : (fun z => (g z).bias i) = Gauss.aff (3 + 6 * l.length)
      (rrwMean * (l.map fun p => Real.sqrt p.1).sum) (b i) := by funext z; exact hb z i
  rw [e, Gauss.aff_law]
  congr 2
  simp only [sq (b i _)]
  rw [h1]
  simp [sq]

/-- With `rrw_mean = 0` the statistics are those of white rate noise plus a bias driven by white noise,
whatever the division of the elapsed time `T` into steps: the bias is normal with mean zero and
variance `init_bias² + rrw² T`, the error of the integrated readings is normal with mean zero and
variance `init_bias² T² + arw² T + rrw² T³ / 3`, their covariance is `init_bias² T + rrw² T² / 2`, and
different axes are uncorrelated.  Missing: a mean of the drift other than zero (`C155_steps_fails`). -/
theorem C155_statistics_partial {n : ℕ} (arwMean arwStd rrwStd initBias : ℝ)
    (l : List (ℝ × SatState n)) (hl : ∀ p ∈ l, 0 < p.1) :
    ∃ θ β, Spec.GyroOutcome arwMean arwStd 0 rrwStd initBias l θ β ∧
      (∀ i, Gauss.draws.map (fun z => β z i) =
        gaussianReal 0 (initBias ^ 2 + rrwStd ^ 2 * elapsed l).toNNReal) ∧
      (∀ i, Gauss.draws.map (fun z => θ z i) =
        gaussianReal 0 (initBias ^ 2 * elapsed l ^ 2 + arwStd ^ 2 * elapsed l +
          rrwStd ^ 2 * elapsed l ^ 3 / 3).toNNReal) ∧
      (∀ i, cov[fun z => θ z i, fun z => β z i; Gauss.draws] =
        initBias ^ 2 * elapsed l + rrwStd ^ 2 * elapsed l ^ 2 / 2) ∧
      ∀ i j, i ≠ j → cov[fun z => θ z i, fun z => θ z j; Gauss.draws] = 0 ∧
        cov[fun z => θ z i, fun z => β z j; Gauss.draws] = 0 ∧
        cov[fun z => β z i, fun z => β z j; Gauss.draws] = 0 := by
  obtain ⟨ca, a, b, H, h0, h1, h2, h3⟩ := gyro_moments arwMean arwStd 0 rrwStd initBias l hl
  choose x g hr _ _ _ _ hb hx using H
  have eb : ∀ i, (fun z => (g z).bias i) = Gauss.aff (3 + 6 * l.length)
      (0 * (l.map fun p => Real.sqrt p.1).sum) (b i) := fun i => by funext z; exact hb z i
  have ea : ∀ i, (fun z => (x z - turnedAngle l) i) = Gauss.aff (3 + 6 * l.length) ca (a i) :=
    fun i => by funext z; exact hx z i
  refine ⟨fun z => x z - turnedAngle l, fun z => (g z).bias, fun z => ⟨_, _, x z, g z, _, rfl, hr z,
    rfl, rfl⟩, fun i => ?_, fun i => ?_, fun i => ?_, fun i j hij => ⟨?_, ?_, ?_⟩⟩
  · rw [eb, Gauss.aff_law, zero_mul]
    congr 2
    simp only [sq (b i _)]
    rw [h1, if_pos rfl]
  · rw [ea, Gauss.aff_law, h0 rfl]
    congr 2
    simp only [sq (a i _)]
    rw [h3, if_pos rfl]
  · rw [ea, eb, Gauss.aff_cov, h2, if_pos rfl]
  · rw [ea, ea, Gauss.aff_cov, h3, if_neg hij]
  · rw [ea, eb, Gauss.aff_cov, h2, if_neg hij]
  · rw [eb, eb, Gauss.aff_cov, h1, if_neg hij]

theorem outcome_unique {n : ℕ} {arwMean arwStd rrwMean rrwStd initBias : ℝ}
    {l : List (ℝ × SatState n)} {θ β θ' β' : Rng → V3}
    (h : Spec.GyroOutcome arwMean arwStd rrwMean rrwStd initBias l θ β)
    (h' : Spec.GyroOutcome arwMean arwStd rrwMean rrwStd initBias l θ' β') : θ = θ' ∧ β = β' := by
  have key : ∀ z, θ z = θ' z ∧ β z = β' z := by
    intro z
    obtain ⟨g₀, rng₀, x, g, rng, h1, h2, h3, h4⟩ := h z
    obtain ⟨g₀', rng₀', x', g', rng', h1', h2', h3', h4'⟩ := h' z
    rw [h1] at h1'
    obtain ⟨rfl, rfl⟩ := Prod.mk.inj h1'
    rw [h2] at h2'
    obtain ⟨rfl, h5⟩ := Prod.mk.inj (Except.ok.inj h2')
    obtain ⟨rfl, -⟩ := Prod.mk.inj h5
    exact ⟨h3.trans h3'.symm, h4.trans h4'.symm⟩
  exact ⟨funext fun z => (key z).1, funext fun z => (key z).2⟩

/-- With a mean of the drift other than zero the number of steps matters: the mean bias after one step of
four seconds is `2 * rrw_mean`, after four steps of one second `4 * rrw_mean`. -/
theorem C155_steps_fails : ¬ C155_claim := by
  intro hc
  obtain ⟨s, -, -⟩ := exState 4
  have p1 : ∀ p ∈ [((4 : ℝ), s)], 0 < p.1 := by simp
  have p2 : ∀ p ∈ [((1 : ℝ), s), (1, s), (1, s), (1, s)], 0 < p.1 := by simp
  obtain ⟨θ, β, h1, h2⟩ := C155_bias 0 1 1 1 1 [((4 : ℝ), s)] p1
  obtain ⟨θ', β', h1', h2'⟩ := C155_bias 0 1 1 1 1 [((1 : ℝ), s), (1, s), (1, s), (1, s)] p2
  have h := hc 4 0 1 1 1 1 _ _ θ β θ' β' p1 p2 (by simp [elapsed]; norm_num) h1 h1' 0
  rw [h2, h2', gaussianReal_ext_iff] at h
  have h3 := h.1
  have h4 : Real.sqrt 4 = 2 := by
    rw [show (4 : ℝ) = 2 ^ 2 by norm_num]; exact Real.sqrt_sq (by norm_num)
  simp [h4] at h3
  norm_num at h3

/-- A history of the examples: half a second of readings at 20 Hz. -/
example (s : SatState 4) : ∀ p ∈ List.replicate 10 ((0.05 : ℝ), s), 0 < p.1 := by
  intro p hp
  rw [List.eq_of_mem_replicate hp]
  norm_num

/-! ## C156: the mean of the gyro's noise -/

/-- The claim: once the gyro has been propagated, a reading lies on average at the true rate plus the
mean of the measurement noise given to the constructor. -/
def C156_claim : Prop :=
  ∀ (n : ℕ) (arwMean arwStd rrwStd initBias dt : ℝ) (s : SatState n) (θ β : Rng → V3), 0 < dt →
    Spec.GyroOutcome arwMean arwStd 0 rrwStd initBias [(dt, s)] θ β →
    ∀ i, ∫ z, θ z i ∂Gauss.draws = dt * arwMean

/-- The same gyro with another pair of base parameters (mean and deviation of the measurement noise). -/
def withBase (g : Gyro) (B : Sensor 3) : Gyro := { g with base := B }

theorem gyroRun_withBase {n : ℕ} (g : Gyro) (B : Sensor 3) (l : List (ℝ × SatState n)) (rng : Rng) :
    gyroRun (withBase g B) l rng =
      match gyroRun g l rng with
      | .error e => .error e
      | .ok (x, g', r) => .ok (x, withBase g' B, r) := by
  induction l generalizing g rng with
  | nil => rfl
  | cons p l ih =>
    obtain ⟨dt, s⟩ := p
    have hp : (withBase g B).propagate dt rng =
        match g.propagate dt rng with
        | .error e => .error e
        | .ok (g', r) => .ok (withBase g' B, r) := by
      unfold Gyro.propagate
      dsimp only [withBase]
      cases npSqrt dt with
      | error e => rfl
      | ok q =>
        dsimp only
        split_ifs
        · rfl
        · cases npSqrt (g.arwVar / dt + g.rrwVar * dt) <;> rfl
    rw [gyroRun, gyroRun, hp]
    cases g.propagate dt rng with
    | error e => rfl
    | ok r =>
      dsimp only
      rw [show (withBase r.1 B).generateNoise true = r.1.generateNoise true from rfl]
      cases Sens.measurement (gyroTrue s) (r.1.generateNoise true) r.2 with
      | error e => rfl
      | ok w =>
        dsimp only
        rw [ih]
        cases gyroRun r.1 l w.2 <;> rfl

/-- The mean given to the constructor has no effect: two gyros that differ in it only go through the same
histories.  Missing: any effect of it (`C156_mean_fails`); the other sensors have the mean they were
given (`C154_sensor`). -/
theorem C156_ignored_partial {n : ℕ} (m m' arwStd rrwMean rrwStd initBias : ℝ)
    (l : List (ℝ × SatState n)) (θ β : Rng → V3) :
    Spec.GyroOutcome m arwStd rrwMean rrwStd initBias l θ β ↔
    Spec.GyroOutcome m' arwStd rrwMean rrwStd initBias l θ β := by
  have key : ∀ m m' : ℝ, Spec.GyroOutcome m arwStd rrwMean rrwStd initBias l θ β →
      Spec.GyroOutcome m' arwStd rrwMean rrwStd initBias l θ β := by
    intro m m' h z
    obtain ⟨g₀, rng₀, x, g, rng, h1, h2, h3, h4⟩ := h z
    refine ⟨withBase g₀ ⟨m', arwStd⟩, rng₀, x, withBase g ⟨m', arwStd⟩, rng, ?_, ?_, h3, h4⟩
    · have e1 : g₀ = (Gyro.init m arwStd rrwMean rrwStd initBias z).1 := by rw [h1]
      have e2 : rng₀ = (Gyro.init m arwStd rrwMean rrwStd initBias z).2 := by rw [h1]
      rw [e1, e2]
      rfl
    · rw [gyroRun_withBase, h2]
  exact ⟨key m m', key m' m⟩

/-- A gyro made with `arw_mean = 1` reads the true rate on average. -/
theorem C156_mean_fails : ¬ C156_claim := by
  intro hc
  obtain ⟨s, -, -⟩ := exState 4
  obtain ⟨θ, β, h1, -, h2, -⟩ := C155_statistics_partial 1 1 1 1 [((1 : ℝ), s)] (by simp)
  have h := hc 4 1 1 1 1 1 s θ β one_pos h1 0
  have hm : AEMeasurable (fun z => θ z 0) Gauss.draws := by
    apply AEMeasurable.of_map_ne_zero
    rw [h2]
    exact NeZero.ne _
  have h3 : ∫ z, θ z 0 ∂Gauss.draws = 0 := by
    have := integral_map (μ := Gauss.draws) (f := fun x : ℝ => x) hm (by fun_prop)
    rw [← this, h2, integral_id_gaussianReal]
  rw [h3] at h
  norm_num at h

/-- Concretely: constructed with `arw_mean = 1` or `0`, the same history has the same outcome. -/
example (s : SatState 4) : ∃ θ β, Spec.GyroOutcome 1 1 0 1 1 [((1 : ℝ), s)] θ β ∧
    Spec.GyroOutcome 0 1 0 1 1 [((1 : ℝ), s)] θ β := by
  obtain ⟨θ, β, h, -⟩ := C155_statistics_partial 1 1 1 1 [((1 : ℝ), s)] (by simp)
  exact ⟨θ, β, h, (C156_ignored_partial 1 0 1 0 1 1 _ θ β).1 h⟩

end Adcs
