import Verif.Model.Sensor
import Verif.Props.Environment
import Verif.Props.Quat

set_option autoImplicit false

/-! # C33, C34, C35, C36: sensors -/

namespace Adcs

open JDay Fr Dyn Env Sens
open scoped Matrix Quaternion

/-- Specification: the components along the body axes of the inertial vector `v`, for attitude `q`:
the imaginary part of `q* v q`. -/
noncomputable def toBody (q : V4) (v : V3) : V3 :=
  let p := star (Spec.toH q) * Spec.toH ![0, v 0, v 1, v 2] * Spec.toH q
  ![p.imI, p.imJ, p.imK]

theorem sandwich_eq_toBody (q : V4) (v : V3) : Quat.sandwich q v = toBody q v := by
  have h : Spec.toH (Quat.product (Quat.conjugate q) (Quat.product ![0, v 0, v 1, v 2] q)) =
      star (Spec.toH q) * (Spec.toH ![0, v 0, v 1, v 2] * Spec.toH q) := by
    rw [toH_product, toH_product, toH_conjugate]
  unfold toBody
  simp only [mul_assoc, ← h]
  rfl

/-- Specification: the unit vector `S` points from `x` to the sun's position at time `c`. -/
def PointsToSun (c : JClock) (x S : V3) : Prop :=
  npNorm S = 1 ∧ ∃ k : ℝ, 0 < k ∧ x + k • S = Orb.AU • Orb.earthToSun c.julianDate

theorem sun_info {n : ℕ} {a : Raw n} {c : JClock} {s : SatState n} (h : SatState.new a (some c) = .ok s)
    (hx : a.pos ≠ Orb.AU • Orb.earthToSun c.julianDate) :
    ∃ i, Orb.srpInfo s = .ok i ∧ PointsToSun c a.pos i.S := by
  obtain ⟨i, h1, -, h3, ⟨k, hk, h4, -⟩, -⟩ := C51_sun c a.pos hx
  exact ⟨i, ((C52_agree h false 0).2.1).trans h1, h3, k, hk, h4.symm⟩

/-! ## C33: measurements -/

/-- For a state that is not at the sun, the noise-free measurement is the true value and draws no
random number, whatever the noise parameters and the gyro's bias. -/
theorem C33_noise_free {n : ℕ} {a : Raw n} {c : JClock} {s : SatState n}
    (h : SatState.new a (some c) = .ok s) (hx : a.pos ≠ Orb.AU • Orb.earthToSun c.julianDate)
    (u : Suite n) (rng : Rng) :
    ∃ S, PointsToSun c a.pos S ∧ u.measurement s false rng = .ok
      (⟨a.pos, a.vel, a.att, a.rate, a.whl,
        toBody a.att (dipole (turned c.thetaGmst earthDipole) a.pos), toBody a.att S⟩, rng) := by
  obtain ⟨i, hi, hS⟩ := sun_info h hx
  refine ⟨i.S, hS, ?_⟩
  have hm := C50_rotating_dipole h
  obtain ⟨-, ha, -⟩ := C80_new h
  have z4 : ∀ q : V4, q + ![0, 0, 0, 0] = q := by intro q; apply vec4_ext <;> simp
  simp only [Suite.measurement, Sens.measurement, gpsPosTrue, gpsVelTrue, starTrue, gyroTrue, wheelTrue,
    magTrue, sunTrue, hm, hi, Sensor.generateNoise, Gyro.generateNoise, starNoise, ha, sandwich_eq_toBody]
  simp [z4]

/-- A sensor of the base class, which sees nothing: its reading is its noise, `size` fresh draws, and zeros without. -/
theorem C33_base {size : ℕ} (u : Sensor size) (noisy : Bool) (rng : Rng) :
    ∃ m rng', Sens.measurement u.trueValue (u.generateNoise noisy) rng = .ok (m, rng') ∧
      (∀ i : Fin size, m i = if noisy then u.mean + u.stdDev * rng i else 0) ∧
      ∀ k, rng' k = rng (if noisy then k + size else k) := by
  cases noisy <;>
    exact ⟨_, _, rfl, fun i => by simp [Sensor.generateNoise, normal], fun k => by simp [Sensor.generateNoise, normal]⟩

/-- The noisy measurement: every sensor adds its mean plus its standard deviation times fresh draws
(the star tracker to the vector part only), in the order of the sensor list. -/
theorem C33_noisy {n : ℕ} {a : Raw n} {c : JClock} {s : SatState n}
    (h : SatState.new a (some c) = .ok s) (hx : a.pos ≠ Orb.AU • Orb.earthToSun c.julianDate)
    (u : Suite n) (rng : Rng) :
    ∃ m rng', u.measurement s true rng = .ok (m, rng') ∧ (∀ k, rng' k = rng (k + (18 + n))) ∧
      (∀ i, m.pos i = a.pos i + (u.gpsPos.mean + u.gpsPos.stdDev * rng i)) ∧
      (∀ i, m.vel i = a.vel i + (u.gpsVel.mean + u.gpsVel.stdDev * rng (i + 3))) ∧
      m.att 0 = a.att 0 ∧
      (∀ i : Fin 3, m.att i.succ = a.att i.succ + (u.star.mean + u.star.stdDev * rng (i + 6))) ∧
      (∀ i, m.rate i = a.rate i + (u.gyro.bias i + u.gyro.lastBias i) / 2 +
        u.gyro.noiseCoefficient * rng (i + 9)) ∧
      (∀ i, m.whl i = a.whl i + (u.wheel.mean + u.wheel.stdDev * rng (i + 12))) ∧
      (∀ i, m.mag i = toBody a.att (dipole (turned c.thetaGmst earthDipole) a.pos) i +
        (u.mag.mean + u.mag.stdDev * rng (i + 12 + n))) ∧
      ∃ S, PointsToSun c a.pos S ∧ ∀ i, m.sun i = toBody a.att S i +
        (u.sun.mean + u.sun.stdDev * rng (i + 15 + n)) := by
  obtain ⟨i, hi, hS⟩ := sun_info h hx
  have hm := C50_rotating_dipole h
  obtain ⟨-, ha, -⟩ := C80_new h
  refine ⟨_, _, by
    simp only [Suite.measurement, Sens.measurement, gpsPosTrue, gpsVelTrue, starTrue, gyroTrue, wheelTrue,
      magTrue, sunTrue, hm, hi, Sensor.generateNoise, Gyro.generateNoise, starNoise, ha,
      sandwich_eq_toBody, normal, not_true_eq_false, if_false]
    rfl, ?_, ?_, ?_, ?_, ?_, ?_, ?_, ?_, i.S, hS, ?_⟩
  · intro k; ring_nf
  · intro i; simp
  · intro i; simp
  · simp
  · intro i; fin_cases i <;> simp [add_assoc]
  · intro i
    simp only [Pi.add_apply, Pi.smul_apply, smul_eq_mul, add_assoc, zero_add, one_mul]
    norm_num; ring
  · intro i; simp [add_assoc]
  · intro i
    simp only [Pi.add_apply, add_assoc]
    ring_nf
  · intro i
    simp only [Pi.add_apply, add_assoc]
    ring_nf

/-- The state of the examples can be measured. -/
example (u : Suite 4) (rng : Rng) : ∃ s : SatState 4, SatState.new (exRaw 4) (some exClock) = .ok s ∧
    (exRaw 4).pos ≠ Orb.AU • Orb.earthToSun exClock.julianDate ∧
    ∃ m, u.measurement s false rng = .ok (m, rng) ∧ m.pos 0 = 6800000 := by
  obtain ⟨s, hs, -⟩ := exState 4
  have hx : (exRaw 4).pos ≠ Orb.AU • Orb.earthToSun exClock.julianDate := by
    intro h
    have h1 := congrArg npNorm h
    rw [npNorm_smul, show npNorm (Orb.earthToSun exClock.julianDate) = 1 from earthToSun_unit _] at h1
    have h2 : npNorm (exRaw 4).pos = 6800000 := by
      simp [exRaw, npNorm, Fin.sum_univ_three]
    rw [h2] at h1
    unfold Orb.AU at h1
    norm_num at h1
  obtain ⟨S, -, hm⟩ := C33_noise_free hs hx u rng
  exact ⟨s, hs, hx, _, hm, by simp [exRaw]⟩

/-! ## C34: vector sensors -/

/-- For a unit attitude the noise-free magnetometer reading has the magnitude of the field, the sun
sensor reading is a unit vector, and `sandwich_opp` carries both back to the inertial vectors. -/
theorem C34_vector_sensors {n : ℕ} {a : Raw n} {c : JClock} {s : SatState n}
    (h : SatState.new a (some c) = .ok s) (hx : a.pos ≠ Orb.AU • Orb.earthToSun c.julianDate)
    (hq : npNorm a.att = 1) (u : Suite n) (rng : Rng) :
    ∃ m, u.measurement s false rng = .ok (m, rng) ∧
      npNorm m.mag = npNorm (dipole (turned c.thetaGmst earthDipole) a.pos) ∧ npNorm m.sun = 1 ∧
      Quat.sandwichOpp a.att m.mag = dipole (turned c.thetaGmst earthDipole) a.pos ∧
      PointsToSun c a.pos (Quat.sandwichOpp a.att m.sun) := by
  obtain ⟨S, hS, hm⟩ := C33_noise_free h hx u rng
  refine ⟨_, hm, ?_, ?_, ?_, ?_⟩
  · simp only [← sandwich_eq_toBody]; exact (C06_sandwich_preserves _ hq _ 0).2.1
  · simp only [← sandwich_eq_toBody]; rw [(C06_sandwich_preserves _ hq S 0).2.1]; exact hS.1
  · simp only [← sandwich_eq_toBody]; exact (C07_sandwich_opp _ hq _).1
  · simp only [← sandwich_eq_toBody]; rw [(C07_sandwich_opp _ hq _).1]; exact hS

example : npNorm (exRaw 4).att = 1 := npNorm_vec4 (by norm_num)

/-! ## C35: star tracker -/

/-- The full claim. -/
def StarTrackerUnit : Prop := ∀ (n : ℕ) (s : SatState n) (sensor : Sensor 4) (noisy : Bool) (rng rng' : Rng)
  (q : V4), npNorm s.arr.att = 1 →
  Sens.measurement (starTrue s) (starNoise sensor noisy) rng = .ok (q, rng') → npNorm q = 1

/-- Noise is added to the vector part and the sum is not normalised: not a unit quaternion. -/
theorem C35_star_tracker_fails : ¬ StarTrackerUnit := by
  intro h
  obtain ⟨s, hs, -⟩ := exState 4
  obtain ⟨-, ha, -⟩ := C80_new hs
  have h2 := h 4 s ⟨0, 1⟩ true (fun _ => 1) _ _ (by rw [ha]; exact npNorm_vec4 (by norm_num)) rfl
  have h3 : npNorm (s.arr.att + ![0, 1, 1, 1]) = 1 := by
    simpa [starNoise, normal] using h2
  have h4 := congrArg (· ^ 2) h3
  simp only [npNorm4_sq, ha, exRaw] at h4
  norm_num at h4

/-- What holds: without noise the reading is the unit attitude; with noise the scalar part is exact, the
vector part is off by the noise `w`, and the reading is a unit quaternion only in the exceptional case
`2 v·w + w·w = 0`. Missing: a normalisation. -/
theorem C35_star_tracker_partial {n : ℕ} (s : SatState n) (sensor : Sensor 4) (rng : Rng)
    (hq : npNorm s.arr.att = 1) :
    (∃ q, Sens.measurement (starTrue s) (starNoise sensor false) rng = .ok (q, rng) ∧
      q = s.arr.att ∧ npNorm q = 1) ∧
    ∃ q rng', Sens.measurement (starTrue s) (starNoise sensor true) rng = .ok (q, rng') ∧
      ∃ w : V3, (∀ i, w i = sensor.mean + sensor.stdDev * rng i) ∧ q 0 = s.arr.att 0 ∧
      (∀ i : Fin 3, q i.succ = s.arr.att i.succ + w i) ∧
      (npNorm q = 1 ↔ 2 * (vecPart s.arr.att ⬝ᵥ w) + w ⬝ᵥ w = 0) := by
  constructor
  · refine ⟨s.arr.att, ?_, rfl, hq⟩
    have z4 : ∀ q : V4, q + ![0, 0, 0, 0] = q := by intro q; apply vec4_ext <;> simp
    simp [Sens.measurement, starTrue, starNoise, z4]
  · refine ⟨s.arr.att + ![0, sensor.mean + sensor.stdDev * rng 0, sensor.mean + sensor.stdDev * rng 1,
      sensor.mean + sensor.stdDev * rng 2], fun k => rng (k + 3), ?_,
      fun i => sensor.mean + sensor.stdDev * rng i, fun _ => rfl, by simp, ?_, ?_⟩
    · simp [Sens.measurement, starTrue, starNoise, normal]
    · intro i; fin_cases i <;> simp
    · have h1 := npNorm_eq_one.1 hq
      rw [npNorm_eq_one]
      rw [Fin.sum_univ_four] at h1 ⊢
      simp only [Pi.add_apply, Matrix.cons_val_zero, Matrix.cons_val_one, cons4_2, cons4_3,
        Matrix.vec3_dotProduct, vecPart, cons3_2, Fin.val_zero, Fin.val_one, Fin.val_two]
      constructor <;> intro h <;> linarith

/-! ## C36: gyro -/

/-- A run of `propagate` calls. -/
noncomputable def propagates (g : Gyro) : List ℝ → Rng → Py (Gyro × Rng)
  | [], rng => .ok (g, rng)
  | dt :: l, rng =>
    match g.propagate dt rng with
    | .error e => .error e
    | .ok (g', rng') => propagates g' l rng'

/-- Specification: bias after steps `l` with draws `z`, started at `b`. -/
noncomputable def walk (mean std : ℝ) (b : V3) (l : List ℝ) (z : Rng) : V3 := fun i =>
  b i + (l.mapIdx fun k dt => Real.sqrt dt * (mean + std * z (3 * k + i))).sum

theorem walk_append (mean std : ℝ) (b : V3) (l : List ℝ) (dt : ℝ) (z : Rng) (i : Fin 3) :
    walk mean std b (l ++ [dt]) z i = walk mean std b l z i +
      Real.sqrt dt * (mean + std * z (3 * l.length + i)) := by
  simp [walk, List.mapIdx_append, add_assoc]

theorem propagate_ok (g : Gyro) {dt : ℝ} (hdt : 0 < dt) (h1 : 0 ≤ g.arwVar) (h2 : 0 ≤ g.rrwVar)
    (rng : Rng) : g.propagate dt rng = .ok
      ({ g with lastBias := g.bias
                noiseCoefficient := Real.sqrt (g.arwVar / dt + g.rrwVar * dt)
                bias := fun i => g.bias i + Real.sqrt dt * (g.rrwMean + g.rrwStdDev * rng i) },
       fun k => rng (k + 3)) := by
  have h3 : ¬ g.arwVar / dt + g.rrwVar * dt < 0 := by
    have : 0 ≤ g.arwVar / dt + g.rrwVar * dt := by positivity
    linarith
  simp only [Gyro.propagate, npSqrt, if_neg (not_lt.2 hdt.le), if_neg hdt.ne', if_neg h3, normal]
  rfl

theorem propagates_append (g : Gyro) (l : List ℝ) (dt : ℝ) (rng : Rng) :
    propagates g (l ++ [dt]) rng =
      match propagates g l rng with
      | .error e => .error e
      | .ok (g', rng') => g'.propagate dt rng' := by
  induction l generalizing g rng with
  | nil =>
    simp only [List.nil_append, propagates]
    cases g.propagate dt rng with
    | error e => rfl
    | ok r => rfl
  | cons d l ih =>
    simp only [List.cons_append, propagates]
    cases g.propagate d rng with
    | error e => rfl
    | ok r => exact ih _ _

/-- From construction on, after any sequence of positive steps: the bias is the initial bias plus the sum
of `sqrt(dt) * increment`, three fresh draws per step; the previous bias is the walk without the last
step; and the white noise has variance `arw²/dt + rrw² dt/12`. -/
theorem C36_random_walk (arwMean arwStd rrwMean rrwStd initBias : ℝ) (z : Rng) (l : List ℝ)
    (hl : ∀ dt ∈ l, 0 < dt) :
    ∃ g₀ rng₀, Gyro.init arwMean arwStd rrwMean rrwStd initBias z = (g₀, rng₀) ∧
      (∀ i, g₀.bias i = initBias * z i) ∧
    ∃ g rng, propagates g₀ l rng₀ = .ok (g, rng) ∧
      (∀ k, rng k = z (k + 3 * (l.length + 1))) ∧
      g.bias = walk rrwMean rrwStd g₀.bias l (fun k => z (k + 3)) ∧
      (l = [] → g.lastBias = 0 ∧ g.noiseCoefficient = 0) ∧
      ∀ l' dt, l = l' ++ [dt] →
        g.lastBias = walk rrwMean rrwStd g₀.bias l' (fun k => z (k + 3)) ∧
        0 ≤ g.noiseCoefficient ∧
        g.noiseCoefficient ^ 2 = arwStd ^ 2 / dt + rrwStd ^ 2 / 12 * dt := by
  obtain ⟨g₀, rng₀, h0⟩ : ∃ g₀ rng₀, Gyro.init arwMean arwStd rrwMean rrwStd initBias z = (g₀, rng₀) :=
    ⟨_, _, rfl⟩
  have hb : ∀ i, g₀.bias i = initBias * z i := by
    intro i
    have : (Gyro.init arwMean arwStd rrwMean rrwStd initBias z).1 = g₀ := by rw [h0]
    rw [← this]; simp [Gyro.init, normal]
  refine ⟨g₀, rng₀, h0, hb, ?_⟩
  have hg : g₀ = (Gyro.init arwMean arwStd rrwMean rrwStd initBias z).1 := by rw [h0]
  have hr : rng₀ = (Gyro.init arwMean arwStd rrwMean rrwStd initBias z).2 := by rw [h0]
  -- strengthen with the fixed parameters
  suffices H : ∃ g rng, propagates g₀ l rng₀ = .ok (g, rng) ∧
      g.arwVar = arwStd ^ 2 ∧ g.rrwVar = rrwStd ^ 2 / 12 ∧ g.rrwMean = rrwMean ∧ g.rrwStdDev = rrwStd ∧
      (∀ k, rng k = z (k + 3 * (l.length + 1))) ∧
      g.bias = walk rrwMean rrwStd g₀.bias l (fun k => z (k + 3)) ∧
      (l = [] → g.lastBias = 0 ∧ g.noiseCoefficient = 0) ∧
      ∀ l' dt, l = l' ++ [dt] →
        g.lastBias = walk rrwMean rrwStd g₀.bias l' (fun k => z (k + 3)) ∧
        0 ≤ g.noiseCoefficient ∧
        g.noiseCoefficient ^ 2 = arwStd ^ 2 / dt + rrwStd ^ 2 / 12 * dt by
    obtain ⟨g, rng, a, -, -, -, -, b⟩ := H
    exact ⟨g, rng, a, b⟩
  induction l using List.reverseRecOn with
  | nil =>
    refine ⟨g₀, rng₀, rfl, ?_, ?_, ?_, ?_, ?_, ?_, ?_, ?_⟩
    · rw [hg]; rfl
    · rw [hg]; rfl
    · rw [hg]; rfl
    · rw [hg]; rfl
    · intro k; rw [hr]; rfl
    · funext i; simp [walk]
    · intro _; rw [hg]; exact ⟨rfl, rfl⟩
    · intro l' dt h; simp at h
  | append_singleton l dt ih =>
    obtain ⟨g, rng, h1, v1, v2, v3, v4, h2, h3, -, -⟩ := ih fun d hd => hl d (by simp [hd])
    have hdt : 0 < dt := hl dt (by simp)
    have hp := propagate_ok g hdt (by rw [v1]; positivity) (by rw [v2]; positivity) rng
    rw [propagates_append, h1]
    refine ⟨_, _, hp, v1, v2, v3, v4, ?_, ?_, ?_, ?_⟩
    · intro k
      rw [h2]
      congr 1
      simp only [List.length_append, List.length_cons, List.length_nil]; ring
    · funext i
      rw [walk_append, ← h3]
      simp only [v3, v4, h2]
      congr 4
      ring_nf
    · intro h; simp at h
    · intro l' dt' h
      obtain ⟨rfl, hd⟩ := List.append_inj' h rfl
      obtain rfl : dt = dt' := by simpa using hd
      refine ⟨h3, Real.sqrt_nonneg _, ?_⟩
      simp only
      rw [Real.sq_sqrt (by rw [v1, v2]; positivity), v1, v2]

/-- A noisy reading is the true rate plus the mean of the two biases plus the white noise. -/
theorem C36_reading {n : ℕ} (s : SatState n) (g : Gyro) (rng : Rng) :
    ∃ w, Sens.measurement (gyroTrue s) (g.generateNoise true) rng = .ok (w, fun k => rng (k + 3)) ∧
      ∀ i, w i = s.arr.rate i + (g.bias i + g.lastBias i) / 2 + g.noiseCoefficient * rng i := by
  refine ⟨_, (by
    simp only [Sens.measurement, gyroTrue, Gyro.generateNoise, normal, not_true_eq_false, if_false]
    rfl), ?_⟩
  intro i
  simp only [Pi.add_apply, Pi.smul_apply, smul_eq_mul]
  norm_num; ring

/-- A step that is not positive raises (a negative one gives nan). -/
theorem C36_bad_step (g : Gyro) {dt : ℝ} (hdt : dt ≤ 0) (rng : Rng) :
    ∃ e, g.propagate dt rng = .error e := by
  rcases hdt.lt_or_eq with h | rfl
  · exact ⟨.nonFinite, by simp [Gyro.propagate, npSqrt, h]⟩
  · exact ⟨.zeroDivision, by simp [Gyro.propagate, npSqrt]⟩

example : ∀ dt ∈ [(0.05 : ℝ), 0.05, 1], 0 < dt := by
  intro dt h; simp only [List.mem_cons, List.not_mem_nil, or_false] at h
  rcases h with rfl | rfl | rfl <;> norm_num

end Adcs
