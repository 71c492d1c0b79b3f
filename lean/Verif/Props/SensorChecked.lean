import Verif.Model.SensorChecked
import Verif.Props.Sensors

set_option autoImplicit false

/-! # C225: are wrong noise parameters refused when a sensor is made? -/

namespace Adcs

open JDay Fr Dyn Env Sens

/-- The full claim: a suite whose gyro the constructor accepted (the other constructors accept everything) and that
can be read without noise can be read with noise. -/
def C225_claim : Prop := ∀ (n : ℕ) (arwMean arwStd rrwMean rrwStd initBias : ℝ) (z z' : Rng) (u : Suite n)
  (s : SatState n) (rng : Rng), Gyro.initPy arwMean arwStd rrwMean rrwStd initBias z = .ok (u.gyro, z') →
  (∃ m rng', u.measurementPy s false rng = .ok (m, rng')) → ∃ m rng', u.measurementPy s true rng = .ok (m, rng')

/-- Without noise the parameters do not matter: the reading is the one of the unchecked model. -/
theorem C225_noise_free_partial {n : ℕ} (u : Suite n) (s : SatState n) (rng : Rng) :
    u.measurementPy s false rng = u.measurement s false rng := by
  cases hm : magTrue s <;> cases hs : sunTrue s <;>
    simp [Suite.measurementPy, Suite.measurement, Sens.measurementPy, Sens.measurement, gpsPosTrue, gpsVelTrue,
      starTrue, gyroTrue, wheelTrue, hm, hs, Sensor.generateNoisePy, Sensor.generateNoise, starNoisePy, starNoise]

/-- With noise, where the true values exist: `ValueError` if any of the six standard deviations is negative,
otherwise the reading of C33. -/
theorem C225_noisy_partial {n : ℕ} {a : Raw n} {c : JClock} {s : SatState n}
    (h : SatState.new a (some c) = .ok s) (hx : a.pos ≠ Orb.AU • Orb.earthToSun c.julianDate)
    (u : Suite n) (rng : Rng) :
    ((u.gpsPos.stdDev < 0 ∨ u.gpsVel.stdDev < 0 ∨ u.star.stdDev < 0 ∨ u.wheel.stdDev < 0 ∨ u.mag.stdDev < 0 ∨
      u.sun.stdDev < 0) → u.measurementPy s true rng = .error .valueError) ∧
    (0 ≤ u.gpsPos.stdDev → 0 ≤ u.gpsVel.stdDev → 0 ≤ u.star.stdDev → 0 ≤ u.wheel.stdDev → 0 ≤ u.mag.stdDev →
      0 ≤ u.sun.stdDev → ∃ m rng', u.measurementPy s true rng = .ok (m, rng') ∧
        u.measurement s true rng = .ok (m, rng')) := by
  obtain ⟨i, hi, -⟩ := sun_info h hx
  have hm := C50_rotating_dipole h
  have key : u.measurementPy s true rng =
      if u.gpsPos.stdDev < 0 ∨ u.gpsVel.stdDev < 0 ∨ u.star.stdDev < 0 ∨ u.wheel.stdDev < 0 ∨ u.mag.stdDev < 0 ∨
        u.sun.stdDev < 0 then .error .valueError else u.measurement s true rng := by
    by_cases h1 : u.gpsPos.stdDev < 0 <;> by_cases h2 : u.gpsVel.stdDev < 0 <;>
    by_cases h3 : u.star.stdDev < 0 <;> by_cases h4 : u.wheel.stdDev < 0 <;>
    by_cases h5 : u.mag.stdDev < 0 <;> by_cases h6 : u.sun.stdDev < 0 <;>
    simp only [Suite.measurementPy, Suite.measurement, Sens.measurementPy, Sens.measurement, gpsPosTrue, gpsVelTrue,
      starTrue, gyroTrue, wheelTrue, magTrue, sunTrue, hm, hi, Sensor.generateNoisePy, Sensor.generateNoise,
      starNoisePy, starNoise, normalPy, not_true_eq_false, if_false, if_true, h1, h2, h3, h4, h5, h6, or_true, true_or,
      or_false, false_or]
  refine ⟨fun hn => by rw [key, if_pos hn], fun h1 h2 h3 h4 h5 h6 => ?_⟩
  obtain ⟨m, rng', hm', -⟩ := C33_noisy h hx u rng
  exact ⟨m, rng', by rw [key, if_neg (by simp [h1, h2, h3, h4, h5, h6]), hm'], hm'⟩

/-- Several `propagate` calls of the checked gyro. -/
noncomputable def propagatesPy (g : Gyro) : List ℝ → Rng → Py (Gyro × Rng)
  | [], rng => .ok (g, rng)
  | dt :: l, rng =>
    match g.propagatePy dt rng with
    | .error e => .error e
    | .ok (g', rng') => propagatesPy g' l rng'

/-- The gyro: the constructor refuses a negative `init_bias` and nothing else; a negative `rrw_std_dev` raises at the
first `propagate`, whatever the step. -/
theorem C225_gyro_partial (arwMean arwStd rrwMean rrwStd initBias : ℝ) (z : Rng) :
    (initBias < 0 → Gyro.initPy arwMean arwStd rrwMean rrwStd initBias z = .error .valueError) ∧
    (0 ≤ initBias → ∃ g z', Gyro.initPy arwMean arwStd rrwMean rrwStd initBias z = .ok (g, z') ∧
      (rrwStd < 0 → ∀ dt l rng, propagatesPy g (dt :: l) rng = .error .valueError) ∧
      (0 ≤ rrwStd → ∀ l rng, propagatesPy g l rng = propagates g l rng)) := by
  refine ⟨fun hb => by simp [Gyro.initPy, normalPy, hb], fun hb => ?_⟩
  refine ⟨_, _, by simp only [Gyro.initPy, normalPy, not_lt.mpr hb, if_false]; rfl, fun hr dt l rng => ?_,
    fun hr l => ?_⟩
  · simp [propagatesPy, Gyro.propagatePy, normalPy, Gyro.init, hr]
  · suffices H : ∀ (l : List ℝ) (g : Gyro), 0 ≤ g.rrwStdDev → ∀ rng, propagatesPy g l rng = propagates g l rng from
      H l _ hr
    intro l
    induction l with
    | nil => intro g _ rng; rfl
    | cons dt l ih =>
      intro g hg rng
      have he : g.propagatePy dt rng = g.propagate dt rng := by
        simp [Gyro.propagatePy, normalPy, not_lt.mpr hg]
      simp only [propagatesPy, propagates, he]
      cases hp : g.propagate dt rng with
      | error e => rfl
      | ok r =>
        refine ih r.1 ?_ r.2
        have : r.1.rrwStdDev = g.rrwStdDev := by
          unfold Gyro.propagate at hp
          simp only at hp
          split at hp
          · simp at hp
          · split at hp
            · simp at hp
            · split at hp
              · simp at hp
              · simp only [Except.ok.injEq] at hp; subst hp; rfl
        rw [this]; exact hg

/-- A negative `arw_std_dev` is never noticed: after any steps both gyros raise the same or read the same. -/
theorem C225_arw_partial (arwMean arwStd rrwMean rrwStd initBias : ℝ) (z : Rng) {g g' : Gyro} {z₁ z₁' : Rng}
    (h : Gyro.initPy arwMean arwStd rrwMean rrwStd initBias z = .ok (g, z₁))
    (h' : Gyro.initPy arwMean (-arwStd) rrwMean rrwStd initBias z = .ok (g', z₁')) (l : List ℝ) (noisy : Bool) :
    z₁ = z₁' ∧
    ((∃ e, propagatesPy g l z₁ = .error e ∧ propagatesPy g' l z₁' = .error e) ∨
      ∃ k k' rng, propagatesPy g l z₁ = .ok (k, rng) ∧ propagatesPy g' l z₁' = .ok (k', rng) ∧
        k.generateNoise noisy rng = k'.generateNoise noisy rng) := by
  have hb : ¬ initBias < 0 := fun hb => by simp [Gyro.initPy, normalPy, hb] at h
  simp only [Gyro.initPy, normalPy, hb, if_false, Gyro.init, Except.ok.injEq, Prod.mk.injEq] at h h'
  obtain ⟨rfl, rfl⟩ := h
  obtain ⟨rfl, rfl⟩ := h'
  refine ⟨rfl, ?_⟩
  suffices H : ∀ (l : List ℝ) (g : Gyro) (b : Sensor 3) (rng : Rng),
      ((∃ e, propagatesPy g l rng = .error e ∧ propagatesPy { g with base := b } l rng = .error e) ∨
      ∃ k k' rng', propagatesPy g l rng = .ok (k, rng') ∧ propagatesPy { g with base := b } l rng = .ok (k', rng') ∧
        k.generateNoise noisy rng' = k'.generateNoise noisy rng') by
    have := H l (Gyro.init arwMean arwStd rrwMean rrwStd initBias z).1 ⟨arwMean, -arwStd⟩
      (normal 0 initBias 3 z).2
    simpa [Gyro.init] using this
  intro l
  induction l with
  | nil => intro g b rng; exact Or.inr ⟨_, _, _, rfl, rfl, rfl⟩
  | cons dt l ih =>
    intro g b rng
    have hs : ({ g with base := b } : Gyro).propagatePy dt rng =
        match g.propagatePy dt rng with
        | .error e => .error e
        | .ok (k, r) => .ok ({ k with base := b }, r) := by
      simp only [Gyro.propagatePy, normalPy, Gyro.propagate]
      by_cases hr : g.rrwStdDev < 0
      · simp [hr]
      · simp only [hr, if_false]
        cases npSqrt dt with
        | error e => rfl
        | ok sq =>
          by_cases hd : dt = 0
          · simp [hd]
          · simp only [hd, if_false]
            cases npSqrt (g.arwVar / dt + g.rrwVar * dt) <;> rfl
    simp only [propagatesPy, hs]
    cases g.propagatePy dt rng with
    | error e => exact Or.inl ⟨e, rfl, rfl⟩
    | ok r => exact ih r.1 b r.2

/-- A state of the examples that can be read. -/
theorem exRaw_off_sun : (exRaw 4).pos ≠ Orb.AU • Orb.earthToSun exClock.julianDate := by
  intro h
  have h1 := congrArg npNorm h
  rw [npNorm_smul, show npNorm (Orb.earthToSun exClock.julianDate) = 1 from earthToSun_unit _] at h1
  have h2 : npNorm (exRaw 4).pos = 6800000 := by
    simp [exRaw, npNorm, Fin.sum_univ_three]
  rw [h2] at h1
  unfold Orb.AU at h1
  norm_num at h1

/-- Refuted: a magnetometer with standard deviation -1 is made, and reads without noise, and raises with noise. -/
theorem C225_sensor_made_fails : ¬ C225_claim := by
  intro hc
  obtain ⟨s, hs, -⟩ := exState 4
  let g := (Gyro.init 0 1 0 1 1 (fun _ => 1)).1
  let u : Suite 4 := ⟨⟨0, 1⟩, ⟨0, 1⟩, ⟨0, 1⟩, g, ⟨0, 1⟩, ⟨0, -1⟩, ⟨0, 1⟩⟩
  have hg : Gyro.initPy 0 1 0 1 1 (fun _ => 1) = .ok (u.gyro, (Gyro.init 0 1 0 1 1 (fun _ => 1)).2) := by
    have : ¬ (1 : ℝ) < 0 := by norm_num
    simp only [Gyro.initPy, normalPy, this, if_false]
    rfl
  obtain ⟨S, -, hm⟩ := C33_noise_free hs exRaw_off_sun u (fun _ => 0)
  obtain ⟨m, rng', h⟩ := hc 4 0 1 0 1 1 _ _ u s (fun _ => 0) hg ⟨_, _, (C225_noise_free_partial u s _).trans hm⟩
  have := (C225_noisy_partial hs exRaw_off_sun u (fun _ => 0)).1 (by simp [u])
  rw [this] at h
  simp at h

/-- The hypotheses are met: a suite with the usual parameters is read with noise. -/
example (g : Gyro) (rng : Rng) : ∃ s : SatState 4, SatState.new (exRaw 4) (some exClock) = .ok s ∧
    ∃ m rng', (⟨⟨0, 5⟩, ⟨0, 0.02⟩, ⟨0, 0.0001⟩, g, ⟨0, 1⟩, ⟨0, 4e-8⟩, ⟨0, 0⟩⟩ : Suite 4).measurementPy s true rng =
      .ok (m, rng') := by
  obtain ⟨s, hs, -⟩ := exState 4
  obtain ⟨m, rng', h, -⟩ := (C225_noisy_partial hs exRaw_off_sun
    (⟨⟨0, 5⟩, ⟨0, 0.02⟩, ⟨0, 0.0001⟩, g, ⟨0, 1⟩, ⟨0, 4e-8⟩, ⟨0, 0⟩⟩ : Suite 4) rng).2
    (by norm_num) (by norm_num) (by norm_num) (by norm_num) (by norm_num) (by norm_num)
  exact ⟨s, hs, m, rng', h⟩

example : ∃ g z', Gyro.initPy 0 (-1) 0 1 1 (fun _ => 1) = .ok (g, z') := by
  obtain ⟨g, z', h, -⟩ := (C225_gyro_partial 0 (-1) 0 1 1 (fun _ => 1)).2 (by norm_num)
  exact ⟨g, z', h⟩

end Adcs
