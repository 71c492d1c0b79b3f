import Verif.Props.Frame
import Verif.Proofs.Quat
import Mathlib.Analysis.SpecialFunctions.Complex.Arg

set_option autoImplicit false

/-! # C17, C18: geodetic coordinates from ECEF -/

namespace Adcs

open Vec Fr
open scoped Matrix

theorem wgsE2_pos : 0 < wgsE2 := by unfold wgsE2 wgsF; norm_num
theorem wgsE2_lt : wgsE2 < 0.0067 := by unfold wgsE2 wgsF; norm_num
theorem wgsE2_gt : 0.006694 < wgsE2 := by unfold wgsE2 wgsF; norm_num

/-- Latitude and height depend on the distance from the axis and on `z` only. -/
noncomputable def llaCore (w z : ℝ) : Py (ℝ × ℝ) :=
  match llaStart w z with
  | .error e => .error e
  | .ok (s, c, ss, lat) =>
    let g := 1 - wgsE2 * ss
    let rg := wgsA / Real.sqrt g
    let rf := wgsA6 * rg
    let u := w - rg * c
    let v := |z| - rf * s
    let f := c * u + s * v
    let m := c * v - s * u
    if rf / g + f = 0 then .error .nonFinite
    else
      let p := m / (rf / g + f)
      .ok (lat + p, f + m * p / 2)

theorem ecefToLla_core (x : V3) : ecefToLla x =
    match llaCore (Real.sqrt (x 0 * x 0 + x 1 * x 1)) (x 2) with
    | .error e => .error e
    | .ok (lat, h) => .ok (npDegrees (if x 2 < 0 then -lat else lat),
        npDegrees (npArctan2 (x 1) (x 0)), h) := by
  simp only [ecefToLla, llaCore]
  cases llaStart (Real.sqrt (x 0 * x 0 + x 1 * x 1)) (x 2) with
  | error e => rfl
  | ok r =>
    obtain ⟨s, c, ss, lat⟩ := r
    dsimp only
    by_cases h : wgsA6 * (wgsA / Real.sqrt (1 - wgsE2 * ss)) / (1 - wgsE2 * ss) +
      (c * (Real.sqrt (x 0 * x 0 + x 1 * x 1) - wgsA / Real.sqrt (1 - wgsE2 * ss) * c) +
        s * (|x 2| - wgsA6 * (wgsA / Real.sqrt (1 - wgsE2 * ss)) * s)) = 0
    · rw [if_pos h, if_pos h]
    · rw [if_neg h, if_neg h]

theorem ecefToLla_core' (x y z : ℝ) : ecefToLla ![x, y, z] =
    match llaCore (Real.sqrt (x * x + y * y)) z with
    | .error e => .error e
    | .ok (lat, h) => .ok (npDegrees (if z < 0 then -lat else lat),
        npDegrees (npArctan2 y x), h) := ecefToLla_core ![x, y, z]

theorem llaCore_neg (w z : ℝ) : llaCore w (-z) = llaCore w z := by
  simp only [llaCore, llaStart, abs_neg, neg_mul_neg]

theorem llaStart_equator (w : ℝ) (hw : 0 < w) : llaStart w 0 = .ok (0, 1, 0, 0) := by
  have hr : Real.sqrt (w * w) = w := Real.sqrt_mul_self hw.le
  have h1 : w * w / (w * w) = 1 := div_self (mul_pos hw hw).ne'
  simp only [llaStart, abs_zero, mul_zero, zero_add, hr, h1, zero_div, zero_mul, if_neg hw.ne']
  rw [if_pos (by norm_num), if_neg (by norm_num)]
  simp

theorem llaCore_equator (w : ℝ) (hw : 0 < w) (hne : w ≠ wgsA * wgsE2) :
    llaCore w 0 = .ok (0, w - wgsA) := by
  simp only [llaCore, llaStart_equator w hw]
  simp
  unfold wgsA6; intro h; apply hne; linarith

theorem llaCore_pole (z : ℝ) (hz : z ≠ 0) :
    llaCore 0 z = .ok (Real.pi / 2, |z| - wgsA * Real.sqrt (1 - wgsE2)) := by
  have hz2 : 0 < z * z := mul_self_pos.2 hz
  have hr : Real.sqrt (z * z) = |z| := Real.sqrt_mul_self_eq_abs z
  have ha : 0 < |z| := abs_pos.2 hz
  have e1 := wgsE2_pos
  have e2 := wgsE2_lt
  have hg : 0 < 1 - wgsE2 := by norm_num at e2; linarith
  have hk := Real.sqrt_pos.2 hg
  have hkk := Real.sq_sqrt hg.le
  have hst : llaStart 0 z = .ok (1, 0, 1, Real.pi / 2) := by
    simp only [llaStart, mul_zero, add_zero, hr, zero_div, zero_mul, if_neg ha.ne']
    rw [if_neg (by norm_num), if_neg (by norm_num)]
    simp
  simp only [llaCore, hst]
  simp
  set k := Real.sqrt (1 - wgsE2) with hkdef
  have e3 : wgsA6 * (wgsA / k) = wgsA * k := by
    unfold wgsA6; rw [← hkk]; field_simp
  rw [e3]
  have hA : 0 < wgsA := by norm_num [wgsA]
  have hk1 : k ≤ 1 := by rw [hkdef, Real.sqrt_le_one]; linarith
  have hpos : 0 < wgsA * k / (1 - wgsE2) + (|z| - wgsA * k) := by
    have : wgsA * k ≤ wgsA * k / (1 - wgsE2) := by
      rw [le_div_iff₀ hg]; nlinarith [mul_pos hA hk]
    linarith
  rw [if_neg hpos.ne']

/-- C17: mirroring in the equatorial plane negates latitude and keeps longitude and height; an
exception stays the same exception. -/
theorem C17_mirror (x : V3) :
    (∀ lat lon h, ecefToLla x = .ok (lat, lon, h) →
      ecefToLla ![x 0, x 1, -x 2] = .ok (-lat, lon, h)) ∧
    (∀ e, ecefToLla x = .error e → ecefToLla ![x 0, x 1, -x 2] = .error e) := by
  rw [ecefToLla_core, ecefToLla_core', llaCore_neg]
  set w := Real.sqrt (x 0 * x 0 + x 1 * x 1) with hw
  constructor
  · intro lat lon h
    cases hc : llaCore w (x 2) with
    | error e => intro h; cases h
    | ok r =>
      obtain ⟨la, hh⟩ := r
      simp only [Except.ok.injEq, Prod.mk.injEq]
      rintro ⟨h1, h2, h3⟩
      refine ⟨?_, h2, h3⟩
      rcases lt_trichotomy (x 2) 0 with hz | hz | hz
      · rw [if_pos hz] at h1
        rw [if_neg (by linarith), ← h1]; unfold npDegrees; ring
      · rw [hz] at h1 hc ⊢
        -- on the equator the latitude is zero
        have hw0 : 0 < w := by
          rcases (Real.sqrt_nonneg (x 0 * x 0 + x 1 * x 1)).eq_or_lt with h0 | h0
          · rw [← hw] at h0; rw [← h0] at hc; simp [llaCore, llaStart] at hc
          · exact h0
        by_cases hne : w = wgsA * wgsE2
        · exfalso
          simp only [llaCore, llaStart_equator w hw0] at hc
          rw [if_pos (by unfold wgsA6; rw [hne]; simp; ring)] at hc
          cases hc
        · rw [llaCore_equator w hw0 hne] at hc
          simp only [Except.ok.injEq, Prod.mk.injEq] at hc
          rw [← hc.1] at h1 ⊢
          simp [npDegrees] at h1 ⊢; linarith
      · rw [if_neg (by linarith)] at h1
        rw [if_pos (by linarith), ← h1]; unfold npDegrees; ring
  · intro e
    cases hc : llaCore w (x 2) with
    | error e' => simp
    | ok r => intro h; cases h

/-- C17: rotating the position about the polar axis by `φ` keeps latitude and height. -/
theorem C17_rotation (x : V3) (φ : ℝ) :
    (∀ lat lon h, ecefToLla x = .ok (lat, lon, h) →
      ∃ lon', ecefToLla ![Real.cos φ * x 0 - Real.sin φ * x 1,
        Real.sin φ * x 0 + Real.cos φ * x 1, x 2] = .ok (lat, lon', h) ∧
        (x 0 ≠ 0 ∨ x 1 ≠ 0 →
          ((npRadians lon' : ℝ) : Real.Angle) = ((npRadians lon : ℝ) : Real.Angle) + (φ : ℝ))) := by
  intro lat lon h hx
  rw [ecefToLla_core] at hx
  rw [ecefToLla_core']
  have hp := Real.sin_sq_add_cos_sq φ
  have e : (Real.cos φ * x 0 - Real.sin φ * x 1) * (Real.cos φ * x 0 - Real.sin φ * x 1) +
      (Real.sin φ * x 0 + Real.cos φ * x 1) * (Real.sin φ * x 0 + Real.cos φ * x 1) =
      x 0 * x 0 + x 1 * x 1 := by
    linear_combination (x 0 ^ 2 + x 1 ^ 2) * hp
  rw [e]
  cases hc : llaCore (Real.sqrt (x 0 * x 0 + x 1 * x 1)) (x 2) with
  | error e => rw [hc] at hx; cases hx
  | ok r =>
    obtain ⟨la, hh⟩ := r
    rw [hc] at hx
    simp only [Except.ok.injEq, Prod.mk.injEq] at hx
    obtain ⟨h1, h2, h3⟩ := hx
    refine ⟨_, by simp only [← h1, ← h3]; rfl, fun hne => ?_⟩
    have hrd : ∀ a, npRadians (npDegrees a) = a := fun a => by
      unfold npRadians npDegrees; field_simp
    rw [← h2, hrd, hrd]
    have hz : (⟨x 0, x 1⟩ : ℂ) ≠ 0 := by
      intro h0
      have a := congrArg Complex.re h0
      have b := congrArg Complex.im h0
      simp at a b
      rcases hne with h | h <;> contradiction
    have hexp : Complex.exp (φ * Complex.I) ≠ 0 := Complex.exp_ne_zero _
    have hm : (⟨Real.cos φ * x 0 - Real.sin φ * x 1, Real.sin φ * x 0 + Real.cos φ * x 1⟩ : ℂ) =
        ⟨x 0, x 1⟩ * Complex.exp (φ * Complex.I) := by
      apply Complex.ext
      · simp [Complex.exp_re, Complex.exp_im]; ring
      · simp [Complex.exp_re, Complex.exp_im]; ring
    unfold npArctan2
    rw [hm, Complex.arg_mul_coe_angle hz hexp]
    congr 1
    have := Complex.arg_mul_cos_add_sin_mul_I_coe_angle (r := 1) one_pos (φ : Real.Angle)
    simpa [Complex.exp_mul_I] using this

/-- C17: exact on the equator (except on one circle deep inside the Earth where the correction
divides by zero): latitude 0, height the distance to the equatorial circle. -/
theorem C17_equator (x y : ℝ) (h0 : x ≠ 0 ∨ y ≠ 0)
    (h1 : Real.sqrt (x * x + y * y) ≠ wgsA * wgsE2) :
    ecefToLla ![x, y, 0] =
      .ok (0, npDegrees (npArctan2 y x), Real.sqrt (x * x + y * y) - 6378137) := by
  have hpos : 0 < x * x + y * y := by
    rcases h0 with h | h
    · nlinarith [mul_self_pos.2 h, mul_self_nonneg y]
    · nlinarith [mul_self_pos.2 h, mul_self_nonneg x]
  rw [ecefToLla_core', llaCore_equator _ (Real.sqrt_pos.2 hpos) h1]
  simp [npDegrees, wgsA]

/-- C17: exact on the polar axis: latitude ±90 degrees, height the distance to the pole of the
WGS-84 ellipsoid. -/
theorem C17_pole (z : ℝ) (h0 : z ≠ 0) :
    ∃ lon, ecefToLla ![0, 0, z] =
      .ok (if z < 0 then -90 else 90, lon, |z| - 6378137 * Real.sqrt (1 - wgsE2)) := by
  rw [ecefToLla_core', mul_zero, add_zero, Real.sqrt_zero, llaCore_pole z h0]
  refine ⟨npDegrees (npArctan2 0 0), ?_⟩
  simp only [Except.ok.injEq, Prod.mk.injEq]
  refine ⟨?_, trivial, rfl⟩
  have hpi := Real.pi_pos.ne'
  split_ifs <;> (unfold npDegrees; field_simp; try norm_num)

/-- C17: the centre of the Earth raises. -/
theorem C17_centre : ecefToLla ![0, 0, 0] = .error .zeroDivision := by
  simp [ecefToLla, llaStart]

/-- The full round-trip property. -/
def GeodeticRoundTrip : Prop :=
  ∀ lat long h : ℝ, -(Real.pi / 2) ≤ lat → lat ≤ Real.pi / 2 → -Real.pi < long → long ≤ Real.pi →
    0 ≤ h → ecefToLla (geodeticToEcef lat long h) = .ok (lat, long, h)

/-- C18 is violated: angles go in as radians and come out as degrees. -/
theorem C18_round_trip_fails : ¬ GeodeticRoundTrip := by
  intro hR
  have hpi := Real.pi_pos
  have h := hR 0 (Real.pi / 2) 0 (by linarith) (by linarith) (by linarith) (by linarith) le_rfl
  have e : geodeticToEcef 0 (Real.pi / 2) 0 = ![0, 6378137, 0] := by
    apply vec3_ext <;> simp [geodeticToEcef]
  rw [e, C17_equator 0 6378137 (by norm_num)] at h
  · simp only [Except.ok.injEq, Prod.mk.injEq] at h
    have h2 := h.2.1
    have : npArctan2 6378137 0 = Real.pi / 2 := by
      have := npArctan2_polar (r := 6378137) (a := Real.pi / 2) (by norm_num) (by linarith)
        (by linarith)
      simpa using this
    rw [this] at h2
    unfold npDegrees at h2
    field_simp at h2
    nlinarith [Real.pi_le_four]
  · have : Real.sqrt (0 * 0 + 6378137 * 6378137) = 6378137 := by
      rw [zero_mul, zero_add]; exact Real.sqrt_mul_self (by norm_num)
    rw [this]
    have := wgsE2_lt
    unfold wgsA; intro h; norm_num at this; linarith

/-- C18: converting the units does not repair it, since the two functions use different
ellipsoids: at the pole the height comes back wrong by the same non-zero amount (about ten metres)
for every height. -/
theorem C18_pole_height_error : ∃ δ : ℝ, 9 < δ ∧ δ < 11 ∧ ∀ h : ℝ, 0 ≤ h →
    ∃ lat lon, ecefToLla (geodeticToEcef (Real.pi / 2) 0 h) = .ok (lat, lon, h + δ) := by
  have hk : 0 < (1 : ℝ) - (0.0818 * 1) ^ 2 := by norm_num
  have hs : 0 < Real.sqrt (1 - (0.0818 * 1) ^ 2) := Real.sqrt_pos.2 hk
  have hss := Real.sq_sqrt hk.le
  have e1 := wgsE2_pos
  have e2 := wgsE2_lt
  have e3 := wgsE2_gt
  have hg : 0 < 1 - wgsE2 := by norm_num at e2; linarith
  have ht := Real.sqrt_pos.2 hg
  have htt := Real.sq_sqrt hg.le
  have hE : wgsE2 = wgsF * (2 - wgsF) := rfl
  have hF : wgsF = 1 / 298.257223563 := rfl
  rw [hF] at hE
  refine ⟨6378137 * Real.sqrt (1 - (0.0818 * 1) ^ 2) - 6378137 * Real.sqrt (1 - wgsE2), ?_, ?_, ?_⟩
  · -- s - t = (s² - t²) / (s + t)
    have hs1 : Real.sqrt (1 - (0.0818 * 1) ^ 2) ≤ 1 := by
      rw [Real.sqrt_le_one]; norm_num
    have ht1 : Real.sqrt (1 - wgsE2) ≤ 1 := by rw [Real.sqrt_le_one]; linarith
    have hd : (Real.sqrt (1 - (0.0818 * 1) ^ 2) - Real.sqrt (1 - wgsE2)) *
        (Real.sqrt (1 - (0.0818 * 1) ^ 2) + Real.sqrt (1 - wgsE2)) =
        wgsE2 - 0.0818 ^ 2 := by ring_nf; rw [htt]; ring_nf at hss ⊢; rw [hss]; ring
    set s := Real.sqrt (1 - (0.0818 * 1) ^ 2)
    set t := Real.sqrt (1 - wgsE2)
    have hd0 : 0.00000313 < wgsE2 - 0.0818 ^ 2 := by rw [hE]; norm_num
    have hst : 0 < s - t := by
      by_contra hc
      have : (s - t) * (s + t) ≤ 0 := mul_nonpos_of_nonpos_of_nonneg (by linarith) (by linarith)
      linarith
    have : wgsE2 - 0.0818 ^ 2 ≤ (s - t) * 2 := by
      rw [← hd]; exact mul_le_mul_of_nonneg_left (by linarith) hst.le
    norm_num at hd0 this ⊢
    linarith
  · have hs1 : 0.99 ≤ Real.sqrt (1 - (0.0818 * 1) ^ 2) := by
      apply Real.le_sqrt_of_sq_le; norm_num
    have ht1 : 0.99 ≤ Real.sqrt (1 - wgsE2) := by
      apply Real.le_sqrt_of_sq_le; norm_num at e2 ⊢; linarith
    have hd : (Real.sqrt (1 - (0.0818 * 1) ^ 2) - Real.sqrt (1 - wgsE2)) *
        (Real.sqrt (1 - (0.0818 * 1) ^ 2) + Real.sqrt (1 - wgsE2)) =
        wgsE2 - 0.0818 ^ 2 := by ring_nf; rw [htt]; ring_nf at hss ⊢; rw [hss]; ring
    set s := Real.sqrt (1 - (0.0818 * 1) ^ 2)
    set t := Real.sqrt (1 - wgsE2)
    have hd0 : wgsE2 - 0.0818 ^ 2 < 0.00000315 := by rw [hE]; norm_num
    have hd1 : 0 < wgsE2 - 0.0818 ^ 2 := by rw [hE]; norm_num
    have hst : 0 < s - t := by
      by_contra hc
      have : (s - t) * (s + t) ≤ 0 := mul_nonpos_of_nonpos_of_nonneg (by linarith) (by linarith)
      linarith
    have : (s - t) * (0.99 + 0.99) ≤ wgsE2 - 0.0818 ^ 2 := by
      rw [← hd]; exact mul_le_mul_of_nonneg_left (by linarith) hst.le
    norm_num at hd0 this ⊢
    linarith
  · intro h hh
    have e : geodeticToEcef (Real.pi / 2) 0 h =
        ![0, 0, 6378137 * Real.sqrt (1 - (0.0818 * 1) ^ 2) + h] := by
      have : (1:ℝ) - 0.0818 ^ 2 = Real.sqrt (1 - (0.0818 * 1) ^ 2) ^ 2 := by rw [hss]; ring
      have h0 := hs.ne'
      apply vec3_ext
      · simp [geodeticToEcef]
      · simp [geodeticToEcef]
      · simp only [geodeticToEcef, Real.sin_pi_div_two]
        rw [this]
        generalize Real.sqrt (1 - (0.0818 * 1) ^ 2) = k at *
        simp; field_simp
    have hz : 0 < 6378137 * Real.sqrt (1 - (0.0818 * 1) ^ 2) + h := by positivity
    obtain ⟨lon, hl⟩ := C17_pole _ hz.ne'
    refine ⟨90, lon, ?_⟩
    rw [e, hl, abs_of_pos hz, if_neg (not_lt.2 hz.le)]
    congr 3
    ring

/-- C18, the part that holds: on the equator, with the angle conversion, the round trip is exact
for every longitude and every height above the surface.
Missing against the full property: unit conversion inside the library, and other latitudes. -/
theorem C18_round_trip_partial (long h : ℝ) (h1 : -Real.pi < long) (h2 : long ≤ Real.pi)
    (hh : 0 ≤ h) :
    ecefToLla (geodeticToEcef 0 long h) = .ok (0, npDegrees long, h) := by
  have hp := Real.sin_sq_add_cos_sq long
  have hr : (0:ℝ) < 6378137 + h := by positivity
  have e : geodeticToEcef 0 long h =
      ![(6378137 + h) * Real.cos long, (6378137 + h) * Real.sin long, 0] := by
    apply vec3_ext <;> simp [geodeticToEcef]
  have hs : Real.sqrt ((6378137 + h) * Real.cos long * ((6378137 + h) * Real.cos long) +
      (6378137 + h) * Real.sin long * ((6378137 + h) * Real.sin long)) = 6378137 + h := by
    rw [← Real.sqrt_sq hr.le]; congr 1
    rw [Real.sqrt_sq hr.le]
    linear_combination (6378137 + h) ^ 2 * hp
  rw [e, C17_equator, hs, npArctan2_polar hr h1 h2]
  · simp
  · by_contra hc
    push Not at hc
    have c1 : Real.cos long = 0 := (mul_eq_zero.1 hc.1).resolve_left hr.ne'
    have c2 : Real.sin long = 0 := (mul_eq_zero.1 hc.2).resolve_left hr.ne'
    rw [c1, c2] at hp; norm_num at hp
  · rw [hs]
    have := wgsE2_lt
    unfold wgsA; intro h; norm_num at this; linarith

example : (0:ℝ) ≤ 400000 ∧ (-Real.pi) < 1 ∧ (1:ℝ) ≤ Real.pi := by
  refine ⟨by norm_num, by linarith [Real.pi_pos], by linarith [Real.two_le_pi]⟩

end Adcs
