import Verif.Props.Sources
import Verif.Props.SimTrack

set_option autoImplicit false

/-! # Sizes of the torques of the environment (for C213) -/

namespace Adcs

open Str Dyn Env Quat JDay Fr Vec
open scoped Matrix

/-- What the dimensions of a box contribute to the torque on its walls. -/
noncomputable def Spec.leverage (dims : V3) : ℝ :=
  ((dims 1 * dims 2) ^ 2 * |dims 0| + (dims 0 * dims 2) ^ 2 * |dims 1| + (dims 0 * dims 1) ^ 2 * |dims 2|) / 2

theorem leverage_nonneg (dims : V3) : 0 ≤ Spec.leverage dims := by unfold Spec.leverage; positivity

/-- The walls' torque over the pressure is `arm v × v`. -/
noncomputable def arm (dims v : V3) : V3 :=
  ![v 0 * |v 0| * (dims 1 * dims 2) ^ 2 * dims 0 / 2, v 1 * |v 1| * (dims 0 * dims 2) ^ 2 * dims 1 / 2,
    v 2 * |v 2| * (dims 0 * dims 1) ^ 2 * dims 2 / 2]

theorem npNorm_le_sum3 (x : V3) : npNorm x ≤ |x 0| + |x 1| + |x 2| := by
  refine abs_le_of_sq_le_sq' ?_ (by positivity) |>.2
  rw [npNorm3_sq, ← sq_abs (x 0), ← sq_abs (x 1), ← sq_abs (x 2)]
  nlinarith [mul_nonneg (abs_nonneg (x 0)) (abs_nonneg (x 1)), mul_nonneg (abs_nonneg (x 0)) (abs_nonneg (x 2)),
    mul_nonneg (abs_nonneg (x 1)) (abs_nonneg (x 2))]

theorem arm_le (dims v : V3) : npNorm (arm dims v) ≤ npNorm v ^ 2 * Spec.leverage dims := by
  refine (npNorm_le_sum3 _).trans ?_
  have key : ∀ (i : Fin 3) (A d : ℝ), |v i * |v i| * A ^ 2 * d / 2| ≤ npNorm v ^ 2 * (A ^ 2 * |d| / 2) := by
    intro i A d
    have h := abs_le_npNorm v i
    have e : |v i * |v i| * A ^ 2 * d / 2| = |v i| ^ 2 * (A ^ 2 * |d| / 2) := by
      rw [abs_div, abs_mul, abs_mul, abs_mul, abs_abs, abs_of_nonneg (sq_nonneg A), abs_of_pos (two_pos : (0 : ℝ) < 2)]
      ring
    rw [e]
    have := abs_nonneg (v i)
    gcongr
  have h0 := key 0 (dims 1 * dims 2) (dims 0)
  have h1 := key 1 (dims 0 * dims 2) (dims 1)
  have h2 := key 2 (dims 0 * dims 1) (dims 2)
  simp only [arm, Matrix.cons_val_zero, Matrix.cons_val_one, Matrix.cons_val]
  unfold Spec.leverage
  nlinarith [h0, h1, h2]

theorem max_sq_pair (x : ℝ) : max 0 x ^ 2 - max 0 (-x) ^ 2 = x * |x| := by
  rw [sq_sub_sq, max_pair, max_pair_sub]; ring

theorem drag_torque (dims : V3) (ab p : ℝ) (v : V3) :
    (Dyn.FT.sum ((boxWalls (dims 0) (dims 1) (dims 2) ab).map fun w => w.dragForce p v)).T =
      p • npCross (arm dims v) v := by
  have e0 := max_sq_pair (v 0); have e1 := max_sq_pair (v 1); have e2 := max_sq_pair (v 2)
  simp only [boxWalls, List.map_cons, List.map_nil, FT.sum_six, Wall.dragForce, Wall.centerOfPressure,
    Wall.projectedArea, Wall.init, npDot3, arm]
  generalize hm : (max : ℝ → ℝ → ℝ) 0 = m at *
  rw [← e0, ← e1, ← e2]
  apply vec3_ext <;> simp [npCross_0, npCross_1, npCross_2] <;> ring

theorem srp_torque (dims : V3) (ab p : ℝ) (v : V3) :
    (Dyn.FT.sum ((boxWalls (dims 0) (dims 1) (dims 2) ab).map fun w => w.srpForce p v)).T =
      (-p * ab) • npCross (arm dims v) v := by
  have e0 := max_sq_pair (v 0); have e1 := max_sq_pair (v 1); have e2 := max_sq_pair (v 2)
  simp only [boxWalls, List.map_cons, List.map_nil, FT.sum_six, Wall.srpForce, Wall.centerOfPressure,
    Wall.projectedArea, Wall.init, npDot3, arm]
  generalize hm : (max : ℝ → ℝ → ℝ) 0 = m at *
  rw [← e0, ← e1, ← e2]
  apply vec3_ext <;> simp [npCross_0, npCross_1, npCross_2] <;> ring

theorem walls_le (dims : V3) (p : ℝ) (v : V3) :
    npNorm (p • npCross (arm dims v) v) ≤ |p| * (npNorm v ^ 3 * Spec.leverage dims) := by
  rw [npNorm_smul]
  refine mul_le_mul_of_nonneg_left ?_ (abs_nonneg p)
  calc npNorm (npCross (arm dims v) v) ≤ npNorm (arm dims v) * npNorm v := cross_norm_le _ _
    _ ≤ npNorm v ^ 2 * Spec.leverage dims * npNorm v := mul_le_mul_of_nonneg_right (arm_le dims v) (npNorm_nonneg v)
    _ = npNorm v ^ 3 * Spec.leverage dims := by ring

theorem norm_conjugate (q : V4) : npNorm (conjugate q) = npNorm q := by
  refine (pow_left_inj₀ (npNorm_nonneg _) (npNorm_nonneg _) two_ne_zero).1 ?_
  rw [npNorm4_sq, npNorm4_sq, conjugate_0, conjugate_1, conjugate_2, conjugate_3]; ring

theorem sandwich_le (q : V4) (v : V3) : npNorm (sandwich q v) ≤ npNorm q ^ 2 * npNorm v := by
  unfold sandwich
  refine (vecPart_le _).trans ?_
  rw [npNorm_product', npNorm_product', norm_conjugate]
  have : npNorm (![0, v 0, v 1, v 2] : V4) = npNorm v := by
    refine (pow_left_inj₀ (npNorm_nonneg _) (npNorm_nonneg _) two_ne_zero).1 ?_
    rw [npNorm4_sq, npNorm3_sq]; simp
  rw [this]
  exact le_of_eq (by ring)

/-- The density is at most that of the lowest height it is defined for. -/
theorem density_le {h ρ : ℝ} (hρ : Plain.atmoDensity h = .ok ρ) : 0 ≤ ρ ∧ ρ ≤ 7.248e-11 := by
  have key : ∀ c H h0 : ℝ, 0 ≤ c → c ≤ 7.248e-11 → 0 < H → h0 ≤ h →
      0 ≤ c * Real.exp ((h0 - h) / H) ∧ c * Real.exp ((h0 - h) / H) ≤ 7.248e-11 := by
    intro c H h0 hc hc1 hH hh
    have h1 : Real.exp ((h0 - h) / H) ≤ 1 := by
      rw [Real.exp_le_one_iff]
      exact div_nonpos_of_nonpos_of_nonneg (by linarith) hH.le
    have h2 := (Real.exp_pos ((h0 - h) / H)).le
    exact ⟨mul_nonneg hc h2, by nlinarith⟩
  unfold Plain.atmoDensity at hρ
  split_ifs at hρ with a b c d e <;> simp only [Except.ok.injEq] at hρ
  all_goals (rw [← hρ]; refine key _ _ _ ?_ ?_ ?_ ?_ <;> (norm_num; try linarith))

/-- Within a million kilometres the pressure of the sun is near that at the Earth. -/
theorem srp_le {n : ℕ} {st : SatState n} {i : SRPInfo} (hi : Orb.srpInfo st = .ok i) (hx : npNorm st.attrs.x ≤ 1e9) :
    |i.srp| ≤ 4.7e-6 ∧ npNorm i.S ≤ 1 := by
  unfold Orb.srpInfo at hi
  cases hc : st.clock with
  | none => simp [hc] at hi
  | some clock =>
    simp only [hc] at hi
    obtain ⟨u, eu⟩ : ∃ u, u = Orb.AU • Orb.earthToSun clock.julianDate - st.attrs.x := ⟨_, rfl⟩
    rw [← eu] at hi
    have hs : npNorm (Orb.earthToSun clock.julianDate) = 1 := earthToSun_unit _
    have hAU : npNorm (Orb.AU • Orb.earthToSun clock.julianDate) = 1.496e11 := by
      rw [npNorm_smul, hs, mul_one]; unfold Orb.AU; rw [abs_of_pos (by norm_num)]
    have hu : 1.486e11 ≤ npNorm u := by
      have h1 := npNorm_add' u st.attrs.x
      rw [show u + st.attrs.x = Orb.AU • Orb.earthToSun clock.julianDate by rw [eu, sub_add_cancel], hAU] at h1
      norm_num at h1 hx ⊢
      linarith
    have hup : 0 < npNorm u := lt_of_lt_of_le (by norm_num) hu
    have hdd : npDot u u = npNorm u ^ 2 := (npNorm_sq_dot u).symm
    have hne : npDot u u ≠ 0 := by rw [hdd]; positivity
    unfold npDiv at hi
    rw [if_neg hne] at hi
    simp only [Except.ok.injEq] at hi
    rw [← hi]
    refine ⟨?_, ?_⟩
    · show |Orb.srpCoeff / npDot u u| ≤ 4.7e-6
      rw [hdd, abs_div, abs_of_pos (by positivity : (0 : ℝ) < npNorm u ^ 2), div_le_iff₀ (by positivity)]
      have hsq : (1.486e11 : ℝ) ^ 2 ≤ npNorm u ^ 2 := by gcongr
      unfold Orb.srpCoeff Orb.AU
      rw [abs_of_pos (by norm_num)]
      norm_num at hsq ⊢
      linarith
    · show npNorm (normalizeV u) ≤ 1
      have hu0 : u ≠ 0 := by rintro rfl; rw [npNorm_eq_zero.2 rfl] at hup; exact lt_irrefl _ hup
      rw [normalize_eq hu0, npNorm_smul, abs_of_pos (by positivity)]
      exact le_of_eq (by field_simp)

theorem solar_torque {sat : Satellite} {mass : ℝ} {dims : V3} {ab cd : ℝ} (hb : Built sat mass dims ab cd)
    {s : SatState sat.rw.n} {S : FT} (hS : solarFT sat s = .ok S) (hx : npNorm s.attrs.x ≤ 1e9) :
    npNorm S.T ≤ 4.7e-6 * |ab| * Spec.leverage dims := by
  have hl := leverage_nonneg dims
  unfold solarFT at hS
  cases hi : Orb.srpInfo s with
  | error e => simp [hi] at hS
  | ok i =>
    obtain ⟨h1, h2⟩ := srp_le hi hx
    simp only [hi] at hS
    split_ifs at hS with hsh
    · obtain rfl := Except.ok.inj hS
      rw [show npNorm (0 : V3) = 0 from npNorm_eq_zero.2 rfl]
      positivity
    · obtain rfl := Except.ok.inj hS
      dsimp only
      rw [hb.mass_eq.2.2, srp_torque]
      refine (walls_le _ _ _).trans ?_
      have hn : npNorm i.S ^ 3 ≤ 1 := pow_le_one₀ (npNorm_nonneg _) h2
      have e : |-i.srp * ab| = |i.srp| * |ab| := by rw [abs_mul, abs_neg]
      rw [e]
      have hn0 := npNorm_nonneg i.S
      calc |i.srp| * |ab| * (npNorm i.S ^ 3 * Spec.leverage dims) ≤ 4.7e-6 * |ab| * (1 * Spec.leverage dims) := by gcongr
        _ = _ := by ring

theorem drag_torque_le {sat : Satellite} {mass : ℝ} {dims : V3} {ab cd : ℝ} (hb : Built sat mass dims ab cd)
    {s : SatState sat.rw.n} {D : FT} (hD : dragFT sat s = .ok D) {v : ℝ} (hv : npNorm (Orb.relativeVel s) ≤ v) :
    npNorm D.T ≤ npNorm s.attrs.attitude ^ 6 * (3.624e-11 * |cd| * v ^ 2 * Spec.leverage dims) := by
  have hl := leverage_nonneg dims
  unfold dragFT at hD
  obtain ⟨w, ew⟩ : ∃ w, w = Orb.relativeVel s := ⟨_, rfl⟩
  simp only [← ew] at hD hv
  by_cases hw : npNorm w = 0
  · simp [npVDiv, hw] at hD
  simp only [npVDiv, if_neg hw] at hD
  cases hρ : Orb.atmoDensity s with
  | error e => simp [hρ] at hD
  | ok ρ =>
    simp only [hρ] at hD
    obtain rfl := Except.ok.inj hD
    dsimp only
    rw [hb.mass_eq.2.2, hb.mass_eq.2.1, drag_torque]
    refine (walls_le _ _ _).trans ?_
    obtain ⟨r0, r1⟩ := density_le (show Plain.atmoDensity s.attrs.h = .ok ρ from hρ)
    have hw0 : 0 < npNorm w := lt_of_le_of_ne (npNorm_nonneg w) (Ne.symm hw)
    have hu : npNorm (fun i => w i / npNorm w) = 1 := by
      have : (fun i => w i / npNorm w) = (1 / npNorm w) • w := by
        funext i; simp only [Pi.smul_apply, smul_eq_mul]; ring
      rw [this, npNorm_smul, abs_of_pos (by positivity)]
      field_simp
    have h1 := sandwich_le s.attrs.attitude (fun i => w i / npNorm w)
    rw [hu, mul_one] at h1
    have h2 : npNorm (sandwich s.attrs.attitude fun i => w i / npNorm w) ^ 3 ≤ (npNorm s.attrs.attitude ^ 2) ^ 3 :=
      pow_le_pow_left₀ (npNorm_nonneg _) h1 3
    have e : |-0.5 * ρ * cd * npNorm w ^ 2| = 0.5 * ρ * |cd| * npNorm w ^ 2 := by
      rw [abs_mul, abs_mul, abs_mul, abs_of_nonneg r0, abs_of_nonneg (sq_nonneg (npNorm w)), abs_neg,
        abs_of_pos (by norm_num : (0 : ℝ) < 0.5)]
    rw [e]
    have hn0 := npNorm_nonneg (sandwich s.attrs.attitude fun i => w i / npNorm w)
    calc 0.5 * ρ * |cd| * npNorm w ^ 2 *
          (npNorm (sandwich s.attrs.attitude fun i => w i / npNorm w) ^ 3 * Spec.leverage dims)
        ≤ 0.5 * 7.248e-11 * |cd| * v ^ 2 * ((npNorm s.attrs.attitude ^ 2) ^ 3 * Spec.leverage dims) := by gcongr
      _ = _ := by ring

theorem gravity_torque_le {hiFi : Bool} {sat : Satellite} {J : ℝ} (hJ0 : 0 ≤ J)
    (hJ : ∀ x, npNorm (sat.totalMoment *ᵥ x) ≤ J * npNorm x) {a : Raw sat.rw.n} {c : JClock} {s : SatState sat.rw.n}
    (h : SatState.new a (some c) = .ok s) {G : FT} (hG : gravityFT hiFi sat s = .ok G) {R : ℝ} (hR : 0 < R)
    (hr : R ≤ npNorm a.pos) : npNorm G.T ≤ npNorm a.att ^ 4 * (1.2e15 / R ^ 3 * J) := by
  obtain ⟨hT, -⟩ := gravityFT_eq h hG
  have hp : 0 < npNorm a.pos := hR.trans_le hr
  rw [hT, gravityGradient, npNorm_smul, ← npCross_eq_crossProduct, ← sandwich_eq_toBody]
  obtain ⟨n, en⟩ : ∃ n, n = sandwich a.att ((-1 / npNorm a.pos) • a.pos) := ⟨_, rfl⟩
  rw [← en]
  have hn : npNorm n ≤ npNorm a.att ^ 2 := by
    have h1 := sandwich_le a.att ((-1 / npNorm a.pos) • a.pos)
    rw [npNorm_smul, abs_div, abs_neg, abs_one, abs_of_pos hp, one_div_mul_cancel hp.ne', mul_one] at h1
    rw [en]; exact h1
  have h2 : npNorm (npCross n (sat.totalMoment *ᵥ n)) ≤ npNorm a.att ^ 4 * J := by
    calc npNorm (npCross n (sat.totalMoment *ᵥ n)) ≤ npNorm n * npNorm (sat.totalMoment *ᵥ n) := cross_norm_le _ _
      _ ≤ npNorm n * (J * npNorm n) := mul_le_mul_of_nonneg_left (hJ n) (npNorm_nonneg n)
      _ ≤ npNorm a.att ^ 2 * (J * npNorm a.att ^ 2) := by
          have := npNorm_nonneg n; gcongr
      _ = _ := by ring
  have h3 : |3 * Orb.MU / npNorm a.pos ^ 3| ≤ 1.2e15 / R ^ 3 := by
    have hMU : 0 < Orb.MU := by unfold Orb.MU Orb.gNewton Orb.earthMass; norm_num
    rw [abs_of_pos (by positivity)]
    have : 3 * Orb.MU ≤ 1.2e15 := by unfold Orb.MU Orb.gNewton Orb.earthMass; norm_num
    gcongr
  calc _ ≤ 1.2e15 / R ^ 3 * (npNorm a.att ^ 4 * J) := mul_le_mul h3 h2 (npNorm_nonneg _) (by positivity)
    _ = _ := by ring

theorem earthDipole_le : npNorm earthDipole ≤ 7.8e15 := by
  refine abs_le_of_sq_le_sq' ?_ (by norm_num) |>.2
  rw [npNorm3_sq]
  simp [earthDipole]
  norm_num

theorem magnetic_torque_le {n : ℕ} {a : Raw n} {c : JClock} {s : SatState n} (h : SatState.new a (some c) = .ok s) {B : V3}
    (hB : Orb.magneticField s = .ok B) {R : ℝ} (hR : 0 < R) (hr : R ≤ npNorm a.pos) (q : V4) (m : V3) :
    npNorm (npCross m (sandwich q B)) ≤ npNorm q ^ 2 * (1.56e16 / R ^ 3 * npNorm m) := by
  have h1 := (C50_magnitude h hB).2
  have hp : 0 < npNorm a.pos := hR.trans_le hr
  have h2 : npNorm B ≤ 1.56e16 / R ^ 3 := by
    refine h1.trans ?_
    have : 2 * npNorm earthDipole ≤ 1.56e16 := by have := earthDipole_le; norm_num at this ⊢; linarith
    gcongr
  calc npNorm (npCross m (sandwich q B)) ≤ npNorm m * npNorm (sandwich q B) := cross_norm_le _ _
    _ ≤ npNorm m * (npNorm q ^ 2 * npNorm B) := mul_le_mul_of_nonneg_left (sandwich_le q B) (npNorm_nonneg m)
    _ ≤ npNorm m * (npNorm q ^ 2 * (1.56e16 / R ^ 3)) := by
        have := npNorm_nonneg m; gcongr
    _ = _ := by ring

end Adcs
