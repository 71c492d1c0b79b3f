import Verif.Props.FloatSeq
import Verif.Props.FloatTime

set_option autoImplicit false

/-! # C172-C173: the number of steps of `Integrator.integrate` and the clock `JClock` with rounding -/

namespace Adcs

open Fl

/-! ## C172 -/

/-- The counter `t` of `integrate` after `n` passes, written down on its own. -/
noncomputable def counter (fl : ℝ → ℝ) (dt : ℝ) : ℕ → ℝ
  | 0 => dt
  | n + 1 => fl (counter fl dt n + dt)

/-- C172, claimed: with a positive step and a duration of `k` steps, `integrate` makes `k` updates. The step and the
duration are what the program gets: decimal fractions rounded to floats. -/
def C172_claim : Prop :=
  ∀ (fl : ℝ → ℝ), Nearest fl → ∀ (k : ℕ) (σ : Type) (update : σ → Py Unit × σ) (st : ℕ → σ),
    (∀ j, update (st j) = (.ok (), st (j + 1))) →
    ∀ r, Integrates fl update (fl 0.05) (fl (k * 0.05)) (st 0) r → r = (.ok (), st k)

theorem loop_count {fl : ℝ → ℝ} {σ : Type} {update : σ → Py Unit × σ} {st : ℕ → σ} {dt duration : ℝ}
    {k : ℕ} (hu : ∀ j, j < k → update (st j) = (.ok (), st (j + 1)))
    (h1 : ∀ j, j < k → loopCond fl (counter fl dt j) duration)
    (h2 : ¬ loopCond fl (counter fl dt k) duration) :
    Integrates fl update dt duration (st 0) (.ok (), st k) := by
  have main : ∀ d j, j + d = k → Loop fl update dt duration (counter fl dt j) (st j) (.ok (), st k) := by
    intro d
    induction d with
    | zero => rintro j rfl; exact Loop.done h2
    | succ d ih => intro j hj; exact Loop.step (h1 j (by omega)) (hu j (by omega)) (ih (j + 1) (by omega))
  exact main k 0 (by omega)

/-- The loop has at most one result. -/
theorem float_loop_unique {fl : ℝ → ℝ} {σ : Type} {u : σ → Py Unit × σ} {dt duration t : ℝ} {s : σ}
    {r r' : Py Unit × σ} (h : Loop fl u dt duration t s r) (h' : Loop fl u dt duration t s r') : r = r' := by
  induction h with
  | done hc =>
    cases h' with
    | done _ => rfl
    | raise hc' _ => exact absurd hc' hc
    | step hc' _ _ => exact absurd hc' hc
  | raise hc he =>
    cases h' with
    | done hc' => exact absurd hc hc'
    | raise _ he' => rw [he] at he'; exact he'
    | step _ he' _ => rw [he] at he'; simp at he'
  | step hc he _ ih =>
    cases h' with
    | done hc' => exact absurd hc hc'
    | raise _ he' => rw [he] at he'; simp at he'
    | step _ he' hl => rw [he] at he'; simp only [Prod.mk.injEq, true_and] at he'; subst he'; exact ih hl

/-- The counter drifts from the exact multiple by at most `(n + 1) ^ 2` roundings of one step. -/
theorem counter_drift {fl : ℝ → ℝ} (H : Nearest fl) {dt : ℝ} (h0 : 0 ≤ dt) (n : ℕ)
    (hn : (n + 1 : ℝ) * ulp ≤ 1) : |counter fl dt n - (n + 1) * dt| ≤ (n + 1) ^ 2 * ulp * dt := by
  have u0 := ulp_pos
  induction n with
  | zero =>
    simp only [counter, Nat.cast_zero]
    rw [show dt - (0 + 1) * dt = 0 by ring, abs_zero]
    positivity
  | succ n ih =>
    have hn' : (n + 1 : ℝ) * ulp ≤ 1 := by push_cast at hn; nlinarith
    have ih := ih hn'
    have e := H.err (counter fl dt n + dt)
    simp only [counter]
    set c := counter fl dt n
    have a1 : |c + dt| ≤ (n + 2) * dt + (n + 1) ^ 2 * ulp * dt := by
      have : c + dt = (c - (n + 1) * dt) + (n + 2) * dt := by ring
      rw [this]
      have := abs_add_le (c - (n + 1) * dt) ((n + 2) * dt)
      rw [abs_of_nonneg (by positivity : (0 : ℝ) ≤ (n + 2) * dt)] at this
      linarith
    have a2 : fl (c + dt) - ((n + 1 : ℕ) + 1 : ℝ) * dt
        = (fl (c + dt) - (c + dt)) + (c - (n + 1) * dt) := by push_cast; ring
    rw [a2]
    have a3 := abs_add_le (fl (c + dt) - (c + dt)) (c - (n + 1) * dt)
    have a4 : ulp * |c + dt| ≤ ulp * ((n + 2) * dt + (n + 1) ^ 2 * ulp * dt) := by gcongr
    have a5 : (n + 1 : ℝ) ^ 2 * ulp ≤ n + 1 := by nlinarith
    have a6 : ulp * ((n + 1 : ℝ) ^ 2 * ulp * dt) ≤ ulp * ((n + 1) * dt) := by gcongr
    have a7 : (((n + 1 : ℕ) : ℝ) + 1) ^ 2 * ulp * dt
        = (n + 1) ^ 2 * ulp * dt + ulp * ((n + 2) * dt) + ulp * ((n + 1) * dt) := by push_cast; ring
    rw [a7]
    have a8 : ulp * ((n + 2) * dt + (n + 1) ^ 2 * ulp * dt)
        = ulp * ((n + 2) * dt) + ulp * ((n + 1 : ℝ) ^ 2 * ulp * dt) := by ring
    linarith

/-- C172 (partial): with a step of at least 2 milliseconds and a duration of `k` steps give or take half a millisecond,
`integrate` makes exactly `k` updates as long as `(k + 1) ^ 2 * dt` stays below `0.0002 * 2 ^ 53`. -/
theorem C172_steps_partial {fl : ℝ → ℝ} (H : Nearest fl) {dt duration : ℝ} {k : ℕ} (hdt : 0.002 ≤ dt)
    (hd : |duration - k * dt| ≤ 0.0005) (hk : (k + 1 : ℝ) ^ 2 * dt ≤ 0.0002 * 2 ^ 53)
    {σ : Type} {update : σ → Py Unit × σ} {st : ℕ → σ} (hst : ∀ j, j < k → update (st j) = (.ok (), st (j + 1)))
    (r : Py Unit × σ) : Integrates fl update dt duration (st 0) r ↔ r = (.ok (), st k) := by
  have h0 : 0 ≤ dt := by norm_num at hdt; linarith
  have u0 := ulp_pos
  have hu : ulp * 2 ^ 53 = 1 := by unfold ulp; norm_num
  have hk1 : (k + 1 : ℝ) * ulp ≤ 1 := by
    have h1 : (k + 1 : ℝ) ^ 2 * 0.002 ≤ 0.0002 * 2 ^ 53 := by
      refine le_trans ?_ hk
      gcongr
    have h2 : (k + 1 : ℝ) ≤ 2 ^ 53 := by
      have : (0 : ℝ) ≤ k := Nat.cast_nonneg k
      norm_num at h1 ⊢
      nlinarith
    calc (k + 1 : ℝ) * ulp ≤ 2 ^ 53 * ulp := by gcongr
      _ = 1 := by rw [mul_comm]; exact hu
  have drift : ∀ j : ℕ, j ≤ k → |counter fl dt j - (j + 1) * dt| ≤ 0.0002 := by
    intro j hj
    have hj' : (j : ℝ) ≤ k := by exact_mod_cast hj
    have h1 := counter_drift H h0 j (by nlinarith)
    have h2 : (j + 1 : ℝ) ^ 2 * ulp * dt ≤ (k + 1) ^ 2 * ulp * dt := by gcongr
    have h3 : (k + 1 : ℝ) ^ 2 * ulp * dt ≤ 0.0002 := by
      calc (k + 1 : ℝ) ^ 2 * ulp * dt = ulp * ((k + 1) ^ 2 * dt) := by ring
        _ ≤ ulp * (0.0002 * 2 ^ 53) := by gcongr
        _ = 0.0002 * (ulp * 2 ^ 53) := by ring
        _ = 0.0002 := by rw [hu, mul_one]
    linarith
  have hdd := abs_le.1 hd
  have count : Integrates fl update dt duration (st 0) (.ok (), st k) := by
    apply loop_count hst
    · intro j hj
      have hj' : (j : ℝ) + 1 ≤ k := by exact_mod_cast hj
      have d := abs_le.1 (drift j hj.le)
      rcases eq_or_lt_of_le (Nat.succ_le_of_lt hj) with e | e
      · right
        have e' : (j : ℝ) + 1 = k := by exact_mod_cast e
        rw [e'] at d
        have hx : |counter fl dt j - duration| ≤ 0.0007 := by
          norm_num at d hdd ⊢
          rw [abs_le]; constructor <;> linarith [d.1, d.2, hdd.1, hdd.2]
        have h1 := H.err (counter fl dt j - duration)
        have h2 := H.mul_le (x := 0.001) (by norm_num)
        have h3 := abs_add_le (fl (counter fl dt j - duration) - (counter fl dt j - duration))
          (counter fl dt j - duration)
        rw [sub_add_cancel] at h3
        have h4 := ulp_small
        norm_num at hx h2 h4 ⊢
        nlinarith
      · left
        have e' : (j : ℝ) + 2 ≤ k := by exact_mod_cast e
        norm_num at d hdd hdt
        nlinarith [d.1, d.2, hdd.1, hdd.2]
    · have d := abs_le.1 (drift k le_rfl)
      have hx : (0.001 : ℝ) ≤ counter fl dt k - duration := by
        norm_num at d hdd hdt ⊢
        linarith [d.1, d.2, hdd.1, hdd.2]
      rintro (h | h)
      · norm_num at hx; linarith
      · have := H.mono hx
        exact absurd (lt_of_le_of_lt (le_abs_self _) h) (not_lt.2 this)
  exact ⟨fun h => float_loop_unique h count, fun h => h ▸ count⟩

/-- C172 (partial), for the step 0.05 s that the simulator always uses: right for six million steps, 83 hours. -/
theorem C172_simulator_partial {fl : ℝ → ℝ} (H : Nearest fl) {k : ℕ} (hk : k ≤ 6000000)
    {σ : Type} {update : σ → Py Unit × σ} {st : ℕ → σ} (hst : ∀ j, j < k → update (st j) = (.ok (), st (j + 1)))
    (r : Py Unit × σ) :
    Integrates fl update (fl 0.05) (fl (k * 0.05)) (st 0) r ↔ r = (.ok (), st k) := by
  have hk' : (k : ℝ) ≤ 6000000 := by exact_mod_cast hk
  have k0 : (0 : ℝ) ≤ k := Nat.cast_nonneg k
  have e1 := abs_le.1 (H.err 0.05)
  have e2 := abs_le.1 (H.err (k * 0.05))
  have hu : ulp = 1 / 9007199254740992 := by unfold ulp; norm_num
  rw [abs_of_nonneg (by norm_num), hu] at e1
  rw [abs_of_nonneg (by positivity), hu] at e2
  norm_num at e1 e2
  refine C172_steps_partial H ?_ ?_ ?_ hst r
  · norm_num; linarith [e1.1]
  · norm_num
    rw [abs_le]
    constructor <;> nlinarith [e1.1, e1.2, e2.1, e2.2]
  · have : (k + 1 : ℝ) ^ 2 ≤ 6000001 ^ 2 := by gcongr; linarith
    have h2 : fl 0.05 ≤ 0.05 + 1 / 10 ^ 16 := by norm_num; linarith [e1.2]
    calc (k + 1 : ℝ) ^ 2 * fl 0.05 ≤ 6000001 ^ 2 * (0.05 + 1 / 10 ^ 16) := by gcongr; exact H.nonneg (by norm_num)
      _ ≤ _ := by norm_num

/-- C172: a long enough duration never ends: the counter stands still before it gets there. -/
theorem C172_never_ends {fl : ℝ → ℝ} (H : Nearest fl) {dt duration : ℝ} (h0 : 0 < dt)
    (hd : 2 ^ 55 * dt < duration) {σ : Type} (f : σ → σ) (s : σ) (r : Py Unit × σ) :
    ¬ Integrates fl (fun s => (.ok (), f s)) dt duration s r := by
  obtain ⟨e, h1, h2⟩ := exists_binade h0.ne'
  rw [abs_of_pos h0] at h1 h2
  have hT : F 4503599627370496 (e + 3) = 2 ^ 55 * (2 : ℝ) ^ e := by
    unfold F; rw [zpow_add₀ (by norm_num)]; norm_num; ring
  have hstop : fl (F 4503599627370496 (e + 3) + dt) = F 4503599627370496 (e + 3) := by
    apply Fl.Nearest.of_pow H
    rw [add_sub_cancel_left, abs_of_pos h0]
    convert h2 using 2; ring
  have hTd : F 4503599627370496 (e + 3) < duration := by
    rw [hT]; refine lt_of_le_of_lt ?_ hd; gcongr
  have main : ∀ t s r, Loop fl (fun s => (.ok (), f s)) dt duration t s r →
      ¬ t ≤ F 4503599627370496 (e + 3) := by
    intro t s r h
    induction h with
    | done hc => intro ht; exact hc (Or.inl (lt_of_le_of_lt ht hTd))
    | raise _ he => simp at he
    | step _ _ _ ih =>
      intro ht
      apply ih
      rw [← hstop]
      exact H.mono (by linarith)
  intro h
  refine main _ _ _ h ?_
  rw [hT]
  have : (0 : ℝ) < 2 ^ e := by positivity
  have h3 : (2 : ℝ) ^ (e + 1) = 2 * 2 ^ e := by rw [zpow_add₀ (by norm_num)]; norm_num; ring
  rw [h3] at h2
  norm_num
  linarith

/-! ### The witness: 0.05 s, 33 811 030 steps -/

theorem counter_run {fl : ℝ → ℝ} (H : Nearest fl) {dt : ℝ} {m e : ℤ} (c : ℤ) (i : ℕ) {n N : ℕ} {m' : ℤ}
    (hc : 0 < c ∧ 2 ^ 52 ≤ m) (hm : m + i * c = m' ∧ m' < 2 ^ 53) (hN : n + i = N)
    (hd : |dt - F c e| < 2 ^ (e - 1)) (h : F m e ≤ counter fl dt n) : F m' e ≤ counter fl dt N := by
  have hp : (0 : ℝ) < 2 ^ e := by positivity
  have main : ∀ j : ℕ, j ≤ i → F (m + j * c) e ≤ counter fl dt (n + j) := by
    intro j
    induction j with
    | zero => intro _; simpa using h
    | succ j ih =>
      intro hj
      have := ih (by omega)
      rw [← add_assoc]
      simp only [counter]
      have hpos : 0 ≤ (j : ℤ) * c := by have := hc.1; positivity
      have hle : m + ((j : ℤ) + 1) * c ≤ m' := by
        rw [← hm.1]
        have : ((j : ℤ) + 1) ≤ i := by exact_mod_cast hj
        have := mul_le_mul_of_nonneg_right this hc.1.le
        linarith
      have e1 : fl (F (m + j * c) e + dt) = F (m + (j + 1 : ℕ) * c) e := by
        apply Fl.Nearest.of_near H
        · rw [abs_of_nonneg (by push_cast; nlinarith [hc.1, hc.2])]
          push_cast; nlinarith [hc.1, hc.2]
        · rw [abs_of_nonneg (by push_cast; nlinarith [hc.1, hc.2])]
          push_cast; linarith [hm.2]
        · convert hd using 2
          unfold F; push_cast; ring
      rw [← e1]
      exact H.mono (by linarith)
  have := main i le_rfl
  rwa [hm.1, hN] at this

theorem counter_up {fl : ℝ → ℝ} (H : Nearest fl) {dt : ℝ} {m e m' e' : ℤ} {n N : ℕ}
    (hm : 2 ^ 52 < |m'| ∧ |m'| < 2 ^ 53) (hN : n + 1 = N) (hd : |F m e + dt - F m' e'| < 2 ^ (e' - 1))
    (h : F m e ≤ counter fl dt n) : F m' e' ≤ counter fl dt N := by
  rw [← hN]
  simp only [counter]
  rw [← Fl.Nearest.of_near H hm.1 hm.2 hd]
  exact H.mono (by linarith)

theorem counter_down {fl : ℝ → ℝ} (H : Nearest fl) {dt : ℝ} {m e m' e' : ℤ} {n N : ℕ}
    (hm : |m'| < 2 ^ 53 ∧ n + 1 = N) (hd : F m' e' ≤ F m e + dt)
    (h : F m e ≤ counter fl dt n) : F m' e' ≤ counter fl dt N := by
  rw [← hm.2]
  simp only [counter]
  exact H.float_le ⟨m', e', hm.1, rfl⟩ (by linarith)

/-- The float 0.05. -/
noncomputable def tau : ℝ := F 7205759403792794 (-57)

theorem counter_witness {fl : ℝ → ℝ} (H : Nearest fl) :
    F 7260863408998712 (-32) ≤ counter fl tau 33811029 := by
  have r0 : F 7205759403792794 (-57) ≤ counter fl tau 0 := le_refl _
  have r1 : F 7205759403792794 (-56) ≤ counter fl tau 1 := counter_down H (by norm_num) (by norm_num [tau, F]) r0
  have r2 : F 5404319552844595 (-55) ≤ counter fl tau 2 := counter_down H (by norm_num) (by norm_num [tau, F]) r1
  have r3 : F 7205759403792793 (-55) ≤ counter fl tau 3 := counter_down H (by norm_num) (by norm_num [tau, F]) r2
  have r4 : F 9007199254740991 (-55) ≤ counter fl tau 4 := counter_down H (by norm_num) (by norm_num [tau, F]) r3
  have r5 : F 5404319552844595 (-54) ≤ counter fl tau 5 := counter_up H (by norm_num) (by norm_num) (by norm_num [tau, F, abs_lt]) r4
  have r6 : F 9007199254740991 (-54) ≤ counter fl tau 9 := counter_run H 900719925474099 4 (by norm_num) (by norm_num) (by norm_num) (by norm_num [tau, F, abs_lt]) r5
  have r7 : F 4953959590107545 (-53) ≤ counter fl tau 10 := counter_down H (by norm_num) (by norm_num [tau, F]) r6
  have r8 : F 8556839292003945 (-53) ≤ counter fl tau 18 := counter_run H 450359962737050 8 (by norm_num) (by norm_num) (by norm_num) (by norm_num [tau, F, abs_lt]) r7
  have r9 : F 4503599627370497 (-52) ≤ counter fl tau 19 := counter_down H (by norm_num) (by norm_num [tau, F]) r8
  have r10 : F 8782019273372472 (-52) ≤ counter fl tau 38 := counter_run H 225179981368525 19 (by norm_num) (by norm_num) (by norm_num) (by norm_num [tau, F, abs_lt]) r9
  have r11 : F 4503599627370498 (-51) ≤ counter fl tau 39 := counter_down H (by norm_num) (by norm_num [tau, F]) r10
  have r12 : F 9007199254740978 (-51) ≤ counter fl tau 79 := counter_run H 112589990684262 40 (by norm_num) (by norm_num) (by norm_num) (by norm_num [tau, F, abs_lt]) r11
  have r13 : F 4559894622712620 (-50) ≤ counter fl tau 80 := counter_down H (by norm_num) (by norm_num [tau, F]) r12
  have r14 : F 9007199254740969 (-50) ≤ counter fl tau 159 := counter_run H 56294995342131 79 (by norm_num) (by norm_num) (by norm_num) (by norm_num [tau, F, abs_lt]) r13
  have r15 : F 4531747125041550 (-49) ≤ counter fl tau 160 := counter_down H (by norm_num) (by norm_num [tau, F]) r14
  have r16 : F 8979051757069978 (-49) ≤ counter fl tau 318 := counter_run H 28147497671066 158 (by norm_num) (by norm_num) (by norm_num) (by norm_num [tau, F, abs_lt]) r15
  have r17 : F 4503599627370522 (-48) ≤ counter fl tau 319 := counter_up H (by norm_num) (by norm_num) (by norm_num [tau, F, abs_lt]) r16
  have r18 : F 8993125505905549 (-48) ≤ counter fl tau 638 := counter_run H 14073748835533 319 (by norm_num) (by norm_num) (by norm_num) (by norm_num [tau, F, abs_lt]) r17
  have r19 : F 4503599627370541 (-47) ≤ counter fl tau 639 := counter_up H (by norm_num) (by norm_num) (by norm_num [tau, F, abs_lt]) r18
  have r20 : F 9007199254740781 (-47) ≤ counter fl tau 1279 := counter_run H 7036874417766 640 (by norm_num) (by norm_num) (by norm_num) (by norm_num [tau, F, abs_lt]) r19
  have r21 : F 4507118064579274 (-46) ≤ counter fl tau 1280 := counter_up H (by norm_num) (by norm_num) (by norm_num [tau, F, abs_lt]) r20
  have r22 : F 9007199254740631 (-46) ≤ counter fl tau 2559 := counter_run H 3518437208883 1279 (by norm_num) (by norm_num) (by norm_num) (by norm_num [tau, F, abs_lt]) r21
  have r23 : F 4505358845974757 (-45) ≤ counter fl tau 2560 := counter_down H (by norm_num) (by norm_num [tau, F]) r22
  have r24 : F 9005440036137393 (-45) ≤ counter fl tau 5118 := counter_run H 1759218604442 2558 (by norm_num) (by norm_num) (by norm_num) (by norm_num [tau, F, abs_lt]) r23
  have r25 : F 4503599627370917 (-44) ≤ counter fl tau 5119 := counter_down H (by norm_num) (by norm_num [tau, F]) r24
  have r26 : F 9006319645440216 (-44) ≤ counter fl tau 10238 := counter_run H 879609302221 5119 (by norm_num) (by norm_num) (by norm_num) (by norm_num [tau, F, abs_lt]) r25
  have r27 : F 4503599627371218 (-43) ≤ counter fl tau 10239 := counter_down H (by norm_num) (by norm_num [tau, F]) r26
  have r28 : F 9007199254737618 (-43) ≤ counter fl tau 20479 := counter_run H 439804651110 10240 (by norm_num) (by norm_num) (by norm_num) (by norm_num [tau, F, abs_lt]) r27
  have r29 : F 4503819529694364 (-42) ≤ counter fl tau 20480 := counter_down H (by norm_num) (by norm_num [tau, F]) r28
  have r30 : F 9007199254735209 (-42) ≤ counter fl tau 40959 := counter_run H 219902325555 20479 (by norm_num) (by norm_num) (by norm_num) (by norm_num [tau, F, abs_lt]) r29
  have r31 : F 4503709578530382 (-41) ≤ counter fl tau 40960 := counter_down H (by norm_num) (by norm_num [tau, F]) r30
  have r32 : F 9007089303591706 (-41) ≤ counter fl tau 81918 := counter_run H 109951162778 40958 (by norm_num) (by norm_num) (by norm_num) (by norm_num [tau, F, abs_lt]) r31
  have r33 : F 4503599627377242 (-40) ≤ counter fl tau 81919 := counter_up H (by norm_num) (by norm_num) (by norm_num [tau, F, abs_lt]) r32
  have r34 : F 9007144279182733 (-40) ≤ counter fl tau 163838 := counter_run H 54975581389 81919 (by norm_num) (by norm_num) (by norm_num) (by norm_num [tau, F, abs_lt]) r33
  have r35 : F 4503599627382061 (-39) ≤ counter fl tau 163839 := counter_up H (by norm_num) (by norm_num) (by norm_num [tau, F, abs_lt]) r34
  have r36 : F 9007199254687021 (-39) ≤ counter fl tau 327679 := counter_run H 27487790694 163840 (by norm_num) (by norm_num) (by norm_num) (by norm_num [tau, F, abs_lt]) r35
  have r37 : F 4503613371238858 (-38) ≤ counter fl tau 327680 := counter_up H (by norm_num) (by norm_num) (by norm_num [tau, F, abs_lt]) r36
  have r38 : F 9007199254648471 (-38) ≤ counter fl tau 655359 := counter_run H 13743895347 327679 (by norm_num) (by norm_num) (by norm_num) (by norm_num [tau, F, abs_lt]) r37
  have r39 : F 4503606499271909 (-37) ≤ counter fl tau 655360 := counter_down H (by norm_num) (by norm_num [tau, F]) r38
  have r40 : F 9007192383009201 (-37) ≤ counter fl tau 1310718 := counter_run H 6871947674 655358 (by norm_num) (by norm_num) (by norm_num) (by norm_num [tau, F, abs_lt]) r39
  have r41 : F 4503599627478437 (-36) ≤ counter fl tau 1310719 := counter_down H (by norm_num) (by norm_num [tau, F]) r40
  have r42 : F 9007195819137240 (-36) ≤ counter fl tau 2621438 := counter_run H 3435973837 1310719 (by norm_num) (by norm_num) (by norm_num) (by norm_num [tau, F, abs_lt]) r41
  have r43 : F 4503599627555538 (-35) ≤ counter fl tau 2621439 := counter_down H (by norm_num) (by norm_num [tau, F]) r42
  have r44 : F 9007199253877458 (-35) ≤ counter fl tau 5242879 := counter_run H 1717986918 2621440 (by norm_num) (by norm_num) (by norm_num) (by norm_num [tau, F, abs_lt]) r43
  have r45 : F 4503600485932188 (-34) ≤ counter fl tau 5242880 := counter_down H (by norm_num) (by norm_num [tau, F]) r44
  have r46 : F 9007199253260649 (-34) ≤ counter fl tau 10485759 := counter_run H 858993459 5242879 (by norm_num) (by norm_num) (by norm_num) (by norm_num [tau, F, abs_lt]) r45
  have r47 : F 4503600056127054 (-33) ≤ counter fl tau 10485760 := counter_down H (by norm_num) (by norm_num [tau, F]) r46
  have r48 : F 9007198828698394 (-33) ≤ counter fl tau 20971518 := counter_run H 429496730 10485758 (by norm_num) (by norm_num) (by norm_num) (by norm_num [tau, F, abs_lt]) r47
  have r49 : F 4503599629097562 (-32) ≤ counter fl tau 20971519 := counter_up H (by norm_num) (by norm_num) (by norm_num [tau, F, abs_lt]) r48
  have r50 : F 7260863408998712 (-32) ≤ counter fl tau 33811029 := counter_run H 214748365 12839510 (by norm_num) (by norm_num) (by norm_num) (by norm_num [tau, F, abs_lt]) r49
  exact r50

theorem fl_tau {fl : ℝ → ℝ} (H : Nearest fl) : fl 0.05 = tau :=
  Fl.Nearest.of_near H (by norm_num) (by norm_num) (by norm_num [F, abs_lt])

/-- C172: for every rounding to nearest, `integrate(1690551.5)` with the step 0.05 ends before the 33811030 updates that
make this duration. -/
theorem C172_short {fl : ℝ → ℝ} (H : Nearest fl) : ∃ k, k < 33811030 ∧
    ∀ (σ : Type) (update : σ → Py Unit × σ) (st : ℕ → σ), (∀ j, update (st j) = (.ok (), st (j + 1))) →
      ∀ r, Integrates fl update (fl 0.05) (fl ((33811030 : ℕ) * 0.05)) (st 0) r ↔ r = (.ok (), st k) := by
  classical
  have hdur : fl ((33811030 : ℕ) * 0.05) = F 3381103 (-1) :=
    Fl.Nearest.of_exact H (by norm_num) (by norm_num [F])
  have h1 : fl 0.001 = F 4611686018427388 (-62) :=
    Fl.Nearest.of_near H (by norm_num) (by norm_num) (by norm_num [F, abs_lt])
  rw [fl_tau H, hdur]
  have hlast : ¬ loopCond fl (counter fl tau 33811029) (F 3381103 (-1)) := by
    have hw := counter_witness H
    have hx : F 4611686018427388 (-62) ≤ counter fl tau 33811029 - F 3381103 (-1) := by
      refine le_trans ?_ (sub_le_sub_right hw _)
      norm_num [F]
    have hpos : 0 < F 4611686018427388 (-62) := by norm_num [F]
    rintro (h | h)
    · linarith
    · rw [h1] at h
      have := H.float_le ⟨4611686018427388, -62, by norm_num, rfl⟩ hx
      exact absurd (lt_of_le_of_lt (le_abs_self _) h) (not_lt.2 this)
  have hend : ∃ j, ¬ loopCond fl (counter fl tau j) (F 3381103 (-1)) := ⟨_, hlast⟩
  refine ⟨Nat.find hend, ?_, ?_⟩
  · exact lt_of_le_of_lt (Nat.find_min' hend hlast) (by norm_num)
  · intro σ update st hst r
    have count := loop_count (fl := fl) (dt := tau) (duration := F 3381103 (-1)) (fun j _ => hst j)
      (fun j hj => not_not.1 (Nat.find_min hend hj)) (Nat.find_spec hend)
    exact ⟨fun h => float_loop_unique h count, fun h => h ▸ count⟩

/-- C172: the claim is false. -/
theorem C172_steps_fails : ¬ C172_claim := by
  intro h
  obtain ⟨k, hk, hr⟩ := C172_short rn_nearest
  have := h rn rn_nearest 33811030 ℕ (fun n => (.ok (), n + 1)) id (fun _ => rfl) (.ok (), k)
    ((hr ℕ (fun n => (.ok (), n + 1)) id (fun _ => rfl) _).2 rfl)
  simp only [id, Prod.mk.injEq, true_and] at this
  omega

/-- The hypotheses of `C172_steps_partial` and `C172_never_ends`: an hour of steps of 0.05 s, and a billion years. -/
example : ∃ fl, Nearest fl ∧ (0.002 : ℝ) ≤ 0.05 ∧ |(3600 : ℝ) - (72000 : ℕ) * 0.05| ≤ 0.0005 ∧
    (((72000 : ℕ) : ℝ) + 1) ^ 2 * 0.05 ≤ 0.0002 * 2 ^ 53 ∧ (0 : ℝ) < 0.05 ∧ (2 : ℝ) ^ 55 * 0.05 < 2 ^ 55 :=
  ⟨rn, rn_nearest, by norm_num, by norm_num, by norm_num, by norm_num, by norm_num⟩

/-! ## C173 -/

/-- Rounding to an integer finds an integer closer than a half. -/
theorem roundHalfEven_near {x : ℝ} {k : ℤ} (h : |x - k| < 1 / 2) : JDay.roundHalfEven x = k := by
  rw [abs_lt] at h
  have h1 := Int.floor_add_fract x
  have h2 := Int.fract_nonneg x
  have h3 := Int.fract_lt_one x
  unfold JDay.roundHalfEven
  split_ifs with c1 c2 c3
  · have a : ((⌊x⌋ : ℤ) : ℝ) < k + 1 := by linarith
    have b : (k : ℝ) < (⌊x⌋ : ℤ) + 1 := by linarith
    have a' : ⌊x⌋ < k + 1 := by exact_mod_cast a
    have b' : k < ⌊x⌋ + 1 := by exact_mod_cast b
    omega
  · have a : ((⌊x⌋ : ℤ) : ℝ) < k := by linarith
    have b : (k : ℝ) < (⌊x⌋ : ℤ) + 2 := by linarith
    have a' : ⌊x⌋ < k := by exact_mod_cast a
    have b' : k < ⌊x⌋ + 2 := by exact_mod_cast b
    omega
  all_goals
    have e : Int.fract x = 1 / 2 := by linarith
    have a : ((⌊x⌋ : ℤ) : ℝ) < k := by linarith
    have b : (k : ℝ) < (⌊x⌋ : ℤ) + 1 := by linarith
    have a' : ⌊x⌋ < k := by exact_mod_cast a
    have b' : k < ⌊x⌋ + 1 := by exact_mod_cast b
    omega

theorem pyInt_near (x : ℝ) : |x - JDay.pyInt x| ≤ 1 := by
  unfold JDay.pyInt
  rw [abs_le]
  split_ifs
  · have := Int.ceil_lt_add_one x
    have := Int.le_ceil x
    constructor <;> linarith
  · have := Int.floor_le x
    have := Int.lt_floor_add_one x
    constructor <;> linarith

/-- C173: `timedelta(seconds=dt)` recovers the microseconds that the float `dt` was written for, up to 71 years. -/
theorem C173_timedelta {fl : ℝ → ℝ} (H : Nearest fl) {k : ℤ} (hk : |k| ≤ 2 ^ 51) :
    Fl.timedelta fl (fl (k / 1000000)) = k := by
  have hk' : |(k : ℝ)| ≤ 2 ^ 51 := by exact_mod_cast hk
  have hu : ulp = 1 / 9007199254740992 := by unfold ulp; norm_num
  have e1 := H.err ((k : ℝ) / 1000000)
  set x := fl ((k : ℝ) / 1000000)
  have p := pyInt_near x
  set q := JDay.pyInt x
  have e2 := H.err (1000000 * (x - q))
  have hx : |1000000 * x - k| ≤ 1 / 4 := by
    have : 1000000 * x - k = 1000000 * (x - k / 1000000) := by ring
    rw [this, abs_mul, abs_of_pos (by norm_num : (0 : ℝ) < 1000000)]
    rw [abs_div, abs_of_pos (by norm_num : (0 : ℝ) < 1000000), hu] at e1
    norm_num at hk'
    linarith
  have h3 : |fl (1000000 * (x - q)) - 1000000 * (x - q)| ≤ 1 / 8 := by
    rw [abs_mul, abs_of_pos (by norm_num : (0 : ℝ) < 1000000), hu] at e2
    linarith
  have : JDay.roundHalfEven (fl (1000000 * (x - q))) = k - 1000000 * q := by
    apply roundHalfEven_near
    rw [abs_le] at hx h3
    rw [abs_lt]
    push_cast
    constructor <;> linarith [hx.1, hx.2, h3.1, h3.2]
  unfold Fl.timedelta
  rw [this]; ring

/-- C173: a `JClock` does not drift: `n` ticks of a float step that stands for `k` microseconds advance it by exactly
`n * k` microseconds, as long as all the dates exist. -/
theorem C173_no_drift {fl : ℝ → ℝ} (H : Nearest fl) {k : ℤ} (hk : |k| ≤ 2 ^ 51) (c : JDay.JClock) (n : ℕ)
    (hr : ∀ j : ℕ, j < n → JDay.InRange (c.datetime + (j + 1) * k)) :
    ∀ j : ℕ, j < n → jtick fl { c with datetime := c.datetime + j * k } (fl (k / 1000000))
      = (.ok (), { c with datetime := c.datetime + (j + 1 : ℕ) * k }) := by
  intro j hj
  have := hr j hj
  simp only [jtick, C173_timedelta H hk]
  rw [show c.datetime + j * k + k = c.datetime + (j + 1) * k by ring, if_pos this]
  push_cast
  rfl

/-- C173: after `integrate` of up to 83 hours the clock of the simulator shows exactly the duration, although the counter of
the loop and the step 0.05 are rounded. -/
theorem C173_integrate {fl : ℝ → ℝ} (H : Nearest fl) (c : JDay.JClock) {n : ℕ} (hn : n ≤ 6000000)
    (hr : ∀ j : ℕ, j < n → JDay.InRange (c.datetime + (j + 1) * 50000)) (r : Py Unit × JDay.JClock) :
    Integrates fl (fun c => jtick fl c (fl 0.05)) (fl 0.05) (fl (n * 0.05)) c r ↔
      r = (.ok (), { c with datetime := c.datetime + n * 50000 }) := by
  have h05 : (((50000 : ℤ) : ℝ) / 1000000) = 0.05 := by norm_num
  have h := C173_no_drift H (k := 50000) (by norm_num) c n hr
  rw [h05] at h
  have := C172_simulator_partial H hn (st := fun j : ℕ => { c with datetime := c.datetime + j * 50000 })
    (update := fun c => jtick fl c (fl 0.05)) h r
  simpa using this

/-- The hypotheses of `C173_integrate`: an hour from noon on 1 January 2000. -/
example : ∀ j : ℕ, j < 72000 → JDay.InRange (JDay.refDatetime + (j + 1) * 50000) := by
  intro j hj
  have e : JDay.refDatetime = 63082411200000000 := by decide
  have u : JDay.usDay = 86400000000 := rfl
  rw [e, JDay.InRange, u]
  omega

end Adcs
