import Verif.Props.Avoidance

set_option autoImplicit false

/-! # C137: where the avoidance law acts, and its braking push -/

namespace Adcs

open Str Ctl Sens JDay Quat Vec Dyn
open scoped Matrix

/-! ## The regions, as set up by the constructor -/

/-- An instrument made by the constructor of `SensitiveInstrument`. -/
def FromConstructor (i : Instrument) : Prop :=
  ∃ (b : V3) (n : ℕ) (bounds : Fin n → ℝ) (forbidden : Fin n → Bool) (ids : List ℕ) (stop : ℝ) (g : Fin n → ℝ),
    i = Instrument.mk' b n bounds forbidden ids stop g

theorem setGains_region {i : Instrument} (hi : FromConstructor i) (g : ℝ) (k : Fin i.nBounds) :
    (setGains i Real.pi g).sigma k = |Real.cos (i.bounds k)| ∧
      (setGains i Real.pi g).iota k = |Real.cos (i.bounds k)| / 4 ∧ i.cosPsi k = Real.cos (i.bounds k) ∧
      (i.sign k = 1 ∨ i.sign k = -1) := by
  have hc : i.cosPsi k = Real.cos (i.bounds k) := by
    obtain ⟨b, n, bounds, forbidden, ids, stop, g', rfl⟩ := hi
    rfl
  have hs : i.sign k = 1 ∨ i.sign k = -1 := by
    obtain ⟨b, n, bounds, forbidden, ids, stop, g', rfl⟩ := hi
    simp only [Instrument.mk']
    split_ifs
    · exact Or.inr rfl
    · exact Or.inl rfl
  have hv : Real.cos (i.bounds k - i.sign k * Real.pi) = -Real.cos (i.bounds k) := by
    rcases hs with h | h <;> rw [h]
    · rw [one_mul, Real.cos_sub_pi]
    · rw [neg_one_mul, sub_neg_eq_add, Real.cos_add_pi]
  have hsig : (setGains i Real.pi g).sigma k = |Real.cos (i.bounds k)| := by
    change 0.5 * |Real.cos (i.bounds k - i.sign k * Real.pi) - i.cosPsi k| = _
    rw [hv, hc, show -Real.cos (i.bounds k) - Real.cos (i.bounds k) = -2 * Real.cos (i.bounds k) by ring, abs_mul]
    norm_num
    ring
  refine ⟨hsig, ?_, hc, hs⟩
  change 0.25 * (setGains i Real.pi g).sigma k = _
  rw [hsig]; ring

/-- In a controller made by its constructor an instrument with the exclusion half-angle `b` below a right angle
takes an object into account exactly when the object is less than `180° - b` from the boresight. -/
theorem C137_onset (model : CtlModel) (damping natFreq : ℝ) (c : RwController)
    (hc : RwController.init model damping natFreq = .ok c) (hb : ∀ i ∈ model.sat.instruments, FromConstructor i) :
    ∀ i ∈ c.instruments, ∀ k : Fin i.nBounds, k.1 ∈ i.objIds → i.sign k = -1 →
      0 < i.bounds k → i.bounds k < Real.pi / 2 →
      ∀ (o : V3) (θ : ℝ), 0 ≤ θ → θ ≤ Real.pi → npDot i.boresight o = Real.cos θ →
        (i.caresAbout k (margin i k o) = .ok true ↔ θ < Real.pi - i.bounds k) ∧
        (0 < margin i k o ↔ i.bounds k < θ) := by
  intro i hi k hk hsg h0 h1 o θ ht0 ht1 ho
  unfold RwController.init at hc
  split at hc
  · cases hc
  rename_i clock hclock
  simp only at hc
  split_ifs at hc with hd
  obtain rfl := Except.ok.inj hc
  obtain ⟨i0, hi0, rfl⟩ := List.mem_map.1 hi
  obtain ⟨hsig, -, hcos, -⟩ := setGains_region (hb i0 hi0) (2 * natFreq ^ 2 * 1) k
  have hpos : 0 < Real.cos (i0.bounds k) := Real.cos_pos_of_mem_Ioo ⟨by change 0 < i0.bounds k at h0; linarith [Real.pi_pos], h1⟩
  rw [abs_of_pos hpos] at hsig
  have hm : margin (setGains i0 Real.pi (2 * natFreq ^ 2 * 1)) k o = 0.5 * (Real.cos (i0.bounds k) - Real.cos θ) := by
    unfold margin
    rw [hsg, ho]
    change 0.5 * -1 * (Real.cos θ - i0.cosPsi k) = _
    rw [hcos]; ring
  have h0' : 0 < i0.bounds k := h0
  have h1' : i0.bounds k < Real.pi / 2 := h1
  constructor
  · unfold Instrument.caresAbout
    rw [if_pos hk, dif_pos k.2]
    simp only [Except.ok.injEq, decide_eq_true_eq]
    rw [hm]
    change _ < (setGains i0 Real.pi (2 * natFreq ^ 2 * 1)).sigma k ↔ θ < Real.pi - i0.bounds k
    rw [hsig]
    have e : Real.cos (Real.pi - i0.bounds k) = -Real.cos (i0.bounds k) := Real.cos_pi_sub _
    have := Real.strictAntiOn_cos.lt_iff_gt (a := Real.pi - i0.bounds k) (b := θ)
      ⟨by linarith [Real.pi_pos], by linarith⟩ ⟨ht0, ht1⟩
    rw [e] at this
    rw [← this]
    constructor <;> intro h <;> norm_num at h ⊢ <;> linarith
  · rw [hm]
    have := Real.strictAntiOn_cos.lt_iff_gt (a := θ) (b := i0.bounds k) ⟨ht0, ht1⟩ ⟨h0'.le, by linarith [Real.pi_pos]⟩
    change _ ↔ i0.bounds k < θ
    rw [← this]
    constructor <;> intro h <;> norm_num at h ⊢ <;> linarith

/-- An instrument that has to keep an object within an angle of cosine above `1/3` takes it into account at every
attitude. -/
theorem C137_inclusion (model : CtlModel) (damping natFreq : ℝ) (c : RwController)
    (hc : RwController.init model damping natFreq = .ok c) (hb : ∀ i ∈ model.sat.instruments, FromConstructor i) :
    ∀ i ∈ c.instruments, ∀ k : Fin i.nBounds, k.1 ∈ i.objIds → i.sign k = 1 → 1 / 3 < Real.cos (i.bounds k) →
      ∀ o : V3, npDot i.boresight o ≤ 1 → i.caresAbout k (margin i k o) = .ok true := by
  intro i hi k hk hsg h1 o ho
  unfold RwController.init at hc
  split at hc
  · cases hc
  rename_i clock hclock
  simp only at hc
  split_ifs at hc with hd
  obtain rfl := Except.ok.inj hc
  obtain ⟨i0, hi0, rfl⟩ := List.mem_map.1 hi
  obtain ⟨hsig, -, hcos, -⟩ := setGains_region (hb i0 hi0) (2 * natFreq ^ 2 * 1) k
  have h1' : 1 / 3 < Real.cos (i0.bounds k) := h1
  rw [abs_of_pos (by linarith)] at hsig
  unfold Instrument.caresAbout
  rw [if_pos hk, dif_pos k.2]
  simp only [Except.ok.injEq, decide_eq_true_eq]
  change _ < (setGains i0 Real.pi (2 * natFreq ^ 2 * 1)).sigma k
  rw [hsig]
  unfold margin
  rw [hsg]
  change 0.5 * 1 * (npDot i0.boresight o - i0.cosPsi k) < _
  have ho' : npDot i0.boresight o ≤ 1 := ho
  rw [hcos]
  norm_num
  linarith

/-! ## The push -/

/-- The same controller with the extra push of every instrument set to zero. -/
def quiet (i : Instrument) : Instrument := { i with push := fun _ => 0 }

/-- The controller without the extra push near the edge. -/
def withoutPush (c : RwController) : RwController := { c with instruments := c.instruments.map quiet }

/-- The margin used by the law: what violates the constraint counts as a small positive margin. -/
noncomputable def lawMargin (i : Instrument) (k : Fin i.nBounds) (o : V3) : ℝ :=
  if margin i k o ≤ 0 then 1e-4 else margin i k o

theorem npSign_mul_self (x : ℝ) : npSign x * x = |x| := by
  unfold npSign
  split_ifs with h1 h2
  · rw [abs_of_neg h1, neg_one_mul]
  · rw [h2]; simp
  · rw [abs_of_nonneg (not_lt.1 h1), one_mul]

theorem npSign_eq_zero {x : ℝ} : npSign x = 0 ↔ x = 0 := by
  unfold npSign
  split_ifs with h1 h2
  · simp [h1.ne]
  · simp [h2]
  · simp [h2]

theorem abs_npSign {x : ℝ} (h : x ≠ 0) : |npSign x| = 1 := by
  unfold npSign
  split_ifs <;> simp_all

/-- What a push by one object may be: it takes no work, turns about an axis at right angles to the error, and is
absent when the margin is not small. -/
structure IsPush (dq dw : V3) (p : V3) : Prop where
  work : 0 ≤ npDot dw p
  perp : npDot dq p = 0

theorem IsPush.zero (dq dw : V3) : IsPush dq dw 0 := ⟨by simp [npDot3], by simp [npDot3]⟩

theorem IsPush.add {dq dw p p' : V3} (h : IsPush dq dw p) (h' : IsPush dq dw p') : IsPush dq dw (p + p') := by
  have a := h.work; have b := h'.work; have a' := h.perp; have b' := h'.perp
  rw [npDot3] at a b a' b'
  constructor
  · rw [npDot3]; simp only [Pi.add_apply]; linarith
  · rw [npDot3]; simp only [Pi.add_apply]; linarith

theorem normalize_par {n : ℕ} (x : Fin n → ℝ) : ∃ a : ℝ, normalizeV x = a • x := by
  by_cases h : x = 0
  · exact ⟨0, by rw [h, normalize_zero, smul_zero]⟩
  · exact ⟨1 / npNorm x, by rw [normalize_eq h]; funext j; simp [div_eq_inv_mul]⟩

theorem push_isPush {i : Instrument} (k : Fin i.nBounds) (hp : 0 ≤ i.push k) (s : ℝ) (dq dw w : V3) :
    IsPush dq dw ((i.push k * (if npSign (npDot dw (normalizeV (s • npCross dq w))) ≠ 0 then
      npSign (npDot dw (normalizeV (s • npCross dq w))) else i.sign k)) • normalizeV (s • npCross dq w)) := by
  obtain ⟨a, ha⟩ := normalize_par (s • npCross dq w)
  set v := normalizeV (s • npCross dq w) with hv
  have hdot : ∀ (x : V3) (r : ℝ), npDot x (r • v) = r * npDot x v := by
    intro x r; rw [npDot3, npDot3]; simp only [Pi.smul_apply, smul_eq_mul]; ring
  constructor
  · rw [hdot, mul_assoc]
    refine mul_nonneg hp ?_
    split_ifs with h
    · rw [npSign_mul_self]; exact abs_nonneg _
    · have : npDot dw v = 0 := by
        exact npSign_eq_zero.1 (not_not.1 h)
      rw [this, mul_zero]
  · rw [hdot]
    have : npDot dq v = 0 := by
      rw [ha, npDot3]
      simp only [Pi.smul_apply, smul_eq_mul, npCross_0, npCross_1, npCross_2]
      ring
    rw [this, mul_zero]

/-- Two runs of the loop that differ only in the accumulated push. -/
structure Apart (p : V3) (z z' : Zone) : Prop where
  c : z.c = z'.c
  axis : z.axis = z'.axis
  nudge : z.nudge = z'.nudge - p

theorem zoneStep_push {i : Instrument} (hp : ∀ k, 0 ≤ i.push k) {s : ℝ} {dq dw : V3} {j : ℕ} {o : V3} {z z' : Zone} {p : V3}
    (hA : Apart p z z') (h : IsPush dq dw p) {z1 : Zone} (h1 : zoneStep i s dq dw j o z = .ok z1) :
    ∃ z1' p1, zoneStep (quiet i) s dq dw j o z' = .ok z1' ∧ Apart p1 z1 z1' ∧ IsPush dq dw p1 ∧
      ((∀ hj : j < i.nBounds, j ∈ i.objIds → i.iota ⟨j, hj⟩ ≤ lawMargin i ⟨j, hj⟩ o) → p1 = p) := by
  unfold zoneStep at h1 ⊢
  by_cases hj : j < i.nBounds
  swap
  · rw [dif_neg hj] at h1; cases h1
  have hj' : j < (quiet i).nBounds := hj
  rw [dif_pos hj] at h1
  rw [dif_pos hj']
  simp only [Instrument.caresAbout, dif_pos hj, dif_pos hj'] at h1 ⊢
  change ∃ z1' p1, (match if j ∈ i.objIds then (.ok (decide (0.5 * i.sign ⟨j, hj⟩ * (npDot i.boresight o - i.cosPsi ⟨j, hj⟩) < i.sigma ⟨j, hj⟩)) : Py Bool)
    else .ok false with
    | .error e => _
    | .ok false => _
    | .ok true => _) = Except.ok z1' ∧ _
  by_cases hm : j ∈ i.objIds
  swap
  · simp only [if_neg hm] at h1 ⊢
    obtain rfl := Except.ok.inj h1
    exact ⟨z', p, rfl, hA, h, fun _ => rfl⟩
  by_cases hlt : 0.5 * i.sign ⟨j, hj⟩ * (npDot i.boresight o - i.cosPsi ⟨j, hj⟩) < i.sigma ⟨j, hj⟩
  swap
  · simp only [if_pos hm, hlt, decide_false] at h1 ⊢
    obtain rfl := Except.ok.inj h1
    exact ⟨z', p, rfl, hA, h, fun _ => rfl⟩
  simp only [if_pos hm, hlt, decide_true] at h1 ⊢
  have el : (if 0.5 * i.sign ⟨j, hj⟩ * (npDot i.boresight o - i.cosPsi ⟨j, hj⟩) ≤ 0 then (1e-4 : ℝ)
    else 0.5 * i.sign ⟨j, hj⟩ * (npDot i.boresight o - i.cosPsi ⟨j, hj⟩)) = lawMargin i ⟨j, hj⟩ o := rfl
  rw [el] at h1
  change ∃ z1' p1, (match npLog (lawMargin i ⟨j, hj⟩ o) with
    | .error e => _
    | .ok l => match npDiv (i.gains ⟨j, hj⟩ * i.sign ⟨j, hj⟩) (lawMargin i ⟨j, hj⟩ o) with
      | .error e => _
      | .ok g => Except.ok (Zone.mk (z'.c - i.gains ⟨j, hj⟩ * l) (z'.axis + g • npCross i.boresight o)
          (if lawMargin i ⟨j, hj⟩ o < i.iota ⟨j, hj⟩ then z'.nudge - ((0 : ℝ) * _) • _ else z'.nudge))) = Except.ok z1' ∧ _
  have hpos : 0 < lawMargin i ⟨j, hj⟩ o := by
    unfold lawMargin; split_ifs with hh
    · norm_num
    · exact not_le.1 hh
  simp only [npLog, if_pos hpos, npDiv, if_neg hpos.ne'] at h1 ⊢
  obtain rfl := Except.ok.inj h1
  by_cases hn : lawMargin i ⟨j, hj⟩ o < i.iota ⟨j, hj⟩
  · simp only [if_pos hn]
    refine ⟨_, _, rfl, ⟨by rw [hA.c], by rw [hA.axis], ?_⟩, h.add (push_isPush ⟨j, hj⟩ (hp _) s dq dw (npCross i.boresight o)), ?_⟩
    · simp only [zero_mul, zero_smul, sub_zero]
      rw [hA.nudge, sub_sub]
    · intro hfar
      exact absurd hn (not_lt.2 (hfar hj hm))
  · simp only [if_neg hn]
    exact ⟨_, p, rfl, ⟨by rw [hA.c], by rw [hA.axis], hA.nudge⟩, h, fun _ => rfl⟩

/-- The objects from number `j` on leave the instrument a margin of at least `iota`. -/
def Far (i : Instrument) (objs : List V3) (j : ℕ) : Prop :=
  ∀ (m : ℕ) (o : V3), objs[m]? = some o → ∀ hj : j + m < i.nBounds, j + m ∈ i.objIds →
    i.iota ⟨j + m, hj⟩ ≤ lawMargin i ⟨j + m, hj⟩ o

theorem zoneObjects_push {i : Instrument} (hp : ∀ k, 0 ≤ i.push k) {s : ℝ} {dq dw : V3} (objs : List V3) {j : ℕ}
    {z z' : Zone} {p : V3} (hA : Apart p z z') (h : IsPush dq dw p) {z1 : Zone}
    (h1 : zoneObjects i s dq dw j objs z = .ok z1) :
    ∃ z1' p1, zoneObjects (quiet i) s dq dw j objs z' = .ok z1' ∧ Apart p1 z1 z1' ∧ IsPush dq dw p1 ∧
      (Far i objs j → p1 = p) := by
  induction objs generalizing j z z' p with
  | nil =>
    obtain rfl := Except.ok.inj h1
    exact ⟨z', p, rfl, hA, h, fun _ => rfl⟩
  | cons o l ih =>
    rw [zoneObjects] at h1
    cases h2 : zoneStep i s dq dw j o z with
    | error e => rw [h2] at h1; cases h1
    | ok z2 =>
      rw [h2] at h1
      obtain ⟨z2', p2, e2, A2, P2, F2⟩ := zoneStep_push hp hA h h2
      obtain ⟨z3', p3, e3, A3, P3, F3⟩ := ih A2 P2 h1
      refine ⟨z3', p3, by rw [zoneObjects, e2]; exact e3, A3, P3, fun hF => ?_⟩
      rw [F3, F2]
      · intro hj hm
        exact hF 0 o rfl hj hm
      · intro m o' hm hj hmem
        have := hF (m + 1) o' (by simpa using hm)
        have e : j + (m + 1) = j + 1 + m := by ring
        simp only [e] at this
        exact this hj hmem

theorem zoneInstruments_push {s : ℝ} {dq dw : V3} {objs : List V3} (ins : List Instrument)
    (hp : ∀ i ∈ ins, ∀ k, 0 ≤ i.push k) {z z' : Zone} {p : V3} (hA : Apart p z z') (h : IsPush dq dw p) {z1 : Zone}
    (h1 : zoneInstruments s dq dw objs ins z = .ok z1) :
    ∃ z1' p1, zoneInstruments s dq dw objs (ins.map quiet) z' = .ok z1' ∧ Apart p1 z1 z1' ∧ IsPush dq dw p1 ∧
      ((∀ i ∈ ins, Far i objs 0) → p1 = p) := by
  induction ins generalizing z z' p with
  | nil =>
    obtain rfl := Except.ok.inj h1
    exact ⟨z', p, rfl, hA, h, fun _ => rfl⟩
  | cons i l ih =>
    rw [zoneInstruments] at h1
    cases h2 : zoneObjects i s dq dw 0 objs z with
    | error e => rw [h2] at h1; cases h1
    | ok z2 =>
      rw [h2] at h1
      obtain ⟨z2', p2, e2, A2, P2, F2⟩ := zoneObjects_push (hp i List.mem_cons_self) objs hA h h2
      obtain ⟨z3', p3, e3, A3, P3, F3⟩ := ih (fun k hk => hp k (List.mem_cons_of_mem _ hk)) A2 P2 h1
      refine ⟨z3', p3, by rw [List.map_cons, zoneInstruments, e2]; exact e3, A3, P3, fun hF => ?_⟩
      rw [F3 fun k hk => hF k (List.mem_cons_of_mem _ hk), F2 (hF i List.mem_cons_self)]

/-- The push near the edge of the allowed region never does work on the rate error, and turns about an axis at
right angles to the axis of the attitude error: it cannot speed the satellite up nor change the component of the
command along that axis. When every margin is at least the instrument's `iota` there is no push at all. -/
theorem C137_push (c : RwController) (hp : ∀ i ∈ c.instruments, ∀ k, 0 ≤ i.push k) (delQ : V4) (delOmega : V3)
    (objs : List V3) (u : V3) (c' : RwController) (h : c.allowableZone delQ delOmega objs = (.ok u, c')) :
    ∃ u0, ((withoutPush c).allowableZone delQ delOmega objs).1 = .ok u0 ∧
      npDot delOmega (u - u0) ≤ 0 ∧ npDot (vecPart delQ) (u - u0) = 0 ∧
      ((∀ i ∈ c.instruments, Far i objs 0) → u = u0) := by
  unfold RwController.allowableZone at h ⊢
  simp only [withoutPush] at h ⊢
  set s := (c.trigger.sign (delQ 0)).1 with hs
  cases h2 : zoneInstruments s (vecPart delQ) delOmega objs c.instruments ⟨c.alpha, 0, 0⟩ with
  | error e => rw [h2] at h; cases (Prod.mk.inj h).1
  | ok z =>
    rw [h2] at h
    obtain ⟨z', p, e, hA, hP, hF⟩ := zoneInstruments_push c.instruments hp (z' := ⟨c.alpha, 0, 0⟩) (p := 0)
      ⟨rfl, rfl, by simp⟩ (IsPush.zero _ _) h2
    have hu := Except.ok.inj (Prod.mk.inj h).1
    simp only [e]
    refine ⟨_, rfl, ?_⟩
    have hd : u - ((-s * z'.c) • vecPart delQ + (0.5 * (1 - s * delQ 0)) • z'.axis + z'.nudge) = -p := by
      rw [← hu, hA.c, hA.axis, hA.nudge]; abel
    have hneg : ∀ x : V3, npDot x (-p) = -npDot x p := by
      intro x; rw [npDot3, npDot3]; simp only [Pi.neg_apply]; ring
    rw [hd, hneg, hneg, hP.perp]
    refine ⟨neg_nonpos.2 hP.work, neg_zero, fun hfar => ?_⟩
    rw [hF hfar, neg_zero] at hd
    exact sub_eq_zero.1 hd

/-- The push of one instrument by one object near the edge of its region: of size `push`, about the axis at right
angles to the error axis and to the axis that turns the boresight towards the object, against the rate error. -/
theorem C137_one (c : RwController) (i : Instrument) (hc : c.instruments = [i]) (h0 : 0 < i.nBounds) (hm : 0 ∈ i.objIds)
    (delQ : V4) (delOmega o : V3) (hs : (c.trigger.sign (delQ 0)).1 ≠ 0)
    (hm0 : 0 < margin i ⟨0, h0⟩ o) (hm1 : margin i ⟨0, h0⟩ o < i.iota ⟨0, h0⟩) (hm2 : margin i ⟨0, h0⟩ o < i.sigma ⟨0, h0⟩)
    (hax : npCross (vecPart delQ) (npCross i.boresight o) ≠ 0) :
    ∃ u u0 c', c.allowableZone delQ delOmega [o] = (.ok u, c') ∧
      ((withoutPush c).allowableZone delQ delOmega [o]).1 = .ok u0 ∧
      npNorm (u - u0) = |i.push ⟨0, h0⟩| * |if npDot delOmega (npCross (vecPart delQ) (npCross i.boresight o)) = 0 then
        i.sign ⟨0, h0⟩ else 1| ∧
      npDot delOmega (u - u0) = -(i.push ⟨0, h0⟩ *
        |npDot delOmega (normalizeV (npCross (vecPart delQ) (npCross i.boresight o)))|) := by
  set s := (c.trigger.sign (delQ 0)).1 with hsd
  set dq := vecPart delQ with hdq
  set X := npCross dq (npCross i.boresight o) with hX
  have hsX : s • X ≠ 0 := smul_ne_zero hs hax
  have em : (0.5 * i.sign ⟨0, h0⟩ * (npDot i.boresight o - i.cosPsi ⟨0, h0⟩)) = margin i ⟨0, h0⟩ o := rfl
  set v := normalizeV (s • X) with hv
  set dir := (if npSign (npDot delOmega v) ≠ 0 then npSign (npDot delOmega v) else i.sign ⟨0, h0⟩) with hdir
  have z1 : ∀ z, zoneStep i s dq delOmega 0 o z = .ok ⟨z.c - i.gains ⟨0, h0⟩ * Real.log (margin i ⟨0, h0⟩ o),
      z.axis + (i.gains ⟨0, h0⟩ * i.sign ⟨0, h0⟩ / margin i ⟨0, h0⟩ o) • npCross i.boresight o,
      z.nudge - (i.push ⟨0, h0⟩ * dir) • v⟩ := by
    intro z
    unfold zoneStep
    rw [dif_pos h0]
    simp only [Instrument.caresAbout, dif_pos h0, if_pos hm, em, hm2, decide_true, if_neg (not_le.2 hm0), npLog,
      if_pos hm0, npDiv, if_neg hm0.ne', if_pos hm1]
    rfl
  have z2 : ∀ z, zoneStep (quiet i) s dq delOmega 0 o z = .ok ⟨z.c - i.gains ⟨0, h0⟩ * Real.log (margin i ⟨0, h0⟩ o),
      z.axis + (i.gains ⟨0, h0⟩ * i.sign ⟨0, h0⟩ / margin i ⟨0, h0⟩ o) • npCross i.boresight o, z.nudge⟩ := by
    intro z
    have h0' : 0 < (quiet i).nBounds := h0
    unfold zoneStep
    rw [dif_pos h0']
    have hm' : 0 ∈ (quiet i).objIds := hm
    have em' : (0.5 * (quiet i).sign ⟨0, h0'⟩ * (npDot (quiet i).boresight o - (quiet i).cosPsi ⟨0, h0'⟩)) =
      margin i ⟨0, h0⟩ o := rfl
    have hm2' : margin i ⟨0, h0⟩ o < (quiet i).sigma ⟨0, h0'⟩ := hm2
    have hm1' : margin i ⟨0, h0⟩ o < (quiet i).iota ⟨0, h0'⟩ := hm1
    have hp' : (quiet i).push ⟨0, h0'⟩ = 0 := rfl
    simp only [Instrument.caresAbout, dif_pos h0', if_pos hm', em', hm2', decide_true, if_neg (not_le.2 hm0), npLog,
      if_pos hm0, npDiv, if_neg hm0.ne', if_pos hm1', hp', zero_mul, zero_smul, sub_zero]
    rfl
  have hvn : npNorm v = 1 := npNorm_normalize hsX
  have hdot : ∀ (x y : V3) (r : ℝ), npDot x (r • y) = r * npDot x y := by
    intro x y r; rw [npDot3, npDot3]; simp only [Pi.smul_apply, smul_eq_mul]; ring
  have hnX := npNorm_pos hax
  have hvX : v = (s / (|s| * npNorm X)) • X := by
    rw [hv, normalize_eq hsX, npNorm_smul]
    funext j
    simp only [Pi.smul_apply, smul_eq_mul]
    ring
  have hN : normalizeV X = (1 / npNorm X) • X := by
    rw [normalize_eq hax]; funext j; simp only [Pi.smul_apply, smul_eq_mul]; ring
  have hzero : npDot delOmega v = 0 ↔ npDot delOmega X = 0 := by
    rw [hvX, hdot, mul_eq_zero, or_iff_right]
    exact div_ne_zero hs (mul_ne_zero (abs_ne_zero.2 hs) hnX.ne')
  have habs : |npDot delOmega v| = |npDot delOmega (normalizeV X)| := by
    rw [hvX, hN, hdot, hdot, abs_mul, abs_mul, abs_div, abs_mul, abs_abs, abs_div, abs_one, abs_of_pos hnX]
    have := abs_pos.2 hs
    field_simp
  have hsg0 : npSign (npDot delOmega v) = 0 ↔ npDot delOmega v = 0 := npSign_eq_zero
  have hout : ∃ u u0 c', c.allowableZone delQ delOmega [o] = (.ok u, c') ∧
      ((withoutPush c).allowableZone delQ delOmega [o]).1 = .ok u0 ∧ u - u0 = -((i.push ⟨0, h0⟩ * dir) • v) := by
    unfold RwController.allowableZone withoutPush
    simp only [← hsd, ← hdq, hc, List.map_cons, List.map_nil, zoneInstruments, zoneObjects, z1, z2]
    refine ⟨_, _, _, rfl, rfl, ?_⟩
    abel
  obtain ⟨u, u0, c', e1, e2, e3⟩ := hout
  refine ⟨u, u0, c', e1, e2, ?_, ?_⟩
  · rw [e3, ← neg_smul, npNorm_smul, hvn, mul_one, abs_neg, abs_mul]
    congr 1
    by_cases hz : npDot delOmega X = 0
    · rw [if_pos hz, hdir, if_neg (not_not.2 (hsg0.2 (hzero.2 hz)))]
    · have hz' : npDot delOmega v ≠ 0 := fun h => hz (hzero.1 h)
      rw [if_neg hz, hdir, if_pos (fun h => hz' (hsg0.1 h)), abs_one]
      exact abs_npSign hz'
  · rw [e3, ← neg_smul, hdot, neg_mul, mul_assoc, ← habs]
    congr 2
    by_cases hz : npDot delOmega v = 0
    · rw [hz]; simp
    · rw [hdir, if_pos (fun h => hz (hsg0.1 h)), npSign_mul_self]

/-- In a controller made by its constructor: the gains of every instrument are `2 natFreq²`, the push `natFreq²`, and
the push is absent as long as the margin to every object is at least a quarter of the cosine of the bound. -/
theorem C137_constructed (model : CtlModel) (damping natFreq : ℝ) (c : RwController)
    (hc : RwController.init model damping natFreq = .ok c) (hb : ∀ i ∈ model.sat.instruments, FromConstructor i)
    (delQ : V4) (delOmega : V3) (objs : List V3) (u : V3) (c' : RwController)
    (h : c.allowableZone delQ delOmega objs = (.ok u, c')) :
    (∀ i ∈ c.instruments, ∀ k, i.gains k = 2 * natFreq ^ 2 ∧ i.push k = natFreq ^ 2) ∧
    ∃ u0, ((withoutPush c).allowableZone delQ delOmega objs).1 = .ok u0 ∧
      npDot delOmega (u - u0) ≤ 0 ∧ npDot (vecPart delQ) (u - u0) = 0 ∧
      ((∀ i ∈ c.instruments, ∀ (m : ℕ) (o : V3), objs[m]? = some o → ∀ hm : m < i.nBounds, m ∈ i.objIds →
        0 < margin i ⟨m, hm⟩ o ∧ |Real.cos (i.bounds ⟨m, hm⟩)| / 4 ≤ margin i ⟨m, hm⟩ o) → u = u0) := by
  have hins : c.instruments = model.sat.instruments.map fun i => setGains i Real.pi (2 * natFreq ^ 2 * 1) := by
    unfold RwController.init at hc
    split at hc
    · cases hc
    simp only at hc
    split_ifs at hc with hd
    obtain rfl := Except.ok.inj hc
    rfl
  have hg : ∀ i ∈ c.instruments, ∀ k, i.gains k = 2 * natFreq ^ 2 ∧ i.push k = natFreq ^ 2 := by
    intro i hi k
    rw [hins] at hi
    obtain ⟨i0, hi0, rfl⟩ := List.mem_map.1 hi
    refine ⟨?_, ?_⟩
    · change 2 * natFreq ^ 2 * 1 = _; ring
    · change 2 * natFreq ^ 2 * 1 * 0.5 = _; norm_num; ring
  refine ⟨hg, ?_⟩
  obtain ⟨u0, e, w, q, far⟩ := C137_push c (fun i hi k => by rw [(hg i hi k).2]; positivity) delQ delOmega objs u c' h
  refine ⟨u0, e, w, q, fun hM => far ?_⟩
  intro i hi m o ho hm hmem
  have hm' : m < i.nBounds := by simpa using hm
  have hmem' : m ∈ i.objIds := by simpa using hmem
  obtain ⟨hp, hq⟩ := hM i hi m o ho hm' hmem'
  rw [hins] at hi
  obtain ⟨i0, hi0, rfl⟩ := List.mem_map.1 hi
  have hz : (⟨0 + m, hm⟩ : Fin (setGains i0 Real.pi (2 * natFreq ^ 2 * 1)).nBounds) = ⟨m, hm'⟩ := by simp
  rw [hz]
  have := (setGains_region (hb i0 hi0) (2 * natFreq ^ 2 * 1) ⟨m, hm'⟩).2.1
  refine le_trans (le_of_eq this) ?_
  rw [lawMargin, if_neg (not_le.2 hp)]
  exact hq

/-- A controller with one instrument that must stay 60 degrees from the sun, built by the constructors. -/
example : ∃ (model : CtlModel) (c : RwController), RwController.init model 1 1 = .ok c ∧
    (∀ i ∈ model.sat.instruments, FromConstructor i) ∧ ∃ i ∈ c.instruments, ∃ k : Fin i.nBounds, k.1 ∈ i.objIds ∧ i.sign k = -1 ∧
      0 < i.bounds k ∧ i.bounds k < Real.pi / 2 := by
  obtain ⟨sat, -, -, -, -, h, -⟩ := exSat3 false [exInstrument]
  have hb : (setGains exInstrument Real.pi 2).bounds (0 : Fin 2) = Real.pi / 3 := by
    change npRadians 60 = _
    unfold npRadians; ring
  refine ⟨⟨sat, some exClock, none⟩, _, by unfold RwController.init; simp only [mul_one]; rw [if_neg one_ne_zero], ?_, ?_⟩
  · intro i hi
    simp only [h, List.mem_singleton] at hi
    subst hi
    exact ⟨_, _, _, _, _, _, _, rfl⟩
  · refine ⟨setGains exInstrument Real.pi 2, ?_, (0 : Fin 2), ?_, rfl, ?_, ?_⟩
    · simp [h]
    · simp [exInstrument, Instrument.mk', setGains]
    · rw [hb]; positivity
    · rw [hb]; linarith [Real.pi_pos]

/-- An object in the region of the push: 72 degrees from the boresight, against a bound of 60 degrees. -/
example : 0 < margin exInstrument ⟨0, by decide⟩ ![0.3, 0.9539, 0] ∧
    margin exInstrument ⟨0, by decide⟩ ![0.3, 0.9539, 0] < exInstrument.iota ⟨0, by decide⟩ ∧
    margin exInstrument ⟨0, by decide⟩ ![0.3, 0.9539, 0] < exInstrument.sigma ⟨0, by decide⟩ ∧
    npCross (vecPart ![0.6, 0.8, 0, 0]) (npCross exInstrument.boresight ![0.3, 0.9539, 0]) ≠ 0 := by
  have hi : exInstrument.iota ⟨0, by decide⟩ = 1 / 8 := by
    change 0.25 * exInstrument.sigma ⟨0, by decide⟩ = _
    rw [exInstrument_sigma]; norm_num
  rw [exInstrument_margin, hi, exInstrument_sigma]
  have hbo : exInstrument.boresight = ![1, 0, 0] := rfl
  refine ⟨by norm_num, by norm_num, by norm_num, fun h => ?_⟩
  have := congrFun h 1
  simp [npCross_0, npCross_1, npCross_2, hbo, vecPart_0, vecPart_2] at this
  norm_num at this

end Adcs
