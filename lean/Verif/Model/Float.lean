import Verif.Py
import Verif.Model.JDay
import Verif.Model.SimQuat

set_option autoImplicit false

/-! # Floating-point arithmetic

The rest of the model computes with exact reals. Here the functions whose observable behaviour turns
on the last bits are modelled once more with the rounding of IEEE 754 binary64. Simplification:
the exponent range is unbounded, so overflow, underflow, infinities and nan are not modelled;
signed zeros are one zero. -/

namespace Adcs.Fl

open Adcs

/-- A binary64 number of unbounded exponent: an integer of at most 53 bits times a power of two. -/
def IsFloat (x : ℝ) : Prop := ∃ m e : ℤ, |m| < 2 ^ 53 ∧ x = m * (2 : ℝ) ^ e

/-- Half the distance of 1 from the next larger float. -/
noncomputable def ulp : ℝ := 1 / 2 ^ 53

/-- A rounding to nearest: the result is a float, and no float is closer to the argument. How ties
are broken is left open (IEEE 754 takes the even one). Python's `+ - * /`, `math.sqrt`, numpy's
elementwise operations and the conversion of decimal literals round the exact result this way. -/
structure Nearest (fl : ℝ → ℝ) : Prop where
  rep : ∀ x, IsFloat (fl x)
  near : ∀ x y, IsFloat y → |x - fl x| ≤ |x - y|

/-- `np.dot` of one-dimensional arrays as a BLAS may compute it: the products are added in any order
and any grouping, each product rounded or fused into an addition. -/
inductive Dot (fl : ℝ → ℝ) : List (ℝ × ℝ) → ℝ → Prop
  | nil : Dot fl [] 0
  | mul (x y : ℝ) : Dot fl [(x, y)] (fl (x * y))
  | fma {l : List (ℝ × ℝ)} {s : ℝ} (x y : ℝ) (h : Dot fl l s) : Dot fl ((x, y) :: l) (fl (x * y + s))
  | add {l l' : List (ℝ × ℝ)} {s s' : ℝ} (h : Dot fl l s) (h' : Dot fl l' s') :
      Dot fl (l ++ l') (fl (s + s'))
  | perm {l l' : List (ℝ × ℝ)} {s : ℝ} (p : l.Perm l') (h : Dot fl l s) : Dot fl l' s

/-- `np.linalg.norm(q)` of a one-dimensional array: `sqrt(q.dot(q))`. -/
def Norm (fl : ℝ → ℝ) {n : ℕ} (q : Fin n → ℝ) (r : ℝ) : Prop :=
  ∃ s, Dot fl (List.ofFn fun i => (q i, q i)) s ∧ r = fl (Real.sqrt s)

/-- `normalize(q)`, vector.py lines 43-61, with rounding: `r` is a possible result. -/
def Normalize (fl : ℝ → ℝ) {n : ℕ} (q r : Fin n → ℝ) : Prop :=
  ∃ N, Norm fl q N ∧ if N = 0 then r = q else ∀ i, r i = fl (q i / N)

/-- `normalize(q)` of simulation/Quaternions.py lines 17-19, with rounding, and equally line 99
(`q_total /= np.linalg.norm(q_total)`); a zero norm gives nan, which is no result here. -/
def SimNormalize (fl : ℝ → ℝ) (q r : V4) : Prop :=
  ∃ N, Norm fl q N ∧ N ≠ 0 ∧ ∀ i, r i = fl (q i / N)

/-- The raw product of `quat_mult`, simulation/Quaternions.py lines 24-28, with rounding: each
product is rounded, the sums are taken from left to right. -/
noncomputable def rawMult (fl : ℝ → ℝ) (p q : V4) : V4 :=
  let sub := fun a b => fl (a - b)
  let add := fun a b => fl (a + b)
  let mul := fun a b => fl (a * b)
  ![sub (add (add (mul (p 3) (q 0)) (mul (p 0) (q 3))) (mul (p 1) (q 2))) (mul (p 2) (q 1)),
    add (add (sub (mul (p 3) (q 1)) (mul (p 0) (q 2))) (mul (p 1) (q 3))) (mul (p 2) (q 0)),
    add (sub (add (mul (p 3) (q 2)) (mul (p 0) (q 1))) (mul (p 1) (q 0))) (mul (p 2) (q 3)),
    sub (sub (sub (mul (p 3) (q 3)) (mul (p 0) (q 0))) (mul (p 1) (q 1))) (mul (p 2) (q 2))]

/-- `quat_mult(q_rot, q_init)`, simulation/Quaternions.py lines 21-32, with rounding. -/
def QuatMult (fl : ℝ → ℝ) (qRot qInit r : V4) : Prop :=
  ∃ a b, SimNormalize fl qRot a ∧ SimNormalize fl qInit b ∧ SimNormalize fl (rawMult fl a b) r

/-- `quat_error(q_target, q_current)`, simulation/Quaternions.py lines 34-35, with rounding
(`quat_conjugate` only changes signs, which is exact). -/
def QuatError (fl : ℝ → ℝ) (qTarget qCurrent r : V4) : Prop :=
  QuatMult fl qTarget ![-qCurrent 0, -qCurrent 1, -qCurrent 2, qCurrent 3] r

/-- Lines 98-101 of simulation/Quaternions.py, the end of `rotation_sequence_to_quaternion`: normalise,
then `assert np.linalg.norm(q_total) == 1`. -/
def Finish (fl : ℝ → ℝ) (q : V4) (r : Py V4) : Prop :=
  ∃ a N, SimNormalize fl q a ∧ Norm fl a N ∧ r = if N = 1 then .ok a else .error .assertion

/-- `np.radians(x)`: the product with the rounded constant `pi / 180`. -/
noncomputable def radians (fl : ℝ → ℝ) (x : ℝ) : ℝ := fl (x * fl (fl Real.pi / 180))

/-- `axis_angle_to_quaternion(axis, angle_deg)`, simulation/Quaternions.py lines 40-47, with rounding. The
sine and the cosine are taken as correctly rounded; libraries may be off by a unit in the last place. -/
def AxisAngle (fl : ℝ → ℝ) (axis : V3) (deg : ℝ) (r : V4) : Prop :=
  ∃ N, Norm fl axis N ∧ N ≠ 0 ∧
    let s := fl (Real.sin (fl (radians fl deg / 2)))
    SimNormalize fl ![fl (fl (axis 0 / N) * s), fl (fl (axis 1 / N) * s), fl (fl (axis 2 / N) * s),
      fl (Real.cos (fl (radians fl deg / 2)))] r

/-- `rotation_sequence_to_quaternion(angles_deg, order)`, simulation/Quaternions.py lines 72-101, with
rounding, for three angles and three characters of `xyz` (other arguments are refused before any arithmetic, see
`Sim.rotationSequence`). -/
def RotationSequence (fl : ℝ → ℝ) (a1 a2 a3 : ℝ) (c1 c2 c3 : Char) (r : Py V4) : Prop :=
  ∃ x1 x2 x3 q1 q2 q3 t t', Sim.axisMap c1 = .ok x1 ∧ Sim.axisMap c2 = .ok x2 ∧
    Sim.axisMap c3 = .ok x3 ∧ AxisAngle fl x1 a1 q1 ∧ AxisAngle fl x2 a2 q2 ∧ AxisAngle fl x3 a3 q3 ∧
    QuatMult fl q3 q2 t ∧ QuatMult fl t q1 t' ∧ Finish fl t' r

/-- `error_angle(q_error)`, simulation/Quaternions.py lines 59-70, up to `acos`: the argument
of `acos`, which is nan outside of [-1, 1]. -/
noncomputable def acosArg (q : V4) : Py ℝ := if |q 3| ≤ 1 then .ok |q 3| else .error .nonFinite

/-- `quat_to_axis(q_error)`, simulation/Quaternions.py lines 49-57, with rounding; the square root is
nan for a negative argument. -/
def QuatToAxis (fl : ℝ → ℝ) (q : V4) (r : Py V3) : Prop :=
  ∃ a, SimNormalize fl q a ∧
    let d := fl (1 - fl (a 3 * a 3))
    r = if d < 0 then .error .nonFinite
      else if fl (Real.sqrt d) < fl 1e-6 then .ok ![1, 0, 0]
      else .ok ![fl (a 0 / fl (Real.sqrt d)), fl (a 1 / fl (Real.sqrt d)), fl (a 2 / fl (Real.sqrt d))]

/-- `saturation(x, x_max)`, vector.py lines 3-23, with rounding: `x_max * x / largest_x` rounds the
product and the quotient; `np.abs`, `np.max` and the comparison are exact. -/
noncomputable def saturation (fl : ℝ → ℝ) {n : ℕ} (x : Fin n → ℝ) (xMax : ℝ) : Py (Fin n → ℝ) :=
  match npMaxAbs x with
  | .error e => .error e
  | .ok largest =>
    if largest > xMax then
      if largest = 0 then .error .nonFinite else .ok fun i => fl (fl (xMax * x i) / largest)
    else .ok x

/-- Lines 158-163 of `Clock.tick` (jday.py) with rounding: the sums, the difference and the literal
`0.00001` are rounded. -/
noncomputable def tickSecond (fl : ℝ → ℝ) (c : JDay.Clock) (dt : ℝ) : JDay.Clock :=
  let c := { c with second := fl (c.second + dt), absolute := fl (c.absolute + dt) }
  if (c.leapSecond = false ∧ |fl (c.second - 60)| < fl 0.00001) ∨
      (c.leapSecond = true ∧ |fl (c.second - 61)| < fl 0.00001) then
    { c with second := 0, minute := c.minute + 1 }
  else c

/-- `Clock.tick`, jday.py lines 150-179, with rounding; the fields rolled in lines 165-179 are integers. -/
noncomputable def tick (fl : ℝ → ℝ) (c : JDay.Clock) (dt : ℝ) : JDay.Clock :=
  (tickSecond fl c dt).tickHour.tickDay

/-- `timedelta.total_seconds()`: a quotient of integers, rounded once. -/
noncomputable def totalSeconds (fl : ℝ → ℝ) (us : ℤ) : ℝ := fl (us / 1000000)

/-- `JClock.julian_date`, jday.py lines 292-295, with rounding. -/
noncomputable def julianDate (fl : ℝ → ℝ) (c : JDay.JClock) : ℝ :=
  fl (fl (totalSeconds fl (c.datetime - JDay.refDatetime) / 86400) + 2451545)

/-- `timedelta(seconds=dt)` in microseconds as CPython's `datetime` computes it from a float (`accum`): the whole seconds
exactly, the fraction times a million rounded to a float and then to the nearest integer, ties to even. -/
noncomputable def timedelta (fl : ℝ → ℝ) (dt : ℝ) : ℤ :=
  1000000 * JDay.pyInt dt + JDay.roundHalfEven (fl (1000000 * (dt - JDay.pyInt dt)))

/-- `JClock.tick`, jday.py lines 264-267, for a float `dt`. -/
noncomputable def jtick (fl : ℝ → ℝ) (c : JDay.JClock) (dt : ℝ) : Py Unit × JDay.JClock :=
  let t := c.datetime + timedelta fl dt
  if JDay.InRange t then (.ok (), { c with datetime := t }) else (.error .overflow, c)

/-- The condition on line 393 of dynamics.py, `t < duration or abs(t - duration) < 0.001`, with rounding. -/
def loopCond (fl : ℝ → ℝ) (t duration : ℝ) : Prop := t < duration ∨ |fl (t - duration)| < fl 0.001

/-- The loop of `Integrator.integrate`, dynamics.py lines 393-400, with a rounded counter `t`; `update` is whatever
`self.update(...)` does to the integrator. There is no derivation when the loop runs for ever. -/
inductive Loop {σ : Type} (fl : ℝ → ℝ) (update : σ → Py Unit × σ) (dt duration : ℝ) :
    ℝ → σ → Py Unit × σ → Prop
  | done {t s} : ¬ loopCond fl t duration → Loop fl update dt duration t s (.ok (), s)
  | raise {t s e s'} : loopCond fl t duration → update s = (.error e, s') →
      Loop fl update dt duration t s (.error e, s')
  | step {t s s' r} : loopCond fl t duration → update s = (.ok (), s') →
      Loop fl update dt duration (fl (t + dt)) s' r → Loop fl update dt duration t s r

/-- `Integrator.integrate(duration, zero_order_hold)`, dynamics.py lines 384-400, with rounding, ends in `r`. -/
def Integrates {σ : Type} (fl : ℝ → ℝ) (update : σ → Py Unit × σ) (dt duration : ℝ) (s : σ)
    (r : Py Unit × σ) : Prop := Loop fl update dt duration dt s r

end Adcs.Fl
