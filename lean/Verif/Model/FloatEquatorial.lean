import Verif.Model.Float

set_option autoImplicit false

/-! # `_quat2equatorial` in floating-point arithmetic -/

namespace Adcs.Fl

open Adcs

/-- `np.arctan2(y, x)` of a C library: a float within two roundings of the angle, that is one unit in the last place, and
not beyond the floats next to a half and a quarter turn. -/
structure Atan2 (fl : ℝ → ℝ) (A : ℝ → ℝ → ℝ) : Prop where
  rep : ∀ y x, IsFloat (A y x)
  near : ∀ y x, |A y x - npArctan2 y x| ≤ 2 * ulp * |npArctan2 y x|
  turn : ∀ y x, |A y x| ≤ fl Real.pi
  half : ∀ y x, 0 ≤ x → |A y x| ≤ fl (Real.pi / 2)

/-- `np.degrees(x)`: the product with the rounded constant `180 / pi`. -/
noncomputable def degrees (fl : ℝ → ℝ) (x : ℝ) : ℝ := fl (x * fl (180 / fl Real.pi))

/-- `xa` of line 197 of quaternion.py, with rounding; sums are taken from left to right. -/
noncomputable def eqXa (fl : ℝ → ℝ) (q : V4) : ℝ :=
  fl (fl (fl (fl (q 0 * q 0) - fl (q 1 * q 1)) - fl (q 2 * q 2)) + fl (q 3 * q 3))

/-- `xb` of line 198. -/
noncomputable def eqXb (fl : ℝ → ℝ) (q : V4) : ℝ := fl (2 * fl (fl (q 0 * q 1) + fl (q 2 * q 3)))

/-- `xn` of line 199. -/
noncomputable def eqXn (fl : ℝ → ℝ) (q : V4) : ℝ := fl (2 * fl (fl (q 0 * q 2) - fl (q 1 * q 3)))

/-- `yn` of line 200. -/
noncomputable def eqYn (fl : ℝ → ℝ) (q : V4) : ℝ := fl (2 * fl (fl (q 1 * q 2) + fl (q 0 * q 3)))

/-- `zn` of line 201. -/
noncomputable def eqZn (fl : ℝ → ℝ) (q : V4) : ℝ :=
  fl (fl (fl (fl (q 3 * q 3) + fl (q 2 * q 2)) - fl (q 0 * q 0)) - fl (q 1 * q 1))

/-- Lines 217 and 218 of quaternion.py: negative angles are incremented by 360. -/
noncomputable def wrap (fl : ℝ → ℝ) (x : ℝ) : ℝ := if x < 0 then fl (x + 360) else x

/-- `_quat2equatorial(q)`, quaternion.py lines 184-222, for a single quaternion, with rounding; `A` is `np.arctan2`; the root
of a negative number, nan in numpy, is an error here. -/
noncomputable def quat2equatorial (fl : ℝ → ℝ) (A : ℝ → ℝ → ℝ) (q : V4) : Py V3 :=
  let oneMinusXn2 := fl (1 - fl (eqXn fl q * eqXn fl q))
  if oneMinusXn2 < -fl 1e-12 then .error .valueError
  else
    let om := if oneMinusXn2 < 0 then 0 else oneMinusXn2
    if om < 0 then .error .nonFinite
    else
      let ra := degrees fl (A (eqXb fl q) (eqXa fl q))
      let dec := degrees fl (A (eqXn fl q) (fl (Real.sqrt om)))
      let roll := degrees fl (A (eqYn fl q) (eqZn fl q))
      .ok ![wrap fl ra, dec, wrap fl roll]

end Adcs.Fl
