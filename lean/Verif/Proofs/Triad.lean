import Verif.Proofs.Quat
import Verif.Model.AttEst

set_option autoImplicit false

set_option linter.unusedSimpArgs false

/-! # Vector identities behind the TRIAD quaternion -/

namespace Adcs

open Vec Quat

section
variable (b r v w : V3) (α β : ℝ)

/-- The quaternion `α·[d; b×r] + β·[0; b+r]` with `d = 1 + b·r`. -/
def triadQuat : V4 :=
  ![α * (1 + npDot b r),
    α * npCross b r 0 + β * (b 0 + r 0),
    α * npCross b r 1 + β * (b 1 + r 1),
    α * npCross b r 2 + β * (b 2 + r 2)]

/-- Image direction of a vector orthogonal to `r` under the shortest rotation `r ↦ b`. -/
def triadImg : V3 := (1 + npDot b r) • v - npDot b v • (b + r)

variable {b r v w α β}

theorem triadQuat_sumSq (hb : IsUnit3 b) (hr : IsUnit3 r) :
    triadQuat b r α β 0 ^ 2 + triadQuat b r α β 1 ^ 2 + triadQuat b r α β 2 ^ 2 +
      triadQuat b r α β 3 ^ 2 = (α ^ 2 + β ^ 2) * (2 * (1 + npDot b r)) := by
  unfold IsUnit3 at hb hr
  simp only [triadQuat, npDot3, npCross_0, npCross_1, npCross_2]
  simp
  grind

theorem triadQuat_first (hb : IsUnit3 b) (hr : IsUnit3 r) :
    sandwich (triadQuat b r α β) r = ((α ^ 2 + β ^ 2) * (2 * (1 + npDot b r))) • b := by
  unfold IsUnit3 at hb hr
  apply vec3_ext
  · rw [sandwich_0]
    simp only [triadQuat, npDot3, npCross_0, npCross_1, npCross_2]
    simp
    grind
  · rw [sandwich_1]
    simp only [triadQuat, npDot3, npCross_0, npCross_1, npCross_2]
    simp
    grind
  · rw [sandwich_2]
    simp only [triadQuat, npDot3, npCross_0, npCross_1, npCross_2]
    simp
    grind

theorem triadQuat_second (hb : IsUnit3 b) (hr : IsUnit3 r) (hv : npDot r v = 0) :
    sandwich (triadQuat b r α β) v =
      (2 * (α ^ 2 - β ^ 2)) • triadImg b r v + (4 * α * β) • npCross (triadImg b r v) b := by
  unfold IsUnit3 at hb hr
  rw [npDot3] at hv
  apply vec3_ext
  · rw [sandwich_0]
    simp only [triadQuat, triadImg, npDot3, npCross_0, npCross_1, npCross_2]
    simp [npDot3, npCross_0, npCross_1, npCross_2]
    grind
  · rw [sandwich_1]
    simp only [triadQuat, triadImg, npDot3, npCross_0, npCross_1, npCross_2]
    simp [npDot3, npCross_0, npCross_1, npCross_2]
    grind
  · rw [sandwich_2]
    simp only [triadQuat, triadImg, npDot3, npCross_0, npCross_1, npCross_2]
    simp [npDot3, npCross_0, npCross_1, npCross_2]
    grind

theorem plane_decomp {e : V3} (hb : IsUnit3 b) (he : npDot e b = 0) (hw : npDot w b = 0) :
    npDot w e • e + npDot w (npCross e b) • npCross e b = npDot e e • w := by
  unfold IsUnit3 at hb
  rw [npDot3] at he hw
  apply vec3_ext <;> simp [npDot3, npCross_0, npCross_1, npCross_2] <;> grind

theorem triadImg_orth (hb : IsUnit3 b) : npDot (triadImg b r v) b = 0 := by
  unfold IsUnit3 at hb
  simp [triadImg, npDot3]; grind

theorem triadImg_sq (hb : IsUnit3 b) (hr : IsUnit3 r) (hv : npDot r v = 0) :
    npDot (triadImg b r v) (triadImg b r v) = (1 + npDot b r) ^ 2 * npDot v v := by
  unfold IsUnit3 at hb hr
  rw [npDot3] at hv
  simp [triadImg, npDot3]; grind

theorem triadImg_mu : npDot w (triadImg b r v) =
    (1 + npDot b r) * npDot w v - npDot b v * (npDot w b + npDot r w) := by
  simp [triadImg, npDot3]; ring

theorem triadImg_nu (hb : IsUnit3 b) (hw : npDot w b = 0) :
    npDot w (npCross (triadImg b r v) b) = npDot (b + r) (npCross w v) := by
  unfold IsUnit3 at hb
  rw [npDot3] at hw
  simp [triadImg, npDot3, npCross_0, npCross_1, npCross_2]; grind

end

end Adcs
