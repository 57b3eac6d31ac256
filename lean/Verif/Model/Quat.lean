import Mathlib.Analysis.Quaternion
import Mathlib.Analysis.Real.Sqrt

/-!
# Quaternions of small angles

Model of `ikf::QuaternionUtils` (source/ikf/include/ikf/utils/QuaternionUtils.hpp, `QU`) in exact real arithmetic. `Eigen::Quaterniond(w, x,
y, z)` is Mathlib's quaternion with these four components.
-/

namespace Ikf
namespace Quat

open Quaternion

/-- `Eigen::Vector3d`. -/
structure V3 where
  x : ℝ
  y : ℝ
  z : ℝ

/-- `squaredNorm()`. -/
def V3.sq (v : V3) : ℝ := v.x * v.x + v.y * v.y + v.z * v.z

/-- The constructor `Eigen::Quaterniond(w, x, y, z)`. -/
def mk (w x y z : ℝ) : ℍ[ℝ] := ⟨w, x, y, z⟩

/-- QU:24-38 `small_angle_to_quaternion`. -/
noncomputable def smallAngle (t : V3) : ℍ[ℝ] :=
  let q := t.sq / 4
  if q < 1 then mk (Real.sqrt (1 - q)) (t.x * (1 / 2)) (t.y * (1 / 2)) (t.z * (1 / 2))
  else
    let w := 1 / Real.sqrt (1 + q)
    let f := w * (1 / 2)
    mk w (t.x * f) (t.y * f) (t.z * f)

/-- Eigen's `normalize()`: divided by the norm unless that is zero. -/
noncomputable def normalize (q : ℍ[ℝ]) : ℍ[ℝ] :=
  let n := q.re * q.re + q.imI * q.imI + q.imJ * q.imJ + q.imK * q.imK
  if 0 < n then mk (q.re / Real.sqrt n) (q.imI / Real.sqrt n) (q.imJ / Real.sqrt n) (q.imK / Real.sqrt n) else q

/-- QU:40-45 `theta2quat`. -/
noncomputable def theta2quat (t : V3) : ℍ[ℝ] := normalize (mk 1 (1 / 2 * t.x) (1 / 2 * t.y) (1 / 2 * t.z))

/-- QU:47-51 `quat2theta`. -/
def quat2theta (q : ℍ[ℝ]) : V3 := ⟨q.imI * 2, q.imJ * 2, q.imK * 2⟩

end Quat
end Ikf
