import Verif.Model.Timestamp
import Verif.Model.KalmanMath
import Mathlib.Analysis.Real.Sqrt

/-!
# Measurements

Model of `ikf::MeasData` (source/ikf/include/ikf/Measurement/MeasData.hpp, source/ikf/source/Measurement/MeasData.cpp,
cited MD). Times are doubles computed with an arbitrary rounding `fp`; the vector arithmetic is exact.
-/

namespace Ikf
open Mat

/-- MeasData.hpp:39-49 (the strings are one field). -/
structure MeasD where
  t_m : Timestamp
  t_p : Timestamp
  id : ℕ
  info : String × String
  kind : ℕ
  z : Mat
  R : Mat

namespace MeasD

/-- MD:33-38 `has_meas_noise`: Frobenius norm above 1e-11. -/
noncomputable def hasNoise (m : MeasD) : Bool :=
  open Classical in
  decide (m.R.size ≠ 0 ∧
    1 / 10 ^ 11 < Real.sqrt (∑ i ∈ Finset.range m.R.rows, ∑ j ∈ Finset.range m.R.cols, m.R.e i j ^ 2))

/-- MD:40-47 `get_R`: one column means the diagonal. -/
def getR (m : MeasD) : Mat :=
  if m.R.cols = 1 then of m.R.rows m.R.rows (fun i j => if i = j then m.R.e i 0 else 0) else m.R

/-- MD:73-75 the interpolation ratio; `none`: division by zero (NaN or infinity). -/
def ratio (fp : FP) (a c b : Timestamp) : Option ℚ :=
  let ac := fp.rnd (fp.toSec c - fp.toSec a)
  let ab := fp.rnd (fp.toSec b - fp.toSec a)
  if ac = 0 then none else some (fp.rnd (ab / ac))

/-- `x + (y - x) * r` in Eigen: the shapes must agree. -/
noncomputable def lerp (x y : Mat) (r : ℝ) : Res Mat := do
  let d ← y -! x
  x +! smul r d

/-- MD:69-83 `lin_interpolate`. The two expectations in MD:70-71 only log. Result `none`: the entries are NaN or
infinite. -/
noncomputable def linInterpolate (fp : FP) (a c : MeasD) (b : Timestamp) : Res (Option MeasD) :=
  match ratio fp a.t_m c.t_m b with
  | none => if c.z.rows = a.z.rows ∧ c.z.cols = a.z.cols ∧ c.R.rows = a.R.rows ∧ c.R.cols = a.R.cols then .ok none else .ub
  | some r => do
    let z ← lerp a.z c.z r
    let R ← lerp a.R c.R r
    .ok (some { a with t_m := b, t_p := b, z := z, R := R })

end MeasD
end Ikf
