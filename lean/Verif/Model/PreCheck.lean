import Verif.Model.KalmanMath

/-!
# Testing an observation before it is processed

Model of the second `check_NIS` of source/ikf/source/Estimator/NormalizedInnovationSquared.cpp (`NIS.cpp`), which the library offers to
callers and does not use itself.
-/

namespace Ikf
open Mat

open Classical in
/-- NIS.cpp:42-52 `check_NIS(H, R, r, Sigma, confidence_interval)`: the innovation covariance is computed here; the sizes are
not checked first, and a confidence of 0 is not special as it is in NIS.cpp:55. -/
noncomputable def checkNISObs (H R r Sigma : Mat) (conf : ℚ) : Res Bool := do
  let a ← H *! Sigma
  let b ← a *! H.tr
  let S0 ← b +! R
  let S ← symmetrize S0
  let s ← nis S r
  let th ← chi2inv conf r.rows
  .ok (if s > (th : ℝ) / 100000 then false else true)

end Ikf
