import Verif.Model.KalmanMath
import Mathlib.Analysis.Matrix.PosDef

/-!
# Specification: the verdict on an observation (C128)
-/

namespace Ikf
namespace PreCheck

/-- `H`, `R`, `r`, `Sigma` are an observation of `m` numbers of a state of `n` numbers, `R` and `Sigma` are covariances, and the covariance
of the innovation is regular. -/
structure Observation (n m : ℕ) (H R r Sigma : Mat) : Prop where
  sizeH : H.rows = m ∧ H.cols = n
  sizeR : R.rows = m ∧ R.cols = m
  sizer : r.rows = m ∧ r.cols = 1
  sizeS : Sigma.rows = n ∧ Sigma.cols = n
  cov : (Sigma.toM n n).PosSemidef
  noise : (R.toM m m).PosSemidef
  regular : (H.toM m n * Sigma.toM n n * (H.toM m n).transpose + R.toM m m).PosDef

/-- The confidence is one of those listed in the table. -/
def Listed (conf : ℚ) : Prop := 0 < conf ∧ ∃ row, (round (conf * 1000), row) ∈ nisTable

/-- The filter's own correction ends with this verdict. -/
def Verdict (H R r Sigma : Mat) (cfg : Cfg) (accepted : Bool) : Prop :=
  ∃ res, correctionStep H R r Sigma cfg = .ok res ∧ res.rejected = !accepted

end PreCheck
end Ikf
