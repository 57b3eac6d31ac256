import Verif.Spec.Innovation
import Verif.Props.NIS

/-!
# Specification: which measured values pass the outlier test (C141)
-/

namespace Ikf
namespace Honest
open Matrix

variable {n m : ℕ}

/-- `apply_private_observation` of the filter with history `h` at time `t` answers true to the measured value `z`. -/
def Accepts (h : Buf Belief) (t : Int) (H R : Mat) (cfg : Cfg) (z : Vec m) : Prop :=
  ∃ h', SKF.call h (.priv H R (Mat.ofM z) t cfg) = .ok (h', true)

/-- A measurement of `m` components of a system with `n` states whose noise the filter can handle, with the outlier test on at a confidence that has a `row` in the table. -/
structure Gated (n m : ℕ) (H R : Mat) (cfg : Cfg) (row : List ℤ) : Prop where
  sizeH : H.rows = m ∧ H.cols = n
  sizeR : R.rows = m ∧ R.cols = m
  psd : (R.toM m m).PosSemidef
  eps : 0 ≤ cfg.eps
  pd : (R.toM m m + cfg.eps • 1).PosDef
  on : cfg.outlier = true
  pos : 0 < cfg.conf
  listed : nisTable.lookup (round (cfg.conf * 1000)) = some row

/-- The threshold in use for `m` components: that for `m + 1` degrees of freedom, zero from 50 components on. -/
noncomputable def thresholdInUse (row : List ℤ) (m : ℕ) : ℝ := if m < 50 then tableQuantile row (m + 1) else 0

/-- Seen from any direction, `r` is at most `√q` standard deviations long, if `E` is the covariance: for every combination `yᵀ r` of the components its square is at most
`q` times its variance `yᵀ E y`. -/
def Within (q : ℝ) (E : Matrix (Fin m) (Fin m) ℝ) (r : Vec m) : Prop :=
  ∀ y : Vec m, (yᵀ * r) 0 0 ^ 2 ≤ q * (yᵀ * E * y) 0 0

end Honest
end Ikf
