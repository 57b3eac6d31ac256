import Verif.Spec.Certainty

/-!
# Specification: a filter that is run for ever (C118)

The filter predicts and observes in turn. The state can be observed: some observer, which need not be the filter's, has a stable error.
-/

namespace Ikf
namespace Bounded
open Matrix

/-- One cycle of a filter with `n` states: predict with `F` and `Q` to time `tb`, then observe `m` numbers `z` with measurement matrix `H` and noise covariance `R`. -/
structure Cycle where
  F : Mat
  Q : Mat
  tb : Int
  m : ℕ
  H : Mat
  R : Mat
  z : Mat
  cfg : Cfg

/-- The calls of the cycles, starting at time `t`. -/
def script : Int → List Cycle → List KCall
  | _, [] => []
  | t, c :: r => .prop c.F c.Q t c.tb :: .priv c.H c.R c.z c.tb c.cfg :: script c.tb r

/-- The time after the cycles. -/
def time : Int → List Cycle → Int
  | t, [] => t
  | _, c :: r => time c.tb r

/-- Sizes fit, noise covariances are covariances, and the outlier gate is off. -/
def Cycle.Valid (n : ℕ) (c : Cycle) : Prop :=
  (c.F.rows = n ∧ c.F.cols = n) ∧ (c.Q.rows = n ∧ c.Q.cols = n) ∧ (c.H.rows = c.m ∧ c.H.cols = n) ∧ (c.R.rows = c.m ∧ c.R.cols = c.m) ∧
    (c.z.rows = c.m ∧ c.z.cols = 1) ∧ (c.Q.toM n n).PosSemidef ∧ (c.R.toM c.m c.m).PosSemidef ∧ 0 ≤ c.cfg.eps ∧ (c.R.toM c.m c.m + c.cfg.eps • 1).PosDef ∧
    c.cfg.outlier = false

/-- The observer that corrects its prediction by `L` times the residual: measured by `X`, its error shrinks by `γ` in a cycle, and the noise adds at most `w`.
(`ε`, which the library adds for stability, counts as noise.) -/
def Cycle.Observer {n : ℕ} (c : Cycle) (X : Matrix (Fin n) (Fin n) ℝ) (γ w : ℝ) (L : Matrix (Fin n) (Fin c.m) ℝ) : Prop :=
  Certainty.AtMost (((1 - L * c.H.toM c.m n) * c.F.toM n n) * X * ((1 - L * c.H.toM c.m n) * c.F.toM n n)ᵀ) (γ • X) ∧
  Certainty.AtMost ((1 - L * c.H.toM c.m n) * c.Q.toM n n * (1 - L * c.H.toM c.m n)ᵀ + L * (c.R.toM c.m c.m + c.cfg.eps • 1) * Lᵀ + c.cfg.eps • 1) (w • X)

end Bounded
end Ikf
