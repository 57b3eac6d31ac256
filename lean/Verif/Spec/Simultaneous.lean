import Verif.Spec.StandaloneMath
import Verif.Spec.Central

/-!
# Specification: several observations of the same time (C119)
-/

namespace Ikf
namespace Simultaneous
open Matrix

/-- A measurement of `m` numbers `z`, with measurement matrix `H`, noise covariance `R` and configuration `cfg`. -/
structure Obs where
  m : ℕ
  H : Mat
  R : Mat
  z : Mat
  cfg : Cfg

/-- The configuration asks for no regularisation but that of the measurement noise. -/
def Plain (cfg : Cfg) : Prop := cfg.eps = 0 ∨ (cfg.joseph = false ∧ cfg.stab = false)

/-- Sizes fit `n` states, the noise covariance is one (and definite, regularised), the outlier gate is off. -/
def Obs.Valid (n : ℕ) (o : Obs) : Prop :=
  (o.H.rows = o.m ∧ o.H.cols = n) ∧ (o.R.rows = o.m ∧ o.R.cols = o.m) ∧ (o.z.rows = o.m ∧ o.z.cols = 1) ∧ (o.R.toM o.m o.m).PosSemidef ∧
    0 ≤ o.cfg.eps ∧ (o.R.toM o.m o.m + o.cfg.eps • 1).PosDef ∧ o.cfg.outlier = false

/-- `apply_private_observation(H, R, z, t, cfg)` on a standalone filter. -/
def Obs.call (t : Int) (o : Obs) : KCall := .priv o.H o.R o.z t o.cfg

/-- `apply_private_observation(H, R, z, t, cfg)` on the instance `id`. -/
def Obs.event (id : ℕ) (t : Int) (o : Obs) : Ev := .privKF id o.H o.R o.z t o.cfg

/-- The same measurement with neither Joseph form nor stabilisation of the covariance asked for: the textbook update with the noise `R + eps`. -/
def Obs.plain (o : Obs) : Obs := { o with cfg := { o.cfg with joseph := false, stab := false } }

/-- `C` is `A` above `B`. -/
def Above (A B C : Mat) : Prop :=
  C.rows = A.rows + B.rows ∧ (∀ i < A.rows, ∀ j, C.e i j = A.e i j) ∧ ∀ i < B.rows, ∀ j, C.e (A.rows + i) j = B.e i j

/-- `C` has the diagonal blocks `A` and `B` and is zero elsewhere. -/
def Diagonal (A B C : Mat) : Prop :=
  C.rows = A.rows + B.rows ∧ C.cols = A.cols + B.cols ∧
    (∀ i < A.rows, ∀ j < A.cols, C.e i j = A.e i j) ∧ (∀ i < B.rows, ∀ j < B.cols, C.e (A.rows + i) (A.cols + j) = B.e i j) ∧
    (∀ i < A.rows, ∀ j < B.cols, C.e i (A.cols + j) = 0) ∧ ∀ i < B.rows, ∀ j < A.cols, C.e (A.rows + i) j = 0

/-- Both measurements as one: values and measurement matrices on top of each other, independent noise. -/
def Both (a b o : Obs) : Prop :=
  o.m = a.m + b.m ∧ o.H.cols = a.H.cols ∧ o.z.cols = 1 ∧ Above a.H b.H o.H ∧ Above a.z b.z o.z ∧ Diagonal a.R b.R o.R ∧
    o.cfg.eps = a.cfg.eps ∧ o.cfg.eps = b.cfg.eps ∧ o.cfg.outlier = false

end Simultaneous
end Ikf
