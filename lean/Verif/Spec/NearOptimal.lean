import Verif.Spec.Honest
import Verif.Spec.Certainty

/-!
# Specification: what the numerical stabilisation costs (C127)

The *ideal* filter gets the same calls with `eps = 0`: it adds nothing for numerical stability. The filter is compared with it.
-/

namespace Ikf
namespace NearOptimal
open Matrix SKF Certainty

/-- The configuration without anything added for numerical stability. -/
noncomputable def ideal (cfg : Cfg) : Cfg := { cfg with eps := 0 }

/-- The same call for the ideal filter. -/
noncomputable def idealCall : KCall → KCall
  | .priv H R z t cfg => .priv H R z t (ideal cfg)
  | .privEKF H R r t cfg => .privEKF H R r t (ideal cfg)
  | c => c

/-- The `eps` of an observation is at most the fraction `δ` of its measurement noise and, where the covariance is stabilised, of the covariance the filter
reports after it (`f` are the filter's estimates after the call). -/
def SmallAt (n : ℕ) (δ : ℝ) (f : Int → Option (Gauss n)) : KCall → Prop
  | .priv _ R z t cfg => AtMost (cfg.eps • 1) (δ • R.toM z.rows z.rows) ∧ (cfg.stab = true → ∀ g, f t = some g → AtMost (cfg.eps • 1) (δ • g.cov))
  | .privEKF _ R r t cfg => AtMost (cfg.eps • 1) (δ • R.toM r.rows r.rows) ∧ (cfg.stab = true → ∀ g, f t = some g → AtMost (cfg.eps • 1) (δ • g.cov))
  | _ => True

/-- `SmallAt` for each of the calls `cs` a filter with history `h` gets. -/
def Small (n : ℕ) (δ : ℝ) (h : Buf Belief) (cs : List KCall) : Prop :=
  ∀ before c after k as, cs = before ++ c :: after → calls h (before ++ [c]) = .ok (k, as) → SmallAt n δ (estimates n k) c

/-- The outlier gate is off. -/
def GateOff : KCall → Prop
  | .priv _ _ _ _ cfg => cfg.outlier = false
  | .privEKF _ _ _ _ cfg => cfg.outlier = false
  | _ => True

/-- The noise is exactly what the filter is told and has mean zero. -/
def ToldExactly {Ω : Type} [MeasurableSpace Ω] {n : ℕ} (P : MeasureTheory.Measure Ω) : Honest.Stp Ω n → Prop
  | .move _ Q _ w => Q.toM n n = Honest.mom P w w ∧ ∀ i, ∫ ω, w ω i 0 ∂P = 0
  | .meas m _ R _ v => R.toM m m = Honest.mom P v v ∧ ∀ i, ∫ ω, v ω i 0 ∂P = 0

/-- The number of measurements. -/
def measurements {Ω : Type} {n : ℕ} : List (Honest.Stp Ω n) → ℕ
  | [] => 0
  | .move _ _ _ _ :: r => measurements r
  | .meas _ _ _ _ _ :: r => measurements r + 1

end NearOptimal
end Ikf
