import Verif.Spec.Honest
import Mathlib.Probability.Distributions.Gaussian.Real

/-!
# Specification: what a filter is surprised by (C140)

The residual of the next measurement of a system as in C115, and the covariance the filter expects it to have.
-/

namespace Ikf
namespace Honest
open MeasureTheory Matrix

variable {Ω : Type} [MeasurableSpace Ω] {n m : ℕ}

/-- The measurement `H x + v` minus what the estimate `e` predicts, `H e`. -/
noncomputable def resid (H : Mat) (v : Ω → Vec m) (x e : Ω → Vec n) : Ω → Vec m :=
  fun ω => H.toM m n * x ω + v ω - H.toM m n * e ω

/-- The covariance a filter with covariance `S` expects the residual to have, `H S Hᵀ + R + ε I`. -/
noncomputable def expected (H R : Mat) (cfg : Cfg) (S : Matrix (Fin n) (Fin n) ℝ) : Matrix (Fin m) (Fin m) ℝ :=
  H.toM m n * S * (H.toM m n)ᵀ + R.toM m m + cfg.eps • 1

/-- A measurement whose matrices have the right sizes and whose error is at most what the filter is told. -/
def Sensor (P : Measure Ω) (n : ℕ) (H R : Mat) (cfg : Cfg) (v : Ω → Vec m) : Prop :=
  (H.rows = m ∧ H.cols = n) ∧ (R.rows = m ∧ R.cols = m) ∧ 0 ≤ cfg.eps ∧
    (R.toM m m + cfg.eps • 1).PosDef ∧ L2 P v ∧ (R.toM m m - mom P v v).PosSemidef

/-- The squared length of the residual `r`, measured by the covariance `S`: `rᵀ S⁻¹ r`. -/
noncomputable def surprise (S : Matrix (Fin m) (Fin m) ℝ) (r : Vec m) : ℝ := (rᵀ * S⁻¹ * r) 0 0

/-- The components of the error `e` of the first estimate and of the noises. -/
def noises (e : Ω → Vec n) (l : List (Stp Ω n)) : Set (Ω → ℝ) :=
  {s | ∃ a ∈ (⟨n, e⟩ :: l.map Stp.noise : List ((j : ℕ) × (Ω → Vec j))), ∃ i, s = fun ω => a.2 ω i 0}

/-- The noises and the error of the first estimate are jointly Gaussian with mean zero: every linear combination of their components is a centred Gaussian number. -/
def JointGaussian (P : Measure Ω) (e : Ω → Vec n) (l : List (Stp Ω n)) : Prop :=
  ∀ s ∈ Submodule.span ℝ (noises e l), ∃ var, P.map s = ProbabilityTheory.gaussianReal 0 var

end Honest
end Ikf
