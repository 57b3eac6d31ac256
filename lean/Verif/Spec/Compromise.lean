import Verif.Spec.Innovation
import Verif.Spec.Simultaneous
import Verif.Spec.StandaloneMath

/-!
# Specification: the estimate as the best compromise (C142)
-/

namespace Ikf
namespace Simultaneous
open Matrix Honest

variable {n : ℕ}

/-- By how much the state `x` contradicts the measurement, `(z - H x)ᵀ (R + ε I)⁻¹ (z - H x)`. -/
noncomputable def Obs.misfit (o : Obs) (x : Vec n) : ℝ :=
  surprise (o.R.toM o.m o.m + o.cfg.eps • 1) (o.z.toM o.m 1 - o.H.toM o.m n * x)

/-- By how much `x` contradicts the estimate, `(x - μ)ᵀ P⁻¹ (x - μ)`, and all the measurements: the cost of weighted least squares. -/
noncomputable def cost (g : Gauss n) (os : List Obs) (x : Vec n) : ℝ := surprise g.cov (x - g.mean) + (os.map fun o => o.misfit x).sum

/-- The sum of the normalised innovations squared, each that of the estimate just before the measurement. -/
noncomputable def innovations (g : Gauss n) : List Obs → ℝ
  | [] => 0
  | o :: os => surprise (o.H.toM o.m n * g.cov * (o.H.toM o.m n)ᵀ + (o.R.toM o.m o.m + o.cfg.eps • 1)) (o.z.toM o.m 1 - o.H.toM o.m n * g.mean) +
      innovations (g.update (o.H.toM o.m n) (o.R.toM o.m o.m + o.cfg.eps • 1) (o.z.toM o.m 1)) os

end Simultaneous
end Ikf
