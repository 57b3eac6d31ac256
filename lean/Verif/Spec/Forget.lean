import Verif.Spec.Bounded
import Verif.Spec.StandaloneMath

/-!
# Specification: forgetting the initial belief (C129)
-/

namespace Ikf
namespace Forget
open Matrix SKF Certainty Bounded

/-- The two means differ, in every direction, at most by `√c` standard deviations of the covariance `P`: `(yᵀ(μ - μ'))² ≤ c yᵀPy`. -/
def Within {n : ℕ} (c : ℝ) (μ μ' : Matrix (Fin n) (Fin 1) ℝ) (P : Matrix (Fin n) (Fin n) ℝ) : Prop :=
  ∀ y : Fin n → ℝ, (∑ i, y i * (μ i 0 - μ' i 0)) ^ 2 ≤ c * ∑ i, ∑ j, y i * P i j * y j

/-- The two covariances agree up to the factor `κ`. -/
def SameUpTo {n : ℕ} (κ : ℝ) (P P' : Matrix (Fin n) (Fin n) ℝ) : Prop := AtMost P (κ • P') ∧ AtMost P' (κ • P)

/-- In the cycle `c` the process noise is at least the fraction `α` of the covariance `P` moved on. -/
def Cycle.Stirs {n : ℕ} (α : ℝ) (P : Matrix (Fin n) (Fin n) ℝ) (c : Cycle) : Prop :=
  AtMost (α • (c.F.toM n n * P * (c.F.toM n n)ᵀ)) (c.Q.toM n n)

/-- It is so in every cycle for the covariance the filter reports before the cycle. -/
def StirsAlong (n : ℕ) (α : ℝ) (t : Int) (h : Buf Belief) (cs : List Cycle) : Prop :=
  ∀ before c after, cs = before ++ c :: after → ∀ k as g, calls h (script t before) = .ok (k, as) → estimates n k (time t before) = some g → Cycle.Stirs α g.cov c

/-- The Joseph form is not used, or what is added for stability is at most the fraction `δ` of the measurement noise. -/
def Cycle.Quiet (δ : ℝ) (c : Cycle) : Prop := c.cfg.joseph = false ∨ AtMost (c.cfg.eps • 1) (δ • c.R.toM c.m c.m)

/-- Every residual of the filter is, in every direction, at most `√s` standard deviations of its innovation. -/
def ResidualsAlong (n : ℕ) (s : ℝ) (t : Int) (h : Buf Belief) (cs : List Cycle) : Prop :=
  ∀ before c after, cs = before ++ c :: after → ∀ k as g, calls h (script t before) = .ok (k, as) → estimates n k (time t before) = some g →
    Within s (c.z.toM c.m 1) (c.H.toM c.m n * (c.F.toM n n * g.mean))
      (c.H.toM c.m n * (c.F.toM n n * g.cov * (c.F.toM n n)ᵀ + c.Q.toM n n) * (c.H.toM c.m n)ᵀ + (c.R.toM c.m c.m + c.cfg.eps • 1))

end Forget
end Ikf
