import Mathlib.Algebra.BigOperators.Group.List.Basic
import Mathlib.Data.Real.Basic

/-!
# Specification: statistics of numbers (C123)
-/

namespace Ikf
namespace Stats

/-- `m` is the arithmetic mean of the numbers. -/
def IsMean (c : List ℝ) (m : ℝ) : Prop := c ≠ [] ∧ m * c.length = c.sum

/-- `s` is the sample standard deviation of the numbers: `s² (n - 1)` is the sum of the squared deviations from the mean. -/
def IsStdDev (c : List ℝ) (s : ℝ) : Prop :=
  2 ≤ c.length ∧ 0 ≤ s ∧ ∀ m, IsMean c m → s ^ 2 * (c.length - 1) = (c.map fun x => (x - m) ^ 2).sum

/-- `m` is the largest of the numbers. -/
def IsMax {K : Type} [LE K] (c : List K) (m : K) : Prop := m ∈ c ∧ ∀ x ∈ c, x ≤ m

/-- `m` is the smallest of the numbers. -/
def IsMin {K : Type} [LE K] (c : List K) (m : K) : Prop := m ∈ c ∧ ∀ x ∈ c, m ≤ x

/-- `y` is `x` rounded to `p` decimal digits. -/
def IsRounded (x : ℝ) (p : ℕ) (y : ℝ) : Prop := (∃ k : ℤ, y = k / 10 ^ p) ∧ |y - x| ≤ 1 / 2 / 10 ^ p

end Stats
end Ikf
