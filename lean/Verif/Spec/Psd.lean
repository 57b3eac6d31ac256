import Verif.Model.KalmanMath
import Mathlib.LinearAlgebra.Matrix.PosDef
import Mathlib.Data.Real.StarOrdered

/-!
# Specification: positive (semi)definite matrices (C134)

`Matrix.PosSemidef` and `Matrix.PosDef` are Mathlib's.
-/

namespace Ikf
namespace Psd

/-- The symmetric matrix whose lower triangle is that of `A`. -/
def lower (A : Mat) : Matrix (Fin A.rows) (Fin A.rows) ℝ := Matrix.of fun i j => if j ≤ i then A.e i j else A.e j i

/-- `A` is square and symmetric. -/
def Symmetric (A : Mat) : Prop := A.rows = A.cols ∧ ∀ i j, i < A.rows → j < A.rows → A.e i j = A.e j i

/-- `A` is symmetric up to a relative error: the entries of `A - A^T` are, in the sum of squares, at most 1e-24 of those of `A`. -/
def NearlySymmetric (A : Mat) : Prop := A.rows = A.cols ∧
  ∑ i : Fin A.rows, ∑ j : Fin A.rows, (A.e i j - A.e j i) ^ 2 ≤ 1 / 10 ^ 24 * ∑ i : Fin A.rows, ∑ j : Fin A.rows, A.e i j ^ 2

end Psd
end Ikf
