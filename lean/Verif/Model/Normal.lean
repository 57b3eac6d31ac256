import Verif.Model.Mat
import Mathlib.LinearAlgebra.Matrix.PosDef
import Mathlib.Analysis.Real.Sqrt

/-!
# Sampling from a multivariate normal distribution

Model of `ikf::MultivariateNormal` (source/ikf/include/ikf/utils/MultivariateNormal.hpp, `MN`) in exact real arithmetic.

The two decompositions are Eigen's (not in the repository): `Solver` holds their answers, `Solver.Good` says what the theorems use of them.
The numbers drawn are a parameter of `samples`; `rand_op` has Eigen's default traits (not repeatable), so each entry is drawn once.
-/

namespace Ikf
open Mat

namespace Normal

/-- What the decompositions of a symmetric matrix see: the lower triangle (Eigen's `SelfAdjointEigenSolver` and `LLT` read no more). -/
def lower (S : Mat) : Mat := of S.rows S.rows fun i j => if j ≤ i then S.e i j else S.e j i

/-- MN:90 `LLT`: the factor, or nothing when `info()` is not `Success`; MN:103 `SelfAdjointEigenSolver`: eigenvectors and eigenvalues. -/
structure Solver where
  chol : Mat → Option Mat
  eig : Mat → Option (Mat × Mat)

/-- MN:63-65. -/
structure Obj where
  Sigma : Mat
  Tf : Mat
  mean : Mat

/-- MN:105: `eigenvalues().cwiseMax(0).cwiseSqrt().asDiagonal()`. -/
noncomputable def scale (lam : Mat) : Mat := of lam.rows lam.rows fun i j => if i = j then Real.sqrt (max (lam.e i 0) 0) else 0

/-- MN:81 `setMean`. -/
def setMean (o : Obj) (mean : Mat) : Obj := { o with mean := mean }

/-- MN:83-110 `setCovar`: the object afterwards, and whether an exception was thrown. A matrix that is not square is an assertion of the
solvers. -/
noncomputable def setCovar (E : Solver) (o : Obj) (S : Mat) (useChol : Bool) : Res (Obj × Bool) :=
  if S.rows ≠ S.cols then .ub
  else if useChol then
    match E.chol S with
    | some L => .ok ({ o with Sigma := S, Tf := L }, false)
    | none => .ok ({ o with Sigma := S }, true)
  else
    match E.eig S with
    | some x => do
      let T ← x.1 *! scale x.2
      .ok ({ o with Sigma := S, Tf := T }, false)
    | none => .ok ({ o with Sigma := S }, true)

/-- MN:68-73: the constructor; an exception leaves no object. -/
noncomputable def create (E : Solver) (mean S : Mat) (useChol : Bool) : Res Obj := do
  let r ← setCovar E (setMean ⟨Mat.empty, Mat.empty, Mat.empty⟩ mean) S useChol
  if r.2 then .throws else .ok r.1

/-- MN:76 `getCovar`. -/
def getCovar (o : Obj) : Mat := o.Sigma

/-- MN:114-118 `samples`, from the numbers `z i j` drawn for entry `(i, j)`. Adding a vector of another size to the columns is an assertion. -/
noncomputable def samples (o : Obj) (nn : ℕ) (z : ℕ → ℕ → ℝ) : Res Mat := do
  let x ← o.Tf *! of o.Sigma.rows nn z
  if o.mean.rows = x.rows ∧ o.mean.cols = 1 then .ok (of x.rows x.cols fun i j => x.e i j + o.mean.e i 0) else .ub

end Normal
end Ikf
