import Mathlib.Data.Real.Basic
import Mathlib.Data.Matrix.Basic
import Mathlib.LinearAlgebra.Matrix.NonsingularInverse

/-!
# Matrices of run-time size

Model of `Eigen::MatrixXd` (and of `Eigen::VectorXd`, a matrix of one column) in exact real
arithmetic. Simplifications: no round-off, no NaN/infinity; an entry outside the shape reads 0 in the
model, and every operation whose operands do not fit (an Eigen assertion, undefined behaviour in a
release build) is written with the checked operators `*!`, `+!`, `-!`, `block!` that yield `Res.ub`.
The inverse of a singular matrix (garbage in Eigen) is the zero matrix here; the theorems about
inverses are stated for invertible ones.
-/

namespace Ikf

/-- Result of a C++ expression: a value, a thrown exception, or undefined behaviour. -/
inductive Res (α : Type _) where
  | ok (a : α)
  | throws
  | ub
deriving DecidableEq

namespace Res
/-- Sequencing; the first exception / undefined behaviour ends the evaluation. -/
def bind {α β : Type _} (x : Res α) (f : α → Res β) : Res β :=
  match x with
  | ok a => f a
  | throws => throws
  | ub => ub

instance : Monad Res where
  pure := Res.ok
  bind := Res.bind

end Res

/-- An `Eigen::MatrixXd`: number of rows, number of columns, entries. -/
@[ext (iff := false)]
structure Mat where
  rows : ℕ
  cols : ℕ
  e : ℕ → ℕ → ℝ
  out : ∀ i j, rows ≤ i ∨ cols ≤ j → e i j = 0

namespace Mat

/-- `Eigen::MatrixXd M(r, c)` with entries `f i j`. -/
def of (r c : ℕ) (f : ℕ → ℕ → ℝ) : Mat where
  rows := r
  cols := c
  e i j := if i < r ∧ j < c then f i j else 0
  out i j h := by rw [if_neg]; omega

/-- Default constructed `Eigen::MatrixXd` (0 × 0). -/
def empty : Mat := of 0 0 (fun _ _ => 0)

/-- `Eigen::MatrixXd::Zero(r, c)`. -/
def zero (r c : ℕ) : Mat := of r c (fun _ _ => 0)

/-- `Eigen::MatrixXd::Identity(n, n)`. -/
def one (n : ℕ) : Mat := of n n (fun i j => if i = j then 1 else 0)

/-- `A.size()`. -/
def size (A : Mat) : ℕ := A.rows * A.cols

/-- `A.transpose()`. -/
def tr (A : Mat) : Mat where
  rows := A.cols
  cols := A.rows
  e i j := A.e j i
  out i j h := A.out j i (Or.symm h)

/-- `A * B` where `A.cols() == B.rows()`. -/
def mul (A B : Mat) : Mat := of A.rows B.cols (fun i j => ∑ k ∈ Finset.range A.cols, A.e i k * B.e k j)

/-- `A + B` of equally shaped matrices. -/
def add (A B : Mat) : Mat := of A.rows A.cols (fun i j => A.e i j + B.e i j)

/-- `A - B` of equally shaped matrices. -/
def sub (A B : Mat) : Mat := of A.rows A.cols (fun i j => A.e i j - B.e i j)

/-- `c * A` for a number `c`. -/
def smul (c : ℝ) (A : Mat) : Mat := of A.rows A.cols (fun i j => c * A.e i j)

/-- `A.block(i0, j0, r, c)` inside the shape. -/
def block (A : Mat) (i0 j0 r c : ℕ) : Mat := of r c (fun i j => A.e (i0 + i) (j0 + j))

/-- `A.block(i0, j0, B.rows(), B.cols()) = B` inside the shape. -/
def setBlock (A : Mat) (i0 j0 : ℕ) (B : Mat) : Mat :=
  of A.rows A.cols (fun i j =>
    if i0 ≤ i ∧ i < i0 + B.rows ∧ j0 ≤ j ∧ j < j0 + B.cols then B.e (i - i0) (j - j0) else A.e i j)

/-- The entries as a Mathlib matrix. -/
def toM (A : Mat) (n m : ℕ) : Matrix (Fin n) (Fin m) ℝ := Matrix.of (fun i j => A.e i j)

/-- A Mathlib matrix as a run-time sized one. -/
def ofM {n m : ℕ} (M : Matrix (Fin n) (Fin m) ℝ) : Mat :=
  of n m (fun i j => if h : i < n ∧ j < m then M ⟨i, h.1⟩ ⟨j, h.2⟩ else 0)

/-- `A.inverse()` of a square matrix. -/
noncomputable def inv (A : Mat) : Mat := ofM (A.toM A.rows A.rows)⁻¹

instance : Mul Mat := ⟨mul⟩
instance : Add Mat := ⟨add⟩
instance : Sub Mat := ⟨sub⟩

/-- Checked product. -/
def mulC (A B : Mat) : Res Mat := if A.cols = B.rows then .ok (A * B) else .ub
/-- Checked sum. -/
def addC (A B : Mat) : Res Mat := if A.rows = B.rows ∧ A.cols = B.cols then .ok (A + B) else .ub
/-- Checked difference. -/
def subC (A B : Mat) : Res Mat := if A.rows = B.rows ∧ A.cols = B.cols then .ok (A - B) else .ub
/-- Checked inverse. -/
noncomputable def invC (A : Mat) : Res Mat := if A.rows = A.cols then .ok A.inv else .ub
/-- Checked block read. -/
def blockC (A : Mat) (i0 j0 r c : ℕ) : Res Mat :=
  if i0 + r ≤ A.rows ∧ j0 + c ≤ A.cols then .ok (A.block i0 j0 r c) else .ub
/-- Checked block assignment `A.block(i0, j0, r, c) = B`. -/
def setBlockC (A : Mat) (i0 j0 r c : ℕ) (B : Mat) : Res Mat :=
  if i0 + r ≤ A.rows ∧ j0 + c ≤ A.cols ∧ B.rows = r ∧ B.cols = c then .ok (A.setBlock i0 j0 B) else .ub

@[inherit_doc] scoped infixl:70 " *! " => Mat.mulC
@[inherit_doc] scoped infixl:65 " +! " => Mat.addC
@[inherit_doc] scoped infixl:65 " -! " => Mat.subC

end Mat
end Ikf
