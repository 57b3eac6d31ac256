import Verif.Model.KalmanMath

/-!
# The test for positive semidefiniteness

Model of source/ikf/source/utils/eigen_utils.cpp:29-39 (cited EU) together with the parts of Eigen it runs (Eigen 3.3/3.4, not part
of /repo): `MatrixBase::isApprox` (Eigen/src/Core/Fuzzy.h) and `LDLT::compute` with `internal::ldlt_inplace<Lower>::unblocked`
(Eigen/src/Cholesky/LDLT.h, cited LDLT). Real numbers are exact here.
-/

namespace Ikf
namespace Ldlt

/-- `Eigen::internal::SignMatrix` (LDLT). -/
inductive Sgn where
  | pos | neg | zero | indef
deriving DecidableEq

/-- What `unblocked` changes: the matrix (only its lower triangle is read and written), the sign, `found_zero_pivot`, `ret`. -/
structure St where
  m : ℕ → ℕ → ℝ
  sgn : Sgn
  found : Bool
  ret : Bool

open Classical in
/-- LDLT, "find largest diagonal element": `mat.diagonal().tail(size-k).cwiseAbs().maxCoeff(&i)`, the first of the largest ones, as an
index of the whole matrix. -/
noncomputable def biggest (m : ℕ → ℕ → ℝ) (n k : ℕ) : ℕ :=
  (List.range (n - k)).foldl (fun best i => if |m best best| < |m (k + i) (k + i)| then k + i else best) k

/-- LDLT, "apply the transposition while taking care to consider only the lower triangular part": the swaps of the rows `k` and `p` left of
column `k`, of the columns `k` and `p` below row `p`, of the two diagonal entries, and of the entries between. -/
def exchange (m : ℕ → ℕ → ℝ) (k p : ℕ) : ℕ → ℕ → ℝ := fun i j =>
  if i = k ∧ j < k then m p j
  else if i = p ∧ j < k then m k j
  else if j = k ∧ p < i then m i p
  else if j = p ∧ p < i then m i k
  else if i = k ∧ j = k then m p p
  else if i = p ∧ j = p then m k k
  else if j = k ∧ k < i ∧ i < p then m p i
  else if i = p ∧ k < j ∧ j < p then m j k
  else m i j

/-- LDLT: `if (k != index_of_biggest_in_corner) ...`. -/
noncomputable def pivot (m : ℕ → ℕ → ℝ) (n k : ℕ) : ℕ → ℕ → ℝ :=
  if k ≠ biggest m n k then exchange m k (biggest m n k) else m

/-- LDLT: `temp = D_00 A10^T; A11 -= A10 temp; A21 -= A20 temp` (for `k = 0` the sums are empty, as is the guarded statement). -/
def reduce (m : ℕ → ℕ → ℝ) (n k : ℕ) : ℕ → ℕ → ℝ := fun i j =>
  if j = k ∧ k ≤ i ∧ i < n then m i k - ∑ l ∈ Finset.range k, m i l * (m l l * m k l) else m i j

open Classical in
/-- LDLT: `if ((rs>0) && pivot_is_valid) A21 /= realAkk`. -/
noncomputable def scale (m : ℕ → ℕ → ℝ) (n k : ℕ) : ℕ → ℕ → ℝ := fun i j =>
  if j = k ∧ k < i ∧ i < n ∧ m k k ≠ 0 then m i k / m k k else m i j

open Classical in
/-- LDLT: the sign after a pivot `a`. -/
noncomputable def sign (s : Sgn) (a : ℝ) : Sgn :=
  match s with
  | .pos => if a < 0 then .indef else .pos
  | .neg => if 0 < a then .indef else .neg
  | .zero => if 0 < a then .pos else if a < 0 then .neg else .zero
  | .indef => .indef

open Classical in
/-- LDLT: the body of the loop over `k` (without the return of its first pass). `abs(realAkk) > 0` is `m k k ≠ 0`. -/
noncomputable def step (n : ℕ) (s : St) (k : ℕ) : St :=
  let m := reduce (pivot s.m n k) n k
  let ret := if m k k ≠ 0 then s.ret else s.ret && decide (∀ i, k < i → i < n → m i k = 0)
  { m := scale m n k
    sgn := sign s.sgn (m k k)
    found := if s.found ∧ m k k ≠ 0 then s.found else if m k k = 0 then true else s.found
    ret := if s.found ∧ m k k ≠ 0 then false else ret }

open Classical in
/-- LDLT: `unblocked`, from `m_sign = ZeroSign` (`compute`): the sign and whether the factorisation succeeded (`info() != NumericalIssue`). -/
noncomputable def unblocked (m : ℕ → ℕ → ℝ) (n : ℕ) : Sgn × Bool :=
  if n = 0 then (.zero, true)
  else if n = 1 then (if 0 < m 0 0 then .pos else if m 0 0 < 0 then .neg else .zero, true)
  else if pivot m n 0 0 0 = 0 then (.zero, decide (∀ j i, j < i → i < n → pivot m n 0 i j = 0))
  else
    let s := (List.range n).foldl (step n) ⟨m, .zero, false, true⟩
    (s.sgn, s.ret)

open Classical in
/-- EU:29-31 `is_symmetric`: `A.isApprox(A.transpose())` with the default precision 1e-12; matrices of different sizes are asserted
against. -/
noncomputable def isSymmetric (A : Mat) : Res Bool :=
  if A.rows ≠ A.cols then .ub
  else .ok (decide (∑ i ∈ Finset.range A.rows, ∑ j ∈ Finset.range A.cols, (A.e i j - A.e j i) ^ 2 ≤
    (1 / 10 ^ 12) ^ 2 * min (∑ i ∈ Finset.range A.rows, ∑ j ∈ Finset.range A.cols, A.e i j ^ 2)
      (∑ i ∈ Finset.range A.cols, ∑ j ∈ Finset.range A.rows, A.e j i ^ 2)))

/-- EU:33-39 `is_positive_semidefinite`; `isPositive()` is "sign positive or zero". -/
noncomputable def isPsd (A : Mat) : Res Bool := do
  let sym ← isSymmetric A
  if sym then
    let r := unblocked A.e A.rows
    .ok (r.2 && (r.1 == .pos || r.1 == .zero))
  else .ok false

end Ldlt
end Ikf
