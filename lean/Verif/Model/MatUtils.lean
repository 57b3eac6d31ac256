import Verif.Model.KalmanMath

/-!
# Concatenation, splitting and repairing of matrices

Model of source/ikf/source/utils/eigen_utils.cpp (cited EU). A matrix constructed with a size is uninitialised: its
entries are the parameter `g` (arbitrary).
-/

namespace Ikf
namespace MatU
open Mat

/-! ## Eigen's comma initialiser `C << A, B, ...`

Eigen/src/Core/CommaInitializer.h (Eigen 3.3/3.4, not part of /repo): `row`, `col` are the next position and `cur`
the height of the current row of blocks. A failed size check is an assertion (undefined behaviour in release). -/

/-- `Eigen::CommaInitializer`. -/
structure Comma where
  xpr : Mat
  row : ℕ
  col : ℕ
  cur : ℕ

/-- `C << A`. -/
def comma1 (C A : Mat) : Res Comma := do
  let x ← C.setBlockC 0 0 A.rows A.cols A
  .ok ⟨x, 0, A.cols, A.rows⟩

/-- `..., B`: a full row of blocks moves the position to the next one. -/
def Comma.adv (s : Comma) (B : Mat) : Comma :=
  if s.col = s.xpr.cols ∧ (B.cols ≠ 0 ∨ B.rows ≠ s.cur) then { s with row := s.row + s.cur, col := 0, cur := B.rows } else s

/-- `..., B`: write `B` at the position. -/
def Comma.put (s : Comma) (B : Mat) : Res Comma :=
  if s.cur ≠ B.rows then .ub
  else do
    let x ← s.xpr.setBlockC s.row s.col B.rows B.cols B
    .ok { s with xpr := x, col := s.col + B.cols }

/-- `..., B`. -/
def Comma.next (s : Comma) (B : Mat) : Res Comma := (s.adv B).put B

/-- The end of the statement (`finished()`). -/
def Comma.fin (s : Comma) : Res Mat :=
  if (s.row + s.cur = s.xpr.rows ∨ s.xpr.cols = 0) ∧ s.col = s.xpr.cols then .ok s.xpr else .ub

/-! ## Concatenation -/

/-- EU:41-55 `horcat(H_II, H_JJ)`. -/
def horcat (g : ℕ → ℕ → ℝ) (A B : Mat) : Res Mat :=
  if A.size = 0 then .ok B
  else if B.size = 0 then .ok A
  else if A.rows = B.rows then do
    let C := of A.rows (A.cols + B.cols) g
    let C ← C.setBlockC 0 0 C.rows A.cols A
    C.setBlockC 0 (C.cols - B.cols) C.rows B.cols B
  else .throws

/-- EU:57-65 `horcat(H_II, H_JJ, H_KK)`. -/
def horcat3 (g : ℕ → ℕ → ℝ) (A B D : Mat) : Res Mat :=
  if A.rows = B.rows ∧ A.rows = D.rows then do
    let C := of A.rows (A.cols + B.cols + D.cols) g
    let C ← C.setBlockC 0 0 C.rows A.cols A
    let C ← C.setBlockC 0 A.cols C.rows B.cols B
    C.setBlockC 0 (C.cols - D.cols) C.rows D.cols D
  else .throws

/-- EU:68-77 `horcat(H_II, H_JJ, H_KK, H_LL)`. -/
def horcat4 (g : ℕ → ℕ → ℝ) (A B D E : Mat) : Res Mat :=
  if A.rows = B.rows ∧ A.rows = D.rows ∧ A.rows = E.rows then do
    let C := of A.rows (A.cols + B.cols + D.cols + E.cols) g
    let C ← C.setBlockC 0 0 C.rows A.cols A
    let C ← C.setBlockC 0 A.cols C.rows B.cols B
    let C ← C.setBlockC 0 (A.cols + B.cols) C.rows D.cols D
    C.setBlockC 0 (C.cols - E.cols) C.rows E.cols E
  else .throws

/-- EU:80-94 `vertcat(H_II, H_JJ)`; for columns EU:118-132 `vertcat_vec`. -/
def vertcat (g : ℕ → ℕ → ℝ) (A B : Mat) : Res Mat :=
  if A.size = 0 then .ok B
  else if B.size = 0 then .ok A
  else if A.cols = B.cols then do
    let c ← comma1 (of (A.rows + B.rows) B.cols g) A
    let c ← c.next B
    c.fin
  else .throws

/-- EU:96-104 `vertcat(H_II, H_JJ, H_KK)`. -/
def vertcat3 (g : ℕ → ℕ → ℝ) (A B D : Mat) : Res Mat :=
  if A.cols = B.cols ∧ A.cols = D.cols then do
    let c ← comma1 (of (A.rows + B.rows + D.rows) B.cols g) A
    let c ← c.next B
    let c ← c.next D
    c.fin
  else .throws

/-- EU:142-156 `horcat_vec(v_II, v_JJ)` of column vectors: the result is declared `Eigen::VectorXd C(rows, 2)`, a column
vector with two columns, which Eigen asserts against: undefined behaviour. -/
def horcatVec (v w : Mat) : Res Mat :=
  if v.size = 0 then .ok w
  else if w.size = 0 then .ok v
  else if v.rows = w.rows then
    if v.cols + w.cols = 1 then .ok v -- never: a VectorXd has one column
    else .ub
  else .throws

/-- EU:285-292 `blkdiag`. -/
def blkdiag (A B : Mat) : Res Mat := do
  let C := zero (A.rows + B.rows) (A.cols + B.cols)
  let C ← C.setBlockC 0 0 A.rows B.cols A
  C.setBlockC A.rows B.cols B.rows B.cols B

/-! ## Stacking and splitting -/

/-- EU:224-234 `stack_Sigma(Sigma_II, Sigma_JJ, Sigma_IJ)`. -/
def stackSigma2 (g : ℕ → ℕ → ℝ) (SII SJJ SIJ : Mat) : Res Mat :=
  if SIJ.size = 0 then .throws
  else if SII.rows = SIJ.rows ∧ SIJ.cols = SJJ.cols then do
    let c ← comma1 (of (SII.rows + SJJ.rows) (SII.cols + SJJ.cols) g) SII
    let c ← c.next SIJ
    let c ← c.next SIJ.tr
    let c ← c.next SJJ
    c.fin
  else .throws

/-- `A.bottomRightCorner(r, c)`. -/
def brC (A : Mat) (r c : ℕ) : Res Mat := if r ≤ A.rows ∧ c ≤ A.cols then A.blockC (A.rows - r) (A.cols - c) r c else .ub

/-- `A.topRightCorner(r, c)`. -/
def trC (A : Mat) (r c : ℕ) : Res Mat := if r ≤ A.rows ∧ c ≤ A.cols then A.blockC 0 (A.cols - c) r c else .ub

/-- EU:213-222 `split_Sigma` into (II, JJ, IJ). -/
def splitSigma2 (S : Mat) (i j : ℕ) : Res (Mat × Mat × Mat) :=
  if i = 0 ∨ j = 0 then .throws
  else if S.rows = i + j ∧ S.cols = i + j then do
    let II ← S.blockC 0 0 i i
    let JJ ← brC S j j
    let IJ ← trC S i j
    .ok (II, JJ, IJ)
  else .throws

/-- EU:197-211 `split_Sigma` into (II, JJ, KK, IJ, IK, JK). -/
def splitSigma3 (S : Mat) (i j k : ℕ) : Res (Mat × Mat × Mat × Mat × Mat × Mat) :=
  if i = 0 ∨ j = 0 ∨ k = 0 then .throws
  else if S.rows = i + j + k ∧ S.cols = i + j + k then do
    let II ← S.blockC 0 0 i i
    let JJ ← S.blockC i i j j
    let IJ ← S.blockC 0 i i j
    let IK ← trC S i k
    let JK ← S.blockC i (i + j) j k
    let KK ← brC S k k
    .ok (II, JJ, KK, IJ, IK, JK)
  else .throws

/-- EU:177-195 `split_Sigma` into (II, JJ, KK, LL, IJ, IK, JK, IL, JL, KL): no size check. `bottomRightCorner(l, l)` of a
matrix with fewer rows is out of range. -/
def splitSigma4 (S : Mat) (i j k l : ℕ) : Res (Mat × Mat × Mat × Mat × Mat × Mat × Mat × Mat × Mat × Mat) := do
  let II ← S.blockC 0 0 i i
  let JJ ← S.blockC i i j j
  let KK ← S.blockC (i + j) (i + j) k k
  let LL ← brC S l l
  let IJ ← S.blockC 0 i i j
  let IK ← S.blockC 0 (i + j) i k
  let IL ← trC S i l
  let JK ← S.blockC i (i + j) j k
  let JL ← S.blockC i (i + j + k) j l
  let KL ← S.blockC (i + j) (i + j + k) k l
  .ok (II, JJ, KK, LL, IJ, IK, JK, IL, JL, KL)

/-! ## Tests and repair -/

/-- EU:24-27 `negative_diag` (the diagonal of a rectangular matrix has min(rows, cols) entries). -/
noncomputable def negativeDiag (A : Mat) : Bool :=
  open Classical in decide (∃ i < min A.rows A.cols, A.e i i < 0)

/-- EU:236-272 `nearest_covariance(Sigma, eps)`. The eigenvalue decomposition of `symmetrize(Sigma)` is the parameter
(`V`, `D`): the real parts of eigenvectors and eigenvalues (`Eigen::EigenSolver` is a trusted part). -/
noncomputable def nearestCov {n : ℕ} (V : Matrix (Fin n) (Fin n) ℝ) (D : Fin n → ℝ) (S : Matrix (Fin n) (Fin n) ℝ)
    (eps : ℝ) : Matrix (Fin n) (Fin n) ℝ :=
  open Classical in
  if ∃ k, D k < 0 then V * Matrix.diagonal (fun k => if D k < 0 then eps else D k) * V⁻¹ else S

end MatU
end Ikf
