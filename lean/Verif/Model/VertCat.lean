import Verif.Model.MatUtils

/-!
# The remaining concatenations of source/ikf/source/utils/eigen_utils.cpp (cited EU)
-/

namespace Ikf
namespace MatU
open Mat

/-- EU:106-115 `vertcat(H_II, H_JJ, H_KK, H_LL)`. -/
def vertcat4 (g : ℕ → ℕ → ℝ) (A B D E : Mat) : Res Mat :=
  if A.cols = B.cols ∧ A.cols = D.cols ∧ A.cols = E.cols then do
    let c ← comma1 (of (A.rows + B.rows + D.rows + E.rows) B.cols g) A
    let c ← c.next B
    let c ← c.next D
    let c ← c.next E
    c.fin
  else .throws

/-- EU:134-141 `vertcat_vec(v_II, v_JJ, v_KK)`: the arguments are `Eigen::VectorXd`, that is matrices with one column. -/
def vertcatVec3 (g : ℕ → ℕ → ℝ) (u v w : Mat) : Res Mat :=
  if u.cols = v.cols then
    if u.cols = w.cols then do
      let c ← comma1 (of (u.rows + v.rows + w.rows) v.cols g) u
      let c ← c.next v
      let c ← c.next w
      c.fin
    else .throws
  else .throws

/-- EU:158-165 `horcat_vec(v_II, v_JJ, v_KK)`: the result is declared a column vector with three columns, which Eigen asserts
against (undefined behaviour in release), for empty vectors too. -/
def horcatVec3 (u v w : Mat) : Res Mat :=
  if u.rows = v.rows then
    if u.rows = w.rows then
      if u.cols + v.cols + w.cols = 1 then .ok u -- never: a VectorXd has one column
      else .ub
    else .throws
  else .throws

end MatU
end Ikf
