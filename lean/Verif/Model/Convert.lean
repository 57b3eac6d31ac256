import Verif.Model.Mat
import Verif.Model.Quat

/-!
# Conversions between Eigen's and the standard containers

Model of source/ikf/include/ikf/utils/eigen_utils.hpp (`EUH`), lines 29-185. `std::vector<T>` is `List`; a matrix constructed with a size is
uninitialised: its entries are the parameter `g` (arbitrary); a default constructed quaternion is the parameter `q₀`. `std::vector::at` throws
outside the vector, an index outside an Eigen matrix is undefined behaviour.
-/

namespace Ikf
namespace Conv
open Quaternion

/-- `for (size_t i = 0; i < n; i++) { s = body(i, s); }`. -/
def loop {σ : Type _} (body : ℕ → σ → Res σ) : ℕ → σ → Res σ
  | 0, s => .ok s
  | n + 1, s => do
    let s ← loop body n s
    body n s

/-- `v.at(i)`. -/
def vat {α : Type _} (v : List α) (i : ℕ) : Res α :=
  match v[i]? with
  | some x => .ok x
  | none => .throws

/-- `v.at(i) = x`. -/
def vput {α : Type _} (v : List α) (i : ℕ) (x : α) : Res (List α) :=
  if i < v.length then .ok (v.set i x) else .throws

/-- `M(i, j)`. -/
def eget (M : Mat) (i j : ℕ) : Res ℝ := if i < M.rows ∧ j < M.cols then .ok (M.e i j) else .ub

/-- `M(i, j) = x`. -/
def eput (M : Mat) (i j : ℕ) (x : ℝ) : Res Mat :=
  if i < M.rows ∧ j < M.cols then .ok (Mat.of M.rows M.cols fun a b => if a = i ∧ b = j then x else M.e a b) else .ub

/-- EUH:29-47 `to_vector` of a column; `cast` is the conversion to the type of the elements (the identity for `double`). -/
def toVectorCol {α : Type _} [Inhabited α] (cast : ℝ → α) (vec : Mat) : Res (List α) :=
  loop (fun i v => do vput v i (cast (← eget vec i 0))) vec.rows (List.replicate vec.rows default)

/-- EUH:49-67 `to_vector` of a row. -/
def toVectorRow {α : Type _} [Inhabited α] (cast : ℝ → α) (vec : Mat) : Res (List α) :=
  loop (fun i v => do vput v i (cast (← eget vec 0 i))) vec.cols (List.replicate vec.cols default)

/-- EUH:69-78 `from_vector`. -/
def fromVector (g : ℕ → ℕ → ℝ) (vec : List ℝ) : Res Mat :=
  loop (fun i v => do eput v i 0 (← vat vec i)) vec.length (Mat.of vec.length 1 g)

/-- EUH:80-97 `toEigenMatrix`: the number of columns is that of the first row, 1 if there is none. -/
def toEigenMatrix (g : ℕ → ℕ → ℝ) (mat : List (List ℝ)) : Res Mat :=
  let cols := match mat with
    | [] => 1
    | r :: _ => r.length
  loop (fun r m => loop (fun c m => do eput m r c (← vat (← vat mat r) c)) cols m) mat.length (Mat.of mat.length cols g)

/-- `M.col(c) = v`, also `M.row(c)` below: the sizes agree by the type, an index outside the matrix is undefined behaviour. -/
def putCol (M : Mat) (c : ℕ) (v : Mat) : Res Mat :=
  if c < M.cols then .ok (Mat.of M.rows M.cols fun a b => if b = c then v.e a 0 else M.e a b) else .ub

/-- `M.row(r) = v.transpose()`. -/
def putRow (M : Mat) (r : ℕ) (v : Mat) : Res Mat :=
  if r < M.rows then .ok (Mat.of M.rows M.cols fun a b => if a = r then v.e b 0 else M.e a b) else .ub

/-- EUH:99-110 `toEigenColMatrix`: the elements of `mat` are columns of `dim` elements. -/
def toEigenColMatrix (g : ℕ → ℕ → ℝ) (dim : ℕ) (mat : List Mat) : Res Mat :=
  loop (fun c M => do putCol M c (← vat mat c)) mat.length (Mat.of dim mat.length g)

/-- EUH:112-123 `toEigenRowMatrix`: the loop counts to the number of columns. -/
def toEigenRowMatrix (g : ℕ → ℕ → ℝ) (dim : ℕ) (mat : List Mat) : Res Mat :=
  loop (fun c M => do putRow M c (← vat mat c)) dim (Mat.of mat.length dim g)

/-- EUH:125-153 `toEigenQuat` of a matrix and of a vector of run-time size, EUH:155-163 of one with 4 elements: only printed when the size is
wrong. -/
def toEigenQuat (q₀ : ℍ[ℝ]) (m : Mat) : ℍ[ℝ] :=
  if m.rows = 4 ∧ m.cols = 1 then Quat.mk (m.e 0 0) (m.e 1 0) (m.e 2 0) (m.e 3 0) else q₀

/-- EUH:165-173 `fromEigenQuat`. -/
def fromEigenQuat (q : ℍ[ℝ]) : Mat :=
  Mat.of 4 1 fun i _ => if i = 0 then q.re else if i = 1 then q.imI else if i = 2 then q.imJ else q.imK

/-- EUH:176-185 `fromEigenMatrix`; `m.front()` is only evaluated when there is a row. -/
def fromEigenMatrix (M : Mat) : Res (List (List ℝ)) :=
  loop (fun i m => loop (fun j m => do
      let x ← eget M i j
      let row ← vat m i
      vput m i (← vput row j x)) (m.headD []).length m)
    M.rows (List.replicate M.rows (List.replicate M.cols 0))

end Conv
end Ikf
