import Verif.Model.Convert

/-!
# Mean and covariance of samples

Model of source/ikf/include/ikf/utils/eigen_utils.hpp (`EUH`), lines 242-254 and 289-295, in exact real arithmetic. Whatever is not a number
(uninitialised memory, a division by zero) is the parameter `g` (arbitrary).
-/

namespace Ikf
namespace Conv

/-- `M.rowwise().mean()`; 0/0 without columns. -/
noncomputable def rowwiseMean (g : ℕ → ℕ → ℝ) (M : Mat) : Mat :=
  Mat.of M.rows 1 fun i j => if M.cols = 0 then g i j else (∑ k ∈ Finset.range M.cols, M.e i k) / M.cols

/-- `M.colwise() - mu`. -/
def colwiseSub (M mu : Mat) : Mat := Mat.of M.rows M.cols fun i j => M.e i j - mu.e i 0

/-- `A / d`. -/
noncomputable def divBy (g : ℕ → ℕ → ℝ) (A : Mat) (d : ℝ) : Mat := Mat.of A.rows A.cols fun i j => if d = 0 then g i j else A.e i j / d

/-- EUH:242-254 `sample_covariance`: the elements of `buf` are columns of `dim` elements. -/
noncomputable def sampleCovariance (g : ℕ → ℕ → ℝ) (dim : ℕ) (buf : List Mat) : Res Mat :=
  if 0 < buf.length then do
    let M ← loop (fun c M => do putCol M c (← vat buf c)) buf.length (Mat.zero dim buf.length)
    let C := colwiseSub M (rowwiseMean g M)
    .ok (divBy g (C * C.tr) ((buf.length - 1 : ℕ) : ℝ))
  else .ok (Mat.of dim dim g)

/-- EUH:289-295 `calc_cov_mean`: covariance and mean of the columns. -/
noncomputable def calcCovMean (g : ℕ → ℕ → ℝ) (M : Mat) : Mat × Mat :=
  let mu := rowwiseMean g M
  let C := colwiseSub M mu
  (divBy g (C * C.tr) ((M.cols : ℝ) - 1), mu)

end Conv
end Ikf
