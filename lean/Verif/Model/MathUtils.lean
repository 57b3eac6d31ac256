import Verif.Model.Mat
import Mathlib.Algebra.Order.Floor.Ring
import Mathlib.Analysis.SpecialFunctions.Complex.Arg
import Mathlib.Analysis.SpecialFunctions.Trigonometric.Inverse
import Mathlib.LinearAlgebra.Matrix.Notation

/-!
# Scalar and small-matrix helpers

Model of source/ikf/source/utils/math.cpp (cited MA). The wrap functions are generic in the ordered field
of numbers and take the rounding of `+` and `-` as a parameter: `rnd = id` is exact arithmetic, a 53-bit
rounding is `double`. `fmod` is exact in IEEE arithmetic and is not rounded.
-/

namespace Ikf
namespace MathU

section wrap
variable {K : Type*} [Field K] [LinearOrder K] [IsStrictOrderedRing K] [FloorRing K]

/-- `trunc`: toward zero. -/
def truncZ (x : K) : ℤ := if 0 ≤ x then ⌊x⌋ else ⌈x⌉

/-- C `fmod(x, y)` (sign of the dividend); `none` is NaN (`y = 0`). -/
def fmod (x y : K) : Option K := if y = 0 then none else some (x - y * truncZ (x / y))

/-- MA:65-68 `wrapMax`. -/
def wrapMax (rnd : K → K) (x max : K) : Option K :=
  match fmod x max with
  | none => none
  | some a => fmod (rnd (max + a)) max

/-- MA:70 `wrapMinMax`. -/
def wrapMinMax (rnd : K → K) (x min max : K) : Option K :=
  match wrapMax rnd (rnd (x - min)) (rnd (max - min)) with
  | none => none
  | some a => some (rnd (min + a))

end wrap

/-- MA:72 `wrapToPi` in exact arithmetic. -/
noncomputable def wrapToPi (x : ℝ) : Option ℝ := wrapMinMax id x (-Real.pi) Real.pi

/-- The C macro `M_2_PI` is 2/π. -/
noncomputable def M_2_PI : ℝ := 2 / Real.pi

/-- MA:74 `wrapTo2Pi` in exact arithmetic. -/
noncomputable def wrapTo2Pi (x : ℝ) : Option ℝ := wrapMinMax id x (-M_2_PI) M_2_PI

/-- MA:76 `wrapTo180deg` in exact arithmetic. -/
noncomputable def wrapTo180deg (x : ℝ) : Option ℝ := wrapMinMax id x (-180) 180

/-- MA:78 `wrapTo360deg` in exact arithmetic. -/
noncomputable def wrapTo360deg (x : ℝ) : Option ℝ := wrapMinMax id x (-360) 360

/-- MA:17-19 `rad2deg`. -/
noncomputable def rad2deg (x : ℝ) : ℝ := x * (180 / Real.pi)

/-- MA:21-23 `deg2rad`. -/
noncomputable def deg2rad (x : ℝ) : ℝ := x * (Real.pi / 180)

/-- MA:25-29 `skew`. -/
def skew (v : Fin 3 → ℝ) : Matrix (Fin 3) (Fin 3) ℝ :=
  !![0, -v 2, v 1; v 2, 0, -v 0; -v 1, v 0, 0]

/-- MA:31-34 `skew_inv`. -/
def skewInv (M : Matrix (Fin 3) (Fin 3) ℝ) : Fin 3 → ℝ := ![M 2 1, M 0 2, M 1 0]

/-- MA:36-46 `OmegaMat`: row 0 is `[0, -vᵀ]`, column 0 is `[0; v]`, the rest is `-skew(v)`. -/
def omegaMat (v : Fin 3 → ℝ) : Matrix (Fin 4) (Fin 4) ℝ :=
  Matrix.of fun i j =>
    Fin.cases (Fin.cases 0 (fun j' => -v j') j) (fun i' => Fin.cases (v i') (fun j' => -(skew v i' j')) j) i

/-- MA:55-60: the loop of `MatExp` from `k` on, `n` iterations to go. `div` is an `int`: leaving its range is
undefined behaviour. -/
noncomputable def matExpLoop (A : Matrix (Fin 4) (Fin 4) ℝ) :
    ℕ → ℕ → ℤ → Matrix (Fin 4) (Fin 4) ℝ → Matrix (Fin 4) (Fin 4) ℝ → Res (Matrix (Fin 4) (Fin 4) ℝ)
  | 0, _, _, acc, _ => .ok acc
  | n + 1, k, div, acc, a =>
    let div' := div * k
    if div' < -2147483648 ∨ 2147483647 < div' then .ub
    else matExpLoop A n (k + 1) div' (acc + (1 / (div' : ℝ)) • a) (a * A)

/-- MA:48-63 `MatExp`; a negative order runs no iteration. -/
noncomputable def matExp (A : Matrix (Fin 4) (Fin 4) ℝ) (order : ℤ) : Res (Matrix (Fin 4) (Fin 4) ℝ) :=
  matExpLoop A order.toNat 1 1 1 A

/-- `Eigen::Quaterniond`. -/
structure Quat where
  w : ℝ
  x : ℝ
  y : ℝ
  z : ℝ

/-- `std::atan2(y, x)` in exact arithmetic, without signed zeros. -/
noncomputable def atan2 (y x : ℝ) : ℝ := Complex.arg ⟨x, y⟩

/-- MA:80-84 `quat2rpy`: the argument of `asin` in line 82 has no factor 2. (For |argument| > 1, possible for a
non-unit quaternion only, the code yields NaN; `Real.arcsin` is clamped; the theorems are for unit ones.) -/
noncomputable def quat2rpy (q : Quat) : ℝ × ℝ × ℝ :=
  (atan2 (2 * (q.w * q.x + q.y * q.z)) (1 - 2 * (q.x * q.x + q.y * q.y)),
   Real.arcsin (q.w * q.y - q.z * q.x),
   atan2 (2 * (q.w * q.z + q.x * q.y)) (1 - 2 * (q.y * q.y + q.z * q.z)))

end MathU
end Ikf
