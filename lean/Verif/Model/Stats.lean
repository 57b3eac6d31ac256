import Verif.Model.Mat
import Mathlib.Algebra.Order.Floor.Ring
import Mathlib.Analysis.Real.Sqrt

/-!
# Statistics of a container of numbers, and rounding to digits

Model of the templates of source/ikf/include/ikf/utils/math.hpp (`MH`): `roundn`, `mean`, `stddev`, `max`, `min`; for
`double` in exact real arithmetic (`none` is NaN), for `int` (32 bit; `size_t`, `ptrdiff_t` 64 bit) `mean` and `roundn`.
-/

namespace Ikf
namespace Stats

/-- MH:59-65 `mean` of doubles: 0/0 is NaN. -/
noncomputable def mean (c : List ℝ) : Option ℝ :=
  if c.length = 0 then none else some (c.sum / c.length)

/-- MH:66-77 `stddev` of doubles. An empty container leaves `accum = 0` and gives `sqrt(0 / -1) = -0.0`; one value gives 0/0. -/
noncomputable def stddev (c : List ℝ) : Option ℝ :=
  if c.length = 1 then none
  else
    let mean := c.sum / c.length
    let accum := c.foldl (fun a d => a + (d - mean) ^ 2) 0
    some (Real.sqrt (accum / ((c.length : ℝ) - 1)))

/-- `std::max_element`: the candidate is replaced by a later element that is larger. -/
def maxElement {K : Type} [LT K] [DecidableLT K] (x : K) (r : List K) : K := r.foldl (fun m y => if m < y then y else m) x

/-- `std::min_element`. -/
def minElement {K : Type} [LT K] [DecidableLT K] (x : K) (r : List K) : K := r.foldl (fun m y => if y < m then y else m) x

/-- MH:79-86 `max`; `lim` is `std::numeric_limits<T>::max()`. -/
def max {K : Type} [LT K] [DecidableLT K] (lim : K) : List K → K
  | [] => lim
  | x :: r => maxElement x r

/-- MH:88-95 `min`. -/
def min {K : Type} [LT K] [DecidableLT K] (lim : K) : List K → K
  | [] => lim
  | x :: r => minElement x r

/-- C `round`: halves away from zero. -/
noncomputable def cround (x : ℝ) : ℤ := if 0 ≤ x then ⌊x + 1 / 2⌋ else ⌈x - 1 / 2⌉

/-- MH:26 `size_t const scale = std::pow(10, precision)`: a value outside of `size_t` is undefined. -/
def scale (precision : ℕ) : Res ℕ := if 10 ^ precision < 2 ^ 64 then .ok (10 ^ precision) else .ub

/-- MH:24-28 `roundn` of a double. -/
noncomputable def roundn (val : ℝ) (precision : ℕ) : Res ℝ := do
  let s ← scale precision
  .ok ((cround (val * s) : ℝ) / s)

/-- The sum of MH:63 for `int`: leaving the range of `int` is undefined. -/
def sumInt : ℤ → List ℤ → Res ℤ
  | a, [] => .ok a
  | a, x :: r => if -2 ^ 31 ≤ a + x ∧ a + x < 2 ^ 31 then sumInt (a + x) r else .ub

/-- MH:59-65 `mean` of ints: the quotient is rounded toward zero, a division by zero is undefined. -/
def meanInt (c : List ℤ) : Res ℤ := do
  let sum ← sumInt 0 c
  if c.length = 0 then .ub else .ok (sum.tdiv c.length)

/-- MH:24-28 `roundn` of an int: `val * scale` is computed modulo 2^64 (`val` is converted to `size_t`); the result, a double, is
converted back to `int`, which is undefined outside of its range. Simplification: the double quotient is exact (then cut off). -/
def roundnInt (val : ℤ) (precision : ℕ) : Res ℤ := do
  let s ← scale precision
  let p : ℤ := (val * (s : ℤ)) % 2 ^ 64
  let q : ℤ := p / (s : ℤ)
  if q < 2 ^ 31 then .ok q else .ub

end Stats
end Ikf
