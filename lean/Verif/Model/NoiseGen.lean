import Mathlib.Data.Real.Basic

/-!
# The shared generator of normal numbers

Model of `ikf::GaussianNoiseGen` (source/ikf/source/utils/GaussianNoiseGen.cpp, `GN`) and `ikf::UnivariateNormal`
(source/ikf/include/ikf/utils/UnivariateNormal.hpp, `UN`).

`std::mt19937` and `std::normal_distribution` are the standard library's: the engine is an arbitrary type `G`; the distribution is libstdc++'s,
which makes two numbers at a time from the engine (`pair`) and keeps the second for the next call.
-/

namespace Ikf
namespace Noise

/-- The standard library: `seeded` is `mt19937::seed(value)` (which uses the value modulo 2^32), `pair` makes two normal numbers. -/
structure Lib (G : Type) where
  seeded : ℕ → G
  pair : G → (ℝ × ℝ) × G

/-- GaussianNoiseGen.hpp:50-51: the engine and the distribution with the number it keeps. -/
structure Gen (G : Type) where
  engine : G
  kept : Option ℝ

variable {G : Type} (lib : Lib G)

/-- GN:22-23: the engine starts from `std::random_device`. -/
def start (device : G) : Gen G := ⟨device, none⟩

/-- GN:25 `seed`. -/
def seed (s : Gen G) (v : ℕ) : Gen G := { s with engine := lib.seeded (v % 4294967296) }

/-- GN:27-29 `randn`. -/
def randn (s : Gen G) : ℝ × Gen G :=
  match s.kept with
  | some x => (x, { s with kept := none })
  | none =>
    let r := lib.pair s.engine
    (r.1.1, ⟨r.2, some r.1.2⟩)

/-- GN:31-37 `randn(N)`, and the order in which `samples` of the distribution classes draws its entries. -/
def randns : ℕ → Gen G → List ℝ × Gen G
  | 0, s => ([], s)
  | n + 1, s =>
    let x := randn lib s
    let r := randns n x.2
    (x.1 :: r.1, r.2)

/-- Calls of anybody in the program: numbers drawn, or a seed set. -/
inductive Ev where
  | draw (n : ℕ)
  | seed (v : ℕ)

/-- A call: the numbers delivered and the generator afterwards. -/
def step (s : Gen G) : Ev → List ℝ × Gen G
  | .draw n => randns lib n s
  | .seed v => ([], seed lib s v)

/-- A history of calls. -/
def run : List Ev → Gen G → List ℝ × Gen G
  | [], s => ([], s)
  | e :: es, s =>
    let x := step lib s e
    let r := run es x.2
    (x.1 ++ r.1, r.2)

/-- UN:42-45 `samples`. -/
def samples (mean std : ℝ) (nn : ℕ) (s : Gen G) : List ℝ × Gen G :=
  let r := randns lib nn s
  (r.1.map fun z => std * z + mean, r.2)

end Noise
end Ikf
