import Mathlib.Data.Rat.Floor
import Mathlib.Algebra.Order.Floor.Ring
import Mathlib.Tactic.Positivity

/-!
# Timestamps

Model of `ikf::Timestamp` (source/ikf/include/ikf/Container/Timestamp.hpp,
source/ikf/source/Containers/Timestamp.cpp).
-/

namespace Ikf

/-- Timestamp.hpp:42-44. `sec` is an `int64_t`, `nsec` an `int32_t`; the `(sec,nsec)` constructor
(Timestamp.cpp:21) stores both without normalising. Here both are unbounded integers; the functions
that can leave the int64 range say so in their result type. -/
@[ext] structure Timestamp where
  sec  : Int
  nsec : Int
deriving DecidableEq, Repr

/-- Outcome of an `int64_t` computation. -/
inductive I64 where
  | ok (v : Int)      -- value computed without leaving the int64 range
  | loggedZero        -- error logged, 0 returned (Timestamp.cpp:77-81)
  | overflow          -- signed overflow: undefined behaviour
deriving DecidableEq, Repr

/-- The mathematical value fits an `int64_t`. -/
abbrev fitsI64 (v : Int) : Prop := -9223372036854775808 ≤ v ∧ v ≤ 9223372036854775807

namespace Timestamp

/-- Timestamp.cpp:51. -/
def isZero (t : Timestamp) : Bool := t.sec == 0 && t.nsec == 0

/-- Timestamp.cpp:71-82 `stamp_ns`. The product and the sum are `int64_t` operations; leaving the
range in either is undefined behaviour. -/
def stampNs (t : Timestamp) : I64 :=
  if t.sec ≤ 9223372036 then
    if fitsI64 (t.sec * 1000000000) then
      if fitsI64 (t.sec * 1000000000 + t.nsec) then .ok (t.sec * 1000000000 + t.nsec)
      else .overflow
    else .overflow
  else .loggedZero

/-- What the caller of `stamp_ns` receives when nothing overflowed: error branch returns 0
(Timestamp.cpp:80). -/
def keyOf : I64 → Option Int
  | .ok v => some v
  | .loggedZero => some 0
  | .overflow => none

/-- Timestamp.cpp:84-87 `from_stamp_ns`. C++ `/` and `%` truncate toward zero. -/
def ofStampNs (k : Int) : Timestamp := ⟨k.tdiv 1000000000, k.tmod 1000000000⟩

/-- Timestamp.cpp:53-57 `stamp_ms` (unbounded integers: the int64 product overflows only for
|sec| > 9.2e15, which is outside every theorem's range). -/
def stampMs (t : Timestamp) : Int := t.sec * 1000 + t.nsec.tdiv 1000000

/-- Timestamp.cpp:59-62 `from_stamp_ms`. -/
def ofStampMs (k : Int) : Timestamp := ⟨k.tdiv 1000, k.tmod 1000 * 1000000⟩

/-- Timestamp.cpp:64 `stamp_us`. -/
def stampUs (t : Timestamp) : Int := t.sec * 1000000 + t.nsec.tdiv 1000

/-- The conversion `unsigned long -> int32_t` (modulo 2^32 into the signed range). -/
def toI32 (v : Int) : Int := (v + 2147483648) % 4294967296 - 2147483648

/-- Timestamp.cpp:66-69 `from_stamp_us`. The multiplication by `1000ul` is *unsigned* 64-bit: a
negative remainder is first converted modulo 2^64; the result is converted to `int32_t`. -/
def ofStampUs (k : Int) : Timestamp :=
  ⟨k.tdiv 1000000,
   toI32 ((k.tmod 1000000 % 18446744073709551616 * 1000) % 18446744073709551616)⟩

/-- Timestamp.cpp:91-100 `operator<`. -/
def lt (a b : Timestamp) : Bool :=
  if a.sec < b.sec then true
  else if a.sec == b.sec then
    if a.nsec < b.nsec then true else false
  else false

/-- Timestamp.cpp:102 `operator==`. -/
def eq (a b : Timestamp) : Bool := a.sec == b.sec && a.nsec == b.nsec

/-- Timestamp.cpp:106 `operator>`. -/
def gt (a b : Timestamp) : Bool := !(eq a b) && !(lt a b)

/-- Timestamp.cpp:104 `operator<=`. -/
def le (a b : Timestamp) : Bool := !(gt a b)

/-- The exact value of a timestamp in nanoseconds: what `stamp_ns` returns when it neither overflows
nor takes its error branch (`c01_key_roundtrip`). -/
def ns (t : Timestamp) : Int := t.sec * 1000000000 + t.nsec

/-- Every stamp the library itself produces from doubles or non-negative keys. -/
abbrev Normal (t : Timestamp) : Prop := 0 ≤ t.nsec ∧ t.nsec < 1000000000

/-- Times for which nanosecond keys are faithful. -/
abbrev InRange (t : Timestamp) : Prop := 0 ≤ t.sec ∧ t.sec ≤ 9223372035

end Timestamp

/-! ## Double arithmetic on times -/

/-- An arbitrary rounding of exact rational results to doubles: monotone, exact on integers up to
2^53, idempotent, relative error at most 2^-52 away from underflow. IEEE-754 binary64 in each
rounding mode satisfies this (absent overflow); `FP.trunc53` in Lemmas/FloatInstance.lean is a
53-bit binary floating-point instance. -/
structure FP where
  rnd : ℚ → ℚ
  mono : ∀ x y, x ≤ y → rnd x ≤ rnd y
  exactInt : ∀ n : ℤ, -9007199254740992 ≤ n → n ≤ 9007199254740992 → rnd n = n
  idem : ∀ x, rnd (rnd x) = rnd x
  relErr : ∀ x, 1/1000000000000000000000000000000 ≤ |x| → |rnd x - x| ≤ |x| / 4503599627370496

/-- Exact arithmetic is one instance. -/
def FP.exact : FP :=
  ⟨id, fun _ _ h => h, fun _ _ _ => rfl, fun _ => rfl, fun x _ => by simp; positivity⟩

/-- `std::round`: nearest integer, halves away from zero. -/
def roundHalfAway (x : ℚ) : ℤ := if 0 ≤ x then ⌊x + 1/2⌋ else -⌊-x + 1/2⌋

namespace FP

/-- Timestamp.cpp:28 `to_sec`: `(double)sec + 1e-9 * (double)nsec`. Conversion of `sec`, the
literal `1e-9`, the product and the sum are each rounded (`nsec` is an int32, exact). -/
def toSec (fp : FP) (t : Timestamp) : ℚ :=
  fp.rnd (fp.rnd t.sec + fp.rnd (fp.rnd (1/1000000000) * t.nsec))

/-- Timestamp.cpp:30-49 `from_sec` for a finite argument `x` (a double). `x - sec` and the product
with `1e9` are rounded. The branch at line 33 (`0x1FFFFFFFF`) is kept; the cast of `floor(x)` to
int64 is exact for every `x` above -2^63. -/
def fromSec (fp : FP) (x : ℚ) : Timestamp :=
  let sec64 := ⌊x⌋
  if sec64 ≤ 8589934591 then
    let nsec := roundHalfAway (fp.rnd (fp.rnd (x - fp.rnd sec64) * 1000000000))
    ⟨sec64 + nsec.tdiv 1000000000, nsec.tmod 1000000000⟩
  else ⟨0, 0⟩

/-- Timestamp.cpp:108 `operator+`. -/
def add (fp : FP) (a b : Timestamp) : Timestamp := fp.fromSec (fp.rnd (fp.toSec a + fp.toSec b))

/-- Timestamp.cpp:110 `operator-`. -/
def sub (fp : FP) (a b : Timestamp) : Timestamp := fp.fromSec (fp.rnd (fp.toSec a - fp.toSec b))

end FP

/-- `from_sec` on any double, including non-finite ones (`none`): Timestamp.cpp:31,44-48 silently
sets zero. -/
def FP.fromDouble (fp : FP) : Option ℚ → Timestamp
  | none => ⟨0, 0⟩
  | some x => fp.fromSec x

end Ikf
