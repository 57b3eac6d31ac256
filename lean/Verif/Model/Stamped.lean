import Verif.Model.Timestamp

/-!
# Stamped data

Model of the comparisons of `TStampedData` (source/ikf/include/ikf/Container/TStampedData.hpp, `TS`) with each other, with a timestamp and
with a time in seconds (a finite double).
-/

namespace Ikf

/-- TS:28-35. -/
structure Stamped (α : Type _) where
  data : α
  stamp : Timestamp

namespace Stamped
variable {α : Type _}

/-- TS:37-51. -/
def lt (a b : Stamped α) : Bool :=
  if a.stamp.sec < b.stamp.sec then true
  else if a.stamp.sec == b.stamp.sec then
    if a.stamp.nsec < b.stamp.nsec then true else false
  else false

/-- TS:53-67. -/
def ltT (a : Stamped α) (t : Timestamp) : Bool :=
  if a.stamp.sec < t.sec then true
  else if a.stamp.sec == t.sec then
    if a.stamp.nsec < t.nsec then true else false
  else false

/-- TS:69-72. -/
def ltD (fp : FP) (a : Stamped α) (d : ℚ) : Bool := decide (fp.toSec a.stamp < d)

/-- TS:75-77. -/
def eq (a b : Stamped α) : Bool := a.stamp.sec == b.stamp.sec && a.stamp.nsec == b.stamp.nsec

/-- TS:79-81. -/
def eqT (a : Stamped α) (t : Timestamp) : Bool := a.stamp.sec == t.sec && a.stamp.nsec == t.nsec

/-- TS:82-84. -/
def eqD (fp : FP) (a : Stamped α) (d : ℚ) : Bool := decide (fp.toSec a.stamp = d)

/-- TS:86-88. -/
def gt (a b : Stamped α) : Bool := !(eq a b) && !(lt a b)

/-- TS:90-92. -/
def gtT (a : Stamped α) (t : Timestamp) : Bool := !(eqT a t) && !(ltT a t)

/-- TS:94-96. -/
def gtD (fp : FP) (a : Stamped α) (d : ℚ) : Bool := !(eqD fp a d) && !(ltD fp a d)

/-- TS:99-100: a time in seconds on the left. -/
def dLt (fp : FP) (d : ℚ) (a : Stamped α) : Bool := Timestamp.lt (fp.fromSec d) a.stamp

/-- TS:102-103: a timestamp on the left. -/
def tLt (t : Timestamp) (a : Stamped α) : Bool := Timestamp.lt t a.stamp

end Stamped
end Ikf
