import Verif.Model.Timestamp

/-!
# Timestamps: compound assignment and timestamped data

Model of the remaining operators of source/ikf/source/Containers/Timestamp.cpp.
-/

namespace Ikf

namespace FP

/-- Timestamp.cpp:117-120 `operator+=`: the value of `*this` afterwards. `from_sec` (30-49) overwrites both fields. -/
def addAssign (fp : FP) (a b : Timestamp) : Timestamp := fp.fromSec (fp.rnd (fp.toSec a + fp.toSec b))

/-- Timestamp.cpp:112-115 `operator-=`: the value of `*this` afterwards. -/
def subAssign (fp : FP) (a b : Timestamp) : Timestamp := fp.fromSec (fp.rnd (fp.toSec a - fp.toSec b))

end FP

/-- Timestamp.hpp:86-97 `Timestamped`: a timestamp, with whatever payload a derived class adds (`α` here). -/
structure Timestamped (α : Type) where
  stamp : Timestamp
  payload : α

namespace Timestamped
variable {α β : Type}

/-- Timestamp.cpp:124 `get_timestamp`. -/
def getTimestamp (a : Timestamped α) : Timestamp := ⟨a.stamp.sec, a.stamp.nsec⟩

/-- Timestamp.cpp:126-135 `operator<`. -/
def lt (a : Timestamped α) (b : Timestamped β) : Bool :=
  if a.stamp.sec < b.stamp.sec then true
  else if a.stamp.sec == b.stamp.sec then
    if a.stamp.nsec < b.stamp.nsec then true else false
  else false

/-- Timestamp.cpp:137 `operator==`: the payloads are not compared. -/
def eq (a : Timestamped α) (b : Timestamped β) : Bool := a.stamp.sec == b.stamp.sec && a.stamp.nsec == b.stamp.nsec

/-- Timestamp.cpp:139 `operator>`. -/
def gt (a : Timestamped α) (b : Timestamped β) : Bool := !(eq a b) && !(lt a b)

end Timestamped
end Ikf
