import Verif.Model.Mat

/-!
# The scoped timed lock

Model of source/ikf/include/ikf/utils/lock_guard_timed.hpp (`lock_guard_timed`) on a
`std::recursive_timed_mutex`. Any number of threads, interleaved arbitrarily; a thread opens scopes
(constructs a guard and calls `try_lock` once, as every function of the library does) and leaves them in
reverse order. A thread that waits inside `try_lock_for` simply has not taken its step yet.
Simplification: the recursion depth of the mutex is unbounded.
-/

namespace Ikf.Lock

/-- A `std::recursive_timed_mutex`: the owning thread and how often it has locked it. -/
inductive Mutex where
  | free
  | held (owner depth : ℕ)   -- locked `depth + 1` times
deriving DecidableEq

/-- The mutex and, per thread, the results of `try_lock` of its open scopes, innermost first. The flags are
not stored by the C++ guard (lock_guard_timed.hpp:40-42 has no such member). -/
structure St where
  m : Mutex
  open_ : ℕ → List Bool

/-- What a thread does next. -/
inductive Ev where
  /-- lock_guard_timed.hpp:30-33: guard constructed, `try_lock()` answers `ok`. -/
  | enter (th : ℕ) (ok : Bool)
  /-- lock_guard_timed.hpp:34: the innermost scope ends, the guard is destructed. -/
  | leave (th : ℕ)

/-- `unlock()` by thread `th`: undefined behaviour unless it owns the mutex. -/
def unlock (m : Mutex) (th : ℕ) : Res Mutex :=
  match m with
  | .free => .ub
  | .held o d => if o = th then .ok (match d with | 0 => .free | d + 1 => .held o d) else .ub

/-- Update of the open scopes of one thread. -/
def St.put (s : St) (th : ℕ) (l : List Bool) : ℕ → List Bool := fun x => if x = th then l else s.open_ x

/-- One step. `try_lock_for` can succeed only on a free mutex or one's own; it can fail (time-out) only while
another thread holds the mutex. -/
inductive Step : St → Ev → Res St → Prop
  | lockFree (s : St) (th : ℕ) : s.m = .free →
      Step s (.enter th true) (.ok ⟨.held th 0, s.put th (true :: s.open_ th)⟩)
  | lockOwn (s : St) (th d : ℕ) : s.m = .held th d →
      Step s (.enter th true) (.ok ⟨.held th (d + 1), s.put th (true :: s.open_ th)⟩)
  | timeout (s : St) (th o d : ℕ) : s.m = .held o d → o ≠ th →
      Step s (.enter th false) (.ok ⟨s.m, s.put th (false :: s.open_ th)⟩)
  | leaveOk (s : St) (th : ℕ) (b : Bool) (l : List Bool) (m : Mutex) : s.open_ th = b :: l → unlock s.m th = .ok m →
      Step s (.leave th) (.ok ⟨m, s.put th l⟩)
  | leaveUb (s : St) (th : ℕ) (b : Bool) (l : List Bool) : s.open_ th = b :: l → unlock s.m th = .ub →
      Step s (.leave th) .ub

/-- A schedule. Undefined behaviour ends it. -/
inductive Run : St → List Ev → Res St → Prop
  | nil (s : St) : Run s [] (.ok s)
  | cons {s s' : St} {e : Ev} {es : List Ev} {r : Res St} : Step s e (.ok s') → Run s' es r → Run s (e :: es) r
  | ub {s : St} {e : Ev} {es : List Ev} : Step s e .ub → Run s (e :: es) .ub

/-- Nobody is inside a guarded function. -/
def start : St := ⟨.free, fun _ => []⟩

end Ikf.Lock
