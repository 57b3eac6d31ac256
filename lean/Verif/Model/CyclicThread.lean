import Mathlib.Data.Rat.Floor
import Verif.Model.Mat

/-!
# The cyclic worker thread

Model of `ikf::utils::CyclicThread` (source/ikf/source/utils/CyclicThread.cpp, `CT`, and its header, `CTH`) as an interleaving of the
worker thread with the threads that call its public functions. Each atomic load, store and virtual call is one step; all accesses to the
flags are sequentially consistent atomics (CTH:47-50), so every execution is such an interleaving.

Simplifications: log output is left out; `float` averages are exact numbers; `run_` terminates; `mRate.sleep()` is one step (its timing is
Model/Rate.lean). Steps beginning after the end of the lifetime of the object are the caller's fault and do not exist here.
-/

namespace Ikf
namespace Cyc

/-- What the worker does next. CT:73-87 `threadFunc`. -/
inductive Pc where
  | test      -- CT:75 `while(!mbShutdown)`
  | check     -- CT:77 `if(mbRun)`
  | call      -- CT:79, the flag was read as true; the virtual function is called next
  | running   -- inside `run_`
  | avg       -- CT:80 `calcAvgTime`
  | sleep     -- CT:83 `mRate.sleep()`
  | done      -- CT:86, the thread has ended
  | crashed   -- a pure virtual function was called: the program is aborted
deriving DecidableEq, Repr

/-- CTH:46-50. `alive`: the derived class's part of the object exists (afterwards `run_` is CTH:39, pure virtual). `proc`: the last
measured processing time in ms (Rate.hpp `mProcessTime`). `runs` is a ghost: how often `run_` has begun. -/
structure St where
  shutdown : Bool
  run : Bool
  pc : Pc
  alive : Bool
  joined : Bool
  proc : Int
  avg : ℚ
  runs : ℕ
deriving DecidableEq, Repr

/-- Steps. `resume`, `stop` and `shut` are the stores of the public functions CT:36-51 (`terminate` is `stop` then `shut`), `endDerived` is
the end of the derived class's destructor, `join` CT:31; `worker ms` is a step of the worker, where `ms` is the time the sleep measures. -/
inductive Ev where
  | resume
  | stop
  | shut
  | endDerived
  | join
  | worker (ms : Int)
deriving DecidableEq, Repr

/-- CT:89-101 `calcAvgTime`. -/
def calcAvg (avg : ℚ) (dur : Int) : ℚ := if avg ≠ 0 then (avg + dur) / 2 else dur

/-- The conversion of an int64 to an int32 (Rate.cpp:41 in `getProcessTimeMS`, Rate.cpp:29). -/
def toI32 (x : Int) : Int := (x + 2147483648) % 4294967296 - 2147483648

/-- CT:73-87, one step of the worker. -/
def work (s : St) (ms : Int) : Option St :=
  match s.pc with
  | .test => some { s with pc := if s.shutdown then .done else .check }
  | .check => some { s with pc := if s.run then .call else .sleep }
  | .call => some (if s.alive then { s with pc := .running, runs := s.runs + 1 } else { s with pc := .crashed })
  | .running => some { s with pc := .avg }
  | .avg => some { s with pc := .sleep, avg := calcAvg s.avg (toI32 s.proc) }
  | .sleep => some { s with pc := .test, proc := ms }
  | .done => none
  | .crashed => none

/-- One step; `none` where it cannot happen: nothing after an abort or after `join`, public calls on a living object only, `join` after the
end of the worker. -/
def step (s : St) (e : Ev) : Option St :=
  if s.joined = true ∨ s.pc = .crashed then none else
  match e with
  | .resume => if s.alive then some { s with run := true } else none
  | .stop => some { s with run := false }
  | .shut => some { s with shutdown := true }
  | .endDerived => if s.alive then some { s with alive := false } else none
  | .join => if s.pc = .done ∧ s.shutdown = true ∧ s.alive = false then some { s with joined := true } else none
  | .worker ms => work s ms

/-- A whole execution. -/
def exec : St → List Ev → Option St
  | s, [] => some s
  | s, e :: es => (step s e).bind fun s' => exec s' es

/-- CT:19-26: the state when the constructor starts the worker (CT:21-24); `g` is the uninitialised `mProcessTime` (Rate.cpp:19-23 does not
set it). -/
def init (g : Int) : St := ⟨false, false, .test, true, false, g, 0, 0⟩

/-- CT:46-51 `terminate`; `shutdown_` (CT:68-71) does nothing in the base class. -/
def terminate : List Ev := [.stop, .shut]

/-- CT:28-34, the destructor of an object of a derived class. -/
def destroy : List Ev := [.endDerived, .stop, .shut, .join]

end Cyc
end Ikf
