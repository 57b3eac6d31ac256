import Verif.Model.Lock
import Verif.Model.Handler

/-!
# Several threads calling one handler

Model of how the functions of a handler use its two mutexes and its members: source/ikf/source/EstimatorHandler/
IDICOHandler.cpp (`DH`), IDICOHandler.hpp:107-118, utils/lock_guard_timed.hpp, DecoupledPropagationHandler.cpp.
A call is a program of single accesses to members and of operations on the mutexes; any number of threads execute
their calls, interleaved arbitrarily, one access at a time. Simplifications: accesses are atomic and seen by all threads at once
(data races, which C++ leaves undefined, are a separate predicate, `Spec/Concurrent`); `lock()` waits for as long as it takes.
-/

namespace Ikf.Conc

open Ikf.Lock (Mutex)

/-- The members of a handler that calls share: IDICOHandler.hpp:107-114 `HistMeas`, `id_dict`, `Hist_OOO_Flag` and all
instances (`core`), `HistRedoUpdateRequest` (`requests`), `m_PropSensor_ID`, `m_horzion_sec`. -/
inductive Loc where
  | core | requests | propSensor | horizonSec
deriving DecidableEq

/-- IDICOHandler.hpp:117-118: `m_mtx` (recursive, timed) and `m_mtx_histRUR` (plain). -/
inductive Mtx where
  | main | rur
deriving DecidableEq

variable {V : Loc → Type} {α : Type}

/-- The values of all members. -/
abbrev Store (V : Loc → Type) := (l : Loc) → V l

/-- What is left of a call: return `a`; read a member; change a member (seeing its old value); `try_lock` of a
`lock_guard_timed` on `m_mtx` with the two branches of `if (lock.try_lock())`; construct a `std::lock_guard`/`std::scoped_lock`; leave the
scope of a guard; undefined behaviour of the code inside. -/
inductive Prog (V : Loc → Type) (α : Type) where
  | ret (a : α)
  | rd (l : Loc) (k : V l → Prog V α)
  | wr (l : Loc) (f : V l → V l) (k : V l → Prog V α)
  | tryLock (k kt : Prog V α)
  | lock (m : Mtx) (k : Prog V α)
  | unlock (m : Mtx) (k : Prog V α)
  | crash

/-- The effect of a call when nobody else calls: every lock is available. -/
def Prog.run : Prog V α → Store V → Res (Store V × α)
  | .ret a, s => .ok (s, a)
  | .rd l k, s => (k (s l)).run s
  | .wr l f k, s => (k (s l)).run (Function.update s l (f (s l)))
  | .tryLock k _, s => k.run s
  | .lock _ k, s => k.run s
  | .unlock _ k, s => k.run s
  | .crash, _ => .ub

/-- A thread: the calls that have returned with their results, the call it is in and what is left of it, the calls to come. -/
structure Thread (V : Loc → Type) (α : Type) where
  past : List (Prog V α × α)
  now : Option (Prog V α × Prog V α)
  todo : List (Prog V α)

/-- All threads, the members, the mutexes. -/
structure Conf (V : Loc → Type) (α : Type) where
  store : Store V
  main : Mutex
  rur : Mutex
  thr : ℕ → Thread V α

/-- Thread `th` changes to `x`. -/
def Conf.put (c : Conf V α) (th : ℕ) (x : Thread V α) : ℕ → Thread V α := Function.update c.thr th x

/-- What is left of the call of a thread changes. -/
def Thread.go (x : Thread V α) (p q : Prog V α) : Thread V α := { x with now := some (p, q) }

/-- `lock()`/`try_lock_for()` of a recursive mutex: possible if free or one's own. -/
def acquire (m : Mutex) (th : ℕ) : Option Mutex :=
  match m with
  | .free => some (.held th 0)
  | .held o d => if o = th then some (.held o (d + 1)) else none

/-- `lock()` of a plain mutex: possible if free. -/
def acquireR (m : Mutex) (th : ℕ) : Option Mutex :=
  match m with
  | .free => some (.held th 0)
  | .held _ _ => none

/-- What happens next. -/
inductive Ev where
  | step (th : ℕ)
  | timeout (th : ℕ)

/-- One step of one thread. -/
inductive Step : Conf V α → Ev → Res (Conf V α) → Prop
  | call (c : Conf V α) (th : ℕ) (x : Thread V α) (p : Prog V α) (ps : List (Prog V α)) : c.thr th = x → x.now = none → x.todo = p :: ps →
      Step c (.step th) (.ok { c with thr := c.put th { x with now := some (p, p), todo := ps } })
  | ret (c : Conf V α) (th : ℕ) (x : Thread V α) (p : Prog V α) (a : α) : c.thr th = x → x.now = some (p, .ret a) →
      Step c (.step th) (.ok { c with thr := c.put th { x with past := x.past ++ [(p, a)], now := none } })
  | rd (c : Conf V α) (th : ℕ) (x : Thread V α) (p : Prog V α) (l : Loc) (k : V l → Prog V α) : c.thr th = x → x.now = some (p, .rd l k) →
      Step c (.step th) (.ok { c with thr := c.put th (x.go p (k (c.store l))) })
  | wr (c : Conf V α) (th : ℕ) (x : Thread V α) (p : Prog V α) (l : Loc) (f : V l → V l) (k : V l → Prog V α) : c.thr th = x → x.now = some (p, .wr l f k) →
      Step c (.step th) (.ok { c with store := Function.update c.store l (f (c.store l)), thr := c.put th (x.go p (k (c.store l))) })
  /-- lock_guard_timed.hpp:33: in time. -/
  | tryOk (c : Conf V α) (th : ℕ) (x : Thread V α) (p k kt : Prog V α) (m : Mutex) : c.thr th = x → x.now = some (p, .tryLock k kt) →
      acquire c.main th = some m →
      Step c (.step th) (.ok { c with main := m, thr := c.put th (x.go p k) })
  /-- lock_guard_timed.hpp:33: 25 ms are over while another thread holds the mutex. -/
  | tryLate (c : Conf V α) (th : ℕ) (x : Thread V α) (p k kt : Prog V α) : c.thr th = x → x.now = some (p, .tryLock k kt) →
      acquire c.main th = none →
      Step c (.timeout th) (.ok { c with thr := c.put th (x.go p kt) })
  | lockMain (c : Conf V α) (th : ℕ) (x : Thread V α) (p k : Prog V α) (m : Mutex) : c.thr th = x → x.now = some (p, .lock .main k) →
      acquire c.main th = some m →
      Step c (.step th) (.ok { c with main := m, thr := c.put th (x.go p k) })
  | lockRur (c : Conf V α) (th : ℕ) (x : Thread V α) (p k : Prog V α) (m : Mutex) : c.thr th = x → x.now = some (p, .lock .rur k) →
      acquireR c.rur th = some m →
      Step c (.step th) (.ok { c with rur := m, thr := c.put th (x.go p k) })
  /-- lock_guard_timed.hpp:34: the destructor unlocks, whether or not the lock was acquired. -/
  | unlockMain (c : Conf V α) (th : ℕ) (x : Thread V α) (p k : Prog V α) (m : Mutex) : c.thr th = x → x.now = some (p, .unlock .main k) →
      Lock.unlock c.main th = .ok m →
      Step c (.step th) (.ok { c with main := m, thr := c.put th (x.go p k) })
  | unlockMainUb (c : Conf V α) (th : ℕ) (x : Thread V α) (p k : Prog V α) : c.thr th = x → x.now = some (p, .unlock .main k) →
      Lock.unlock c.main th = .ub → Step c (.step th) .ub
  | unlockRur (c : Conf V α) (th : ℕ) (x : Thread V α) (p k : Prog V α) (m : Mutex) : c.thr th = x → x.now = some (p, .unlock .rur k) →
      Lock.unlock c.rur th = .ok m →
      Step c (.step th) (.ok { c with rur := m, thr := c.put th (x.go p k) })
  | unlockRurUb (c : Conf V α) (th : ℕ) (x : Thread V α) (p k : Prog V α) : c.thr th = x → x.now = some (p, .unlock .rur k) →
      Lock.unlock c.rur th = .ub → Step c (.step th) .ub
  | crash (c : Conf V α) (th : ℕ) (x : Thread V α) (p : Prog V α) : c.thr th = x → x.now = some (p, .crash) → Step c (.step th) .ub

/-- A schedule. Undefined behaviour ends it. -/
inductive Run : Conf V α → List Ev → Res (Conf V α) → Prop
  | nil (c : Conf V α) : Run c [] (.ok c)
  | cons {c c' : Conf V α} {e : Ev} {es : List Ev} {r : Res (Conf V α)} : Step c e (.ok c') → Run c' es r → Run c (e :: es) r
  | ub {c : Conf V α} {e : Ev} : Step c e .ub → Run c [e] .ub

/-- The beginning: nobody has called yet; thread `th` is going to make the calls `calls th`. -/
def start (s : Store V) (calls : ℕ → List (Prog V α)) : Conf V α := ⟨s, .free, .free, fun th => ⟨[], none, calls th⟩⟩

/-! ## The functions of the handler as such programs -/

section
variable {W P : Type}

/-- The types of the members (IDICOHandler.hpp:107-114). The field `redo` of `HState` is in `requests`, with its horizon. -/
def HV (W P : Type) : Loc → Type
  | .core => HState W P
  | .requests => Buf Bool × ℚ
  | .propSensor => ℕ
  | .horizonSec => ℚ

/-- DH:58-66 `exists` called from inside another function: a scope of its own. -/
def existsIn (S : Insts W P) (id : ℕ) (k : Bool → Prog (HV W P) α) : Prog (HV W P) α :=
  .tryLock (.rd .core fun h => .unlock .main (k (S.known (HState.w h) id))) (.unlock .main (k false))

/-- DH:127-136 `insert_measurement` called from the outside. -/
def insertProg (m : Meas P) : Prog (HV W P) (List Status) :=
  .tryLock (.wr .core (fun h => Handler.insertMeas h m) fun _ => .unlock .main (.ret [])) (.unlock .main (.ret []))

/-- DH:287-304 `delegate_measurement` called from the outside. -/
def delegateProg (S : Insts W P) (m : Meas P) : Prog (HV W P) (List Status) :=
  .tryLock (.wr .core (fun h => { h with w := (Handler.delegate S h.w m).1 }) fun h => .unlock .main (.ret [(Handler.delegate S (HState.w h) m).2]))
    (.unlock .main (.ret [.discarded]))

/-- DH:239-285: the rest of `process_measurement` and the end of its scope. -/
def tailProg (fp : FP) (S : Insts W P) (m : Meas P) : Prog (HV W P) (List Status) :=
  .wr .core (fun h => (Handler.processTail fp S h m).1) fun h => .unlock .main (.ret (Handler.processTail fp S h m).2)

/-- DH:222-236: the oldest request is served. -/
def serveOne (S : Insts W P) (o : Int × Bool) (h : HState W P) : HState W P :=
  match h.meas.oldest with
  | some om => if om.1 < o.1 then if o.2 then (Handler.redoAfter S h o.1).1 else (Handler.redoFrom S h o.1).1 else h
  | none => h

/-- DH:213-236: the oldest request is read, all are cleared, the oldest is served. -/
def serveProg (fp : FP) (S : Insts W P) (m : Meas P) : Prog (HV W P) (List Status) :=
  .lock .rur (.rd .requests fun q =>
    .wr .requests (fun q => ([], q.2)) fun _ =>
    .unlock .rur (match Buf.oldest (Prod.fst q) with
      | some o => .wr .core (serveOne S o) fun _ => tailProg fp S m
      | none => tailProg fp S m))

/-- DH:211: `if (HistRedoUpdateRequest.size())`. -/
def countProg (fp : FP) (S : Insts W P) (m : Meas P) (b : Buf Bool) : Prog (HV W P) (List Status) :=
  if b.isEmpty then tailProg fp S m else serveProg fp S m

/-- DH:200-211: a measurement that is too old is discarded; the requests are trimmed. -/
def ageProg (fp : FP) (S : Insts W P) (m : Meas P) (h : HState W P) : Prog (HV W P) (List Status) :=
  if Handler.tooOld fp h m then .unlock .main (.ret [.discarded])
  else
    .wr .requests (fun q => (Buf.checkHorizonFrom fp q.2 q.1 (match h.meas.latest with
      | some l => fp.secOfKey l.1
      | none => fp.toSec ⟨0, 0⟩), q.2)) fun _ =>
    .rd .requests fun q => countProg fp S m (Prod.fst q)

/-- DH:193-285 `process_measurement`. The requests are trimmed and counted (DH:210-211) under `m_mtx` alone, read and cleared (DH:214-219) under both
mutexes. -/
def procProg (fp : FP) (S : Insts W P) (m : Meas P) : Prog (HV W P) (List Status) :=
  .tryLock
    (existsIn S m.id fun ex => if !ex then .unlock .main (.ret [.discarded]) else .rd .core (ageProg fp S m))
    (.unlock .main (.ret [.outOfOrder]))

/-- DH:607-612 `schedule_redo_update`: only under `m_mtx_histRUR`. -/
def schedProg (fp : FP) (t : Int) (after : Bool) : Prog (HV W P) (List Status) :=
  .lock .rur (.wr .requests (fun q => (Buf.checkHorizon fp q.2 (Buf.insertMap q.1 t after), q.2)) fun _ => .unlock .rur (.ret []))

/-- DH:455 `set_propagation_sensor_ID`: no mutex. -/
def setSensorProg (id : ℕ) : Prog (HV W P) (List Status) := .wr .propSensor (fun _ => id) fun _ => .ret []

/-- DH:453 `get_propagation_sensor_ID`: no mutex. (What it returns is left out.) -/
def getSensorProg : Prog (HV W P) (List Status) := .rd .propSensor fun _ => .ret []

/-- DH:44-56 `get(ID)` and then a call on the instance itself, as the tests and examples do: `f` is what that call does to the instances.
IsolatedKalmanFilter.cpp and IKalmanFilter.cpp have no mutex. -/
def instProg (f : W → W) : Prog (HV W P) (List Status) :=
  .tryLock (.rd .core fun _ => .unlock .main (.wr .core (fun h => { h with w := f h.w }) fun _ => .ret [])) (.unlock .main (.ret []))

/-- A call on an instance that first reads it and then stores what it computed, e.g. IKalmanFilter.cpp:327-357 `apply_propagation`
(`get_belief_at_t`, then `set_belief_at_t`). No mutex. -/
def instReadWrite (f : W → W) : Prog (HV W P) (List Status) :=
  .rd .core fun h => .wr .core (fun h' => { h' with w := f (HState.w h) }) fun _ => .ret []

end

end Ikf.Conc
