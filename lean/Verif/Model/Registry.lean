import Verif.Model.SMap
import Mathlib.Data.Rat.Defs

/-!
# Registry of estimator instances

Model of the registry functions of source/ikf/source/EstimatorHandler/IDICOHandler.cpp (`DH`) and of
source/ikf/source/EstimatorStd/IKFHandlerStd.cpp (`HS`). Instances are shared objects: a pointer is a number,
the heap maps it to the members used. Simplifications: the mutex is acquired (see Model/Lock.lean); pointers are
not null (`add(nullptr)` dereferences it, DH:31); the ID of an instance never changes (IIsolatedKalmanFilter has no
setter for `m_ID`).
-/

namespace Ikf.Registry

/-- Members of an instance used here: `m_type`, `m_handle_delayed_meas`, `max_time_horizon_sec`. -/
structure Obj where
  type : String
  delayed : Bool
  hor : ℚ

/-- The handler: `id_dict` (pointers), `m_horzion_sec`, and the heap. -/
structure St where
  dict : SMap ℕ
  hor : ℚ
  heap : ℕ → Obj

/-- Change of one heap object. -/
def St.upd (s : St) (p : ℕ) (f : Obj → Obj) : St := { s with heap := fun q => if q = p then f (s.heap q) else s.heap q }

/-- DH:58-66 `exists`, HS:39-41. -/
def exists_ (s : St) (k : ℕ) : Bool := (s.dict.find k).isSome

/-- DH:427-438 `get`, HS:43-49. -/
def get (s : St) (k : ℕ) : Option ℕ := s.dict.find k

/-- DH:28-42 `add`; `id` gives the ID of an instance. -/
def add (id : ℕ → ℕ) (s : St) (p : ℕ) : St × Bool :=
  if !exists_ s (id p) then
    let s1 := s.upd p (fun o => { o with delayed := false })
    let s2 := s1.upd p (fun o => { o with hor := s1.hor })
    ({ s2 with dict := s2.dict.emplace (id p) p }, true)
  else (s, false)

/-- HS:22-28 `add` of the simple handler. -/
def addStd (id : ℕ → ℕ) (s : St) (p : ℕ) : St × Bool :=
  if !exists_ s (id p) then ({ s with dict := s.dict.emplace (id p) p }, true) else (s, false)

/-- DH:44-56 `remove`, HS:30-37. -/
def remove (id : ℕ → ℕ) (s : St) (k : ℕ) : St × Bool :=
  match get s k with
  | some p => ({ s with dict := s.dict.erase (id p) }, true)
  | none => (s, false)

/-- DH:68-81 `get_instance_ids` (iteration order of the `unordered_map`: unspecified; here key order). -/
def instanceIds (s : St) : List ℕ := s.dict.keys

/-- DH:83-95 `get_instance_types`. -/
def instanceTypes (s : St) : SMap String := s.dict.foldl (fun m e => m.set e.1 (s.heap e.2).type) []

/-- DH:457-466 `get_type_by_ID`. -/
def typeById (s : St) (k : ℕ) : String :=
  match get s k with
  | some p => (s.heap p).type
  | none => ""

/-- DH:99-112 `set_horizon` (registered instances only; the handler's buffers are in Model/Handler.lean). -/
def setHorizon (s : St) (x : ℚ) : St :=
  s.dict.foldl (fun a e => a.upd e.2 (fun o => { o with hor := a.hor })) { s with hor := x }

/-- Calls on the handler, and calls of the user on an instance. -/
inductive Op where
  | add (p : ℕ)
  | remove (k : ℕ)
  | setHorizon (x : ℚ)
  | userDelayed (p : ℕ) (b : Bool)
  | userHorizon (p : ℕ) (x : ℚ)

/-- One call and its answer (functions without a result answer `true`). -/
def step (id : ℕ → ℕ) (s : St) : Op → St × Bool
  | .add p => add id s p
  | .remove k => remove id s k
  | .setHorizon x => (setHorizon s x, true)
  | .userDelayed p b => (s.upd p (fun o => { o with delayed := b }), true)
  | .userHorizon p x => (s.upd p (fun o => { o with hor := x }), true)

/-- A history of calls, newest first, from a handler without instances. -/
def run (id : ℕ → ℕ) (heap : ℕ → Obj) (hor : ℚ) : List Op → St
  | [] => ⟨[], hor, heap⟩
  | op :: h => (step id (run id heap hor h) op).1

/-- A history of calls on the simple handler (HS:22-37), newest first: only `add` and `remove` change it (it has
no horizon and does not touch the instances). -/
def runStd (id : ℕ → ℕ) (heap : ℕ → Obj) (hor : ℚ) : List Op → St
  | [] => ⟨[], hor, heap⟩
  | .add p :: h => (addStd id (runStd id heap hor h) p).1
  | .remove k :: h => (remove id (runStd id heap hor h) k).1
  | _ :: h => runStd id heap hor h

end Ikf.Registry
