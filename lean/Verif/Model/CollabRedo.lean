import Verif.Model.Isolated
import Verif.Model.MultiAgent

/-!
# The collaborative handler: delayed measurements and requests to other agents

Model of the functions of EstimatorHandler/C_IKF_Handler.cpp (`CI`) and ICSE_IKF_Handler.cpp (`IC`) that override
IDICOHandler.cpp (`DH`, Model/Handler) for delayed measurements. Same simplifications as Model/Handler. `W` is the state of
all instances, `hdl` the local ones in it. A request sent to another agent is an entry of a list; the transport
(`IMultiAgentHandler`, abstract) delivers it by `schedule_redo_update` of that agent, or loses it.
-/

namespace Ikf

/-- IIsolatedKalmanFilter.cpp:70-79 `get_correlated_IDs_after_t`. -/
def Inst.correlatedAfter (i : Inst) (t : Int) : List ℕ := (i.ccf.filter (fun e => e.2.existAfter t)).map (·.1)

namespace Agents

/-- CI:152-165 `get_correlated_IDs_after_t`. -/
def correlatedAfter (h : Hdl) (t : Int) : List ℕ :=
  h.foldl (fun s e => (e.2.correlatedAfter t).foldl (fun s k => setInsert k s) s) []

/-- CI:167-181 `get_remote_correlated_IDs_after_t`. -/
def remoteCorrelatedAfter (h : Hdl) (t : Int) : List ℕ :=
  (correlatedAfter h t).foldl (fun s k => if !(h.find k).isSome then setInsert k s else s) []

/-- IC:157-170 `IDs_to_Agent_IDs`. -/
def idsToAgents (loc : ℕ → Bool) (T : Tables) (ids : List ℕ) : List ℕ :=
  ids.foldl (fun s k => if !loc k then setInsert (agentOf T k) s else s) []

/-- Members of the collaborative handler (C_IKF_Handler.hpp:94-95) and what it reads. -/
structure Coll (W : Type _) where
  redo : Names.RedoStrategy
  order : Names.OrderStrategy
  T : Tables
  hdl : W → Hdl

/-- `m_pAgentHandler->redo_updates_from_t(agent, t)` (`after = false`) or `…_after_t` (`after = true`). -/
structure Req where
  agent : ℕ
  t : Int
  after : Bool
deriving DecidableEq

variable {W P : Type _}

/-- The requests of CI:391-398 and CI:436-443. -/
def requests (C : Coll W) (w : W) (t : Int) (after : Bool) : List Req :=
  if C.redo = .postcorrelated then
    (idsToAgents (fun k => ((C.hdl w).find k).isSome) C.T (remoteCorrelatedAfter (C.hdl w) t)).map (fun a => ⟨a, t, after⟩)
  else []

/-- CI:431-453 `redo_updates_from_t`: the requests are sent first. -/
def redoFromC (S : Insts W P) (C : Coll W) (h : HState W P) (t : Int) : HState W P × List Status × List Req :=
  let q := requests C h.w t false
  let r := Handler.redoFrom S h t
  (r.1, r.2, q)

/-- CI:386-408 `redo_updates_after_t`. -/
def redoAfterC (S : Insts W P) (C : Coll W) (h : HState W P) (t : Int) : HState W P × List Status × List Req :=
  let q := requests C h.w t true
  let r := Handler.redoAfter S h t
  (r.1, r.2, q)

/-- CI:410-429 `discard_measurement`. -/
def discardC (C : Coll W) (h : HState W P) (m : Meas P) : Bool :=
  if C.redo = .discard then !(remoteCorrelatedAfter (C.hdl h.w) m.t).isEmpty else false

/-- DH:245-279 from the order check on, with the overrides CI:183-216 and CI:431-453. -/
def processTailC (fp : FP) (S : Insts W P) (C : Coll W) (h : HState W P) (m : Meas P) : HState W P × List Status × List Req :=
  let violated := orderViolated C.order h.meas m
  let h1 := { h with ooo := Buf.checkHorizonFrom fp h.hOoo h.ooo (fp.secOfKey m.t) }
  let oooExists := h1.ooo.existBefore m.t || h1.ooo.existAt m.t
  if violated || oooExists then
    let h2 := Handler.trim fp (Handler.insertMeas h1 m)
    let tStart := if oooExists then
        match h2.ooo.oldest with
        | some o => if o.1 < m.t then o.1 else m.t
        | none => m.t
      else m.t
    let h3 := if oooExists then { h2 with ooo := [] } else h2
    let h4 := { h3 with meas := Handler.sortFrom h3.meas tStart }
    redoFromC S C h4 tStart
  else
    let r := Handler.delegate S h1.w m
    let h2 := { h1 with w := r.1 }
    let h3 := if r.2 = .outOfOrder then { h2 with ooo := h2.ooo.insertMap m.t true } else h2
    let h4 := if r.2 ≠ .discarded then Handler.trim fp (Handler.insertMeas h3 m) else h3
    (h4, [r.2], [])

/-- DH:193-285 `process_measurement` of the collaborative handler: new state, results, requests sent. Open requests of
other agents are served with the functions of the base class (DH:225, 229), which send none. -/
def processC (fp : FP) (S : Insts W P) (C : Coll W) (h : HState W P) (m : Meas P) : HState W P × List Status × List Req :=
  if !S.known h.w m.id then (h, [.discarded], [])
  else if Handler.tooOld fp h m then (h, [.discarded], [])
  else
    let h1 := Handler.serveRequests fp S h
    if discardC C h1 m then (h1, [.discarded], [])
    else processTailC fp S C h1 m

/-! ## Several agents -/

/-- All agents and the requests under way (receiver, time, kind). `w` is the state of the instances of all agents (a joint
observation of one agent changes instances of others); the field `w` of the handler states is not used. -/
structure Team (W P : Type _) where
  w : W
  st : ℕ → HState W P
  wire : List Req

/-- What can happen: agent `a` gets a measurement; the `k`-th request under way is delivered or lost. -/
inductive Event (P : Type _) where
  | meas (a : ℕ) (m : Meas P)
  | deliver (k : ℕ)
  | lose (k : ℕ)

/-- One event. Delivery is `schedule_redo_update` (DH:607-612). -/
def teamStep (fp : FP) (S : ℕ → Insts W P) (C : ℕ → Coll W) (s : Team W P) : Event P → Team W P
  | .meas a m =>
    let r := processC fp (S a) (C a) { s.st a with w := s.w } m
    { w := r.1.w, st := Function.update s.st a r.1, wire := s.wire ++ r.2.2 }
  | .deliver k =>
    match s.wire[k]? with
    | some q => { s with
        st := Function.update s.st q.agent (Handler.schedule fp (s.st q.agent) q.t q.after)
        wire := s.wire.eraseIdx k }
    | none => s
  | .lose k => { s with wire := s.wire.eraseIdx k }

end Agents
end Ikf
