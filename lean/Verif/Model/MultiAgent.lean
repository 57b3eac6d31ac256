import Verif.Model.SMap
import Verif.Model.Names

/-!
# Lookup tables of the agents, and dispatch of joint observations between agents

Model of source/ikf/source/EstimatorHandler/IMultiAgentHandler.cpp (`MA`), of `is_order_violated` and the
`apply_observation` overloads of C_IKF_Handler.cpp (`CI`) and ICSE_IKF_Handler.cpp (`IC`).
Simplification: the mutex is acquired. The two tables are filled by derived classes outside the library.
-/

namespace Ikf.Agents

/-- IMultiAgentHandler.hpp:100-101: `dict_agents_ids` (agent ↦ its estimators (ID, type)) and `dict_ID2Agent`. -/
structure Tables where
  agents : SMap (List (ℕ × String))
  id2agent : SMap ℕ

/-- `std::set::insert` on an ordered list of distinct keys. -/
def setInsert (k : ℕ) : List ℕ → List ℕ
  | [] => [k]
  | a :: r => if k < a then k :: a :: r else if k = a then a :: r else a :: setInsert k r

/-- MA:22-30 `get_estimator_IDs`. -/
def estimatorIDs (T : Tables) : List ℕ :=
  T.agents.foldl (fun s e => e.2.foldl (fun s i => setInsert i.1 s) s) []

/-- MA:32-39 `get_agent_IDs`. -/
def agentIDs (T : Tables) : List ℕ := T.agents.map (·.1)

/-- MA:41-49 `get_types`. -/
def types (T : Tables) : SMap String :=
  T.agents.foldl (fun m e => e.2.foldl (fun m i => m.set i.1 i.2) m) []

/-- MA:51-57 `get_type_by_ID`. -/
def typeById (T : Tables) (k : ℕ) : String :=
  match (types T).find k with
  | some s => s
  | none => ""

/-- MA:59-64 `estimatorID2agentID`. -/
def agentOf (T : Tables) (k : ℕ) : ℕ :=
  match T.id2agent.find k with
  | some a => a
  | none => 0

/-- MA:66-72 `exists`. -/
def known (T : Tables) (k : ℕ) : Bool := (estimatorIDs T).contains k

/-! ## Order strategies -/

/-- CI:183-216 `is_order_violated`. -/
def orderViolated {P : Type _} (st : Names.OrderStrategy) (b : Buf (Meas P)) (m : Meas P) : Bool :=
  match st with
  | .strict => Handler.isOrderViolated b m
  | .relaxed =>
    if b.existAfter m.t then true
    else if m.kind = .propagation then
      (b.getAllAt m.t).any (fun x => x.kind == .priv || x.kind == .joint)
    else false

/-! ## Dispatch -/

/-- IC:120-131, CI:223-234: the loop over the participants: (`ID_agents`, `remote_IDs`, `local_IDs`). -/
def split (loc : ℕ → Bool) (T : Tables) : List ℕ → List ℕ × List ℕ × List ℕ → List ℕ × List ℕ × List ℕ
  | [], a => a
  | e :: r, a =>
    if !loc e then split loc T r (setInsert (agentOf T e) a.1, a.2.1 ++ [e], a.2.2)
    else split loc T r (a.1, a.2.1, a.2.2 ++ [e])

variable {W : Type _}

/-- IC:115-155 `apply_observation(R, z, t, h, IDs, cfg)`. `loc` is `exists`, `localObs` the base-class update on the
given participants, `inter remote local` the update of the derived class. -/
def applyObsH (loc : ℕ → Bool) (T : Tables) (localObs : W → List ℕ → Res (W × Status))
    (inter : W → List ℕ → List ℕ → Res (W × Status)) (w : W) (IDs : List ℕ) : Res (W × Status) :=
  let s := split loc T IDs ([], [], [])
  if s.2.1.length = 0 then localObs w IDs
  else if s.1.length = 1 then inter w s.2.1 s.2.2
  else .ok (w, .discarded)

/-- CI:218-315 `apply_observation(dict_H, R, r, t, cfg)`. `general` is the update of CI:258-303 through the agent
handler, participant by participant. -/
def applyObsDict (loc : ℕ → Bool) (T : Tables) (localObs : W → List ℕ → Res (W × Bool))
    (inter : W → List ℕ → List ℕ → Res (W × Bool)) (general : W → List ℕ → Res (W × Bool)) (w : W) (IDs : List ℕ) :
    Res (W × Bool) :=
  let s := split loc T IDs ([], [], [])
  if s.2.1.length = 0 then localObs w IDs
  else if s.1.length = 1 then inter w s.2.1 s.2.2
  else general w IDs

end Ikf.Agents
