import Verif.Model.Isolated
import Verif.Model.StandaloneKF
import Verif.Model.MultiAgent

/-!
# Access to beliefs and factors by estimator ID

Model of the accessors of source/ikf/source/EstimatorHandler/IDICOHandler.cpp (`DH`) and of their overrides in
ICSE_IKF_Handler.cpp (`IC`), which ask the agent handler for instances of other agents. Simplifications: the mutex is
acquired; a belief pointer is its value; an output parameter that is not written is
`none`; log output is left out. `get_beliefs_at_t` calls the virtual `get_belief_at_t`; for own IDs the override is the same
function. The user's `predict_to` works on the instance it is called on.
-/

namespace Ikf

/-- KF:140-199 `get_belief_at_t(t, bel, type)` of an isolated instance; `pred` is its `predict_to`. -/
def Inst.getBelief (pred : Inst → Int → Inst × Bool) (i : Inst) (t : Int) (ty : GetBelief) : Inst × Option Belief :=
  if !i.bel.existAt t then
    match ty with
    | .exact => (i, i.beliefAt t)
    | .closest =>
      match i.bel.getBefore t with
      | some p =>
        match i.bel.getAfter t with
        | some a => if t - p.1 ≤ a.1 - t then (i, some p.2) else (i, some a.2)
        | none => (i, some p.2)
      | none =>
        match i.bel.getAfter t with
        | some a => (i, some a.2)
        | none => (i, none)
    | .predict =>
      let r := pred i t
      (r.1, if r.2 then r.1.beliefAt t else none)
  else (i, i.beliefAt t)

/-- KF:106-113 `current_belief`; `none` is the null pointer. -/
def Inst.currentBelief (i : Inst) : Option Belief :=
  if i.bel.length ≠ 0 then i.bel.latest.map (·.2) else none

namespace Access
open Hdl

/-- DH:468-479 `set_belief_at_t(ID, bel, t)`. -/
def setBeliefAt (h : Hdl) (id : ℕ) (b : Belief) (t : Int) : Hdl × Bool :=
  match h.find id with
  | some i => (h.set id (i.setBelief b t), true)
  | none => (h, false)

/-- DH:481-491 `get_belief_at_t(ID, t, bel, type)`. -/
def getBeliefAt (pred : ℕ → Inst → Int → Inst × Bool) (h : Hdl) (id : ℕ) (t : Int) (ty : GetBelief) : Hdl × Option Belief :=
  match h.find id with
  | some i =>
    let r := i.getBelief (pred id) t ty
    (h.set id r.1, r.2)
  | none => (h, none)

/-- DH:493-504 `get_latest_belief(ID, bel)`. -/
def latestBelief (h : Hdl) (id : ℕ) : Option Belief :=
  match h.find id with
  | some i => i.currentBelief
  | none => none

/-- DH:512-521 the loop of `get_beliefs_at_t`; `types.at(idx)` throws if the vector is shorter. -/
def beliefsLoop (pred : ℕ → Inst → Int → Inst × Bool) (t : Int) :
    List ℕ → List GetBelief → Hdl → SMap Belief → Bool → Res (Hdl × SMap Belief × Bool)
  | [], _, h, acc, res => .ok (h, acc, res)
  | _ :: _, [], _, _, _ => .throws
  | id :: ids, ty :: tys, h, acc, res =>
    let x := getBeliefAt pred h id t ty
    match x.2 with
    | some b => beliefsLoop pred t ids tys x.1 (acc.emplace id b) (res && true)
    | none => beliefsLoop pred t ids tys x.1 acc (res && false)

/-- DH:506-528 `get_beliefs_at_t(IDs, types, t, beliefs)`: the map and the result. -/
def beliefsAt (pred : ℕ → Inst → Int → Inst × Bool) (h : Hdl) (ids : List ℕ) (tys : List GetBelief) (t : Int) :
    Res (Hdl × SMap Belief × Bool) := beliefsLoop pred t ids tys h [] true

/-- DH:530-541 `get_CrossCovFact_at_t(ID_I, t, ID_J)`. -/
def factorAt (h : Hdl) (I : ℕ) (t : Int) (J : ℕ) : Mat :=
  match h.find I with
  | some i => i.getCCF t J
  | none => Mat.empty

/-- DH:543-554 `set_CrossCovFact_at_t(ID_I, t, ID_J, FFC)`. -/
def setFactorAt (h : Hdl) (I : ℕ) (t : Int) (J : ℕ) (F : Mat) : Hdl × Bool :=
  match h.find I with
  | some i => (h.set I (i.setCCF t J F), true)
  | none => (h, false)

/-- DH:556-566 `apply_correction_at_t(ID, t, Factor)`. -/
def correctionAt (h : Hdl) (id : ℕ) (t : Int) (F : Mat) : Res (Hdl × Bool) :=
  match h.find id with
  | some i => do
    let j ← i.applyCorrection t F
    .ok (h.set id j, true)
  | none => .ok (h, false)

/-! ## An agent asking other agents -/

/-- IMultiAgentHandler.hpp:55, 61-68: the requests used here, implemented by the user. `W` is everything outside the
agent. -/
structure Remote (W : Type _) where
  belief : W → ℕ → Int → GetBelief → W × Option Belief
  beliefs : W → List ℕ → List GetBelief → Int → W × SMap Belief × Bool
  propSensor : ℕ → ℕ

/-- IC:23-36 `get_propagation_sensor_ID(ID)`; `own` is `m_PropSensor_ID`. -/
def propSensorID {W : Type _} (R : Remote W) (own : ℕ) (h : Hdl) (id : ℕ) : ℕ :=
  if id = 0 ∨ (h.find id).isSome then own else R.propSensor id

/-- DH:457-466 `get_type_by_ID(ID)`; `types` holds the type of every registered instance. -/
def typeOwn (types : SMap String) (id : ℕ) : String :=
  match types.find id with
  | some s => s
  | none => ""

/-- IC:38-51 `get_type_by_ID(ID)`; the agent handler looks the type up in its own tables. -/
def typeByID (T : Agents.Tables) (types : SMap String) (id : ℕ) : String :=
  if id = 0 ∨ (types.find id).isSome then typeOwn types id else Agents.typeById T id

/-- IC:53-74 `get_belief_at_t(ID, t, bel, type)`. -/
def beliefAny {W : Type _} (R : Remote W) (pred : ℕ → Inst → Int → Inst × Bool) (h : Hdl) (w : W) (id : ℕ) (t : Int) (ty : GetBelief) :
    Hdl × W × Option Belief :=
  if (h.find id).isSome then
    let x := getBeliefAt pred h id t ty
    (x.1, w, x.2)
  else
    let x := R.belief w id t ty
    (h, x.1, x.2)

/-- IC:84-92 the loop splitting the IDs: local IDs and types, remote IDs and types. -/
def splitIDs (h : Hdl) : List ℕ → List GetBelief → List ℕ × List GetBelief × List ℕ × List GetBelief →
    Res (List ℕ × List GetBelief × List ℕ × List GetBelief)
  | [], _, a => .ok a
  | _ :: _, [], _ => .throws
  | id :: ids, ty :: tys, a =>
    if (h.find id).isSome then splitIDs h ids tys (a.1 ++ [id], a.2.1 ++ [ty], a.2.2.1, a.2.2.2)
    else splitIDs h ids tys (a.1, a.2.1, a.2.2.1 ++ [id], a.2.2.2 ++ [ty])

/-- `std::map::insert` of a range: keys present already keep their value. -/
def insertAll {V : Type _} (m : SMap V) (n : SMap V) : SMap V := n.foldl (fun m e => m.emplace e.1 e.2) m

/-- IC:95-97: the local part, asked only if there is a local ID. -/
def beliefsOwn (pred : ℕ → Inst → Int → Inst × Bool) (h : Hdl) (ids : List ℕ) (tys : List GetBelief) (t : Int) :
    Res (Hdl × SMap Belief × Bool) :=
  if ids.length ≠ 0 then beliefsAt pred h ids tys t else .ok (h, [], true)

/-- IC:76-113 `get_beliefs_at_t(IDs, types, t, beliefs)`. -/
def beliefsAny {W : Type _} (R : Remote W) (pred : ℕ → Inst → Int → Inst × Bool) (h : Hdl) (w : W) (ids : List ℕ) (tys : List GetBelief)
    (t : Int) : Res (Hdl × W × SMap Belief × Bool) := do
  let s ← splitIDs h ids tys ([], [], [], [])
  let l ← beliefsOwn pred h s.1 s.2.1 t
  let r := if s.2.2.1.length ≠ 0 then R.beliefs w s.2.2.1 s.2.2.2 t else (w, [], true)
  .ok (l.1, r.1, insertAll (insertAll [] l.2.1) r.2.1, l.2.2 && r.2.2)

end Access
end Ikf
