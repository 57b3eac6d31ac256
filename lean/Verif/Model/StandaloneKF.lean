import Verif.Model.Handler

/-!
# A standalone filter handling its own delayed measurements

Model of source/ikf/source/Estimator/IKalmanFilter.cpp (`KF` below) without the matrix part
(Model/KalmanMath.lean). Simplifications: times are nanosecond keys; a belief pointer is its value
(no aliasing); the user-supplied virtual functions touch `HistBelief` only; profiling and logging are
left out.
-/

namespace Ikf

/-- IKalmanFilter.hpp:33-38. -/
inductive GetBelief where
  | exact | closest | predict
deriving DecidableEq, Repr

/-- IKalmanFilter.hpp:133-137 the members used below. -/
structure KFState (B P : Type _) where
  bel : Buf B
  meas : Buf (Meas P)
  hBel : ℚ
  hMeas : ℚ
  delayed : Bool

/-- IKalmanFilter.hpp:89-92 the pure virtual functions. -/
structure KFUser (B P : Type _) where
  prop : Buf B → Meas P → Buf B × Status
  priv : Buf B → Meas P → Buf B × Status
  predictTo : Buf B → Int → Buf B × Bool

namespace SKF
variable {B P : Type _}

/-- KF:28-30 constructor without belief. -/
def new (horizon : ℚ) (delayed : Bool) : KFState B P := ⟨[], [], |horizon|, |horizon|, delayed⟩

/-- KF:39-44 `handle_delayed_meas(val)`. -/
def setDelayed (s : KFState B P) (v : Bool) : KFState B P :=
  if !v then { s with delayed := v, meas := [] } else { s with delayed := v }

/-- KF:234-238 `reset`. -/
def reset (s : KFState B P) : KFState B P := { s with bel := [] }

/-- KF:54-57 `initialize`. -/
def doInit (s : KFState B P) (b : B) (t : Int) : KFState B P :=
  { reset s with bel := (reset s).bel.insertMap t b }

/-- KF:98-104 `current_t` as key (0 if there is no belief). -/
def currentT (s : KFState B P) : Int :=
  if s.bel.length ≠ 0 then (s.bel.latest.map (·.1)).getD 0 else 0

/-- KF:106-113 `current_belief`. -/
def currentBelief (s : KFState B P) : Option B :=
  if s.bel.length ≠ 0 then s.bel.latest.map (·.2) else none

/-- KF:140-199 `get_belief_at_t(t, bel, type)`: new history and result. -/
def getBelief (U : KFUser B P) (s : KFState B P) (t : Int) (ty : GetBelief) : KFState B P × Option B :=
  if !s.bel.existAt t then
    match ty with
    | .exact => (s, (s.bel.getAt t).map (·.2))
    | .closest =>
      match s.bel.getBefore t with
      | some p =>
        match s.bel.getAfter t with
        | some a => if t - p.1 ≤ a.1 - t then (s, some p.2) else (s, some a.2)
        | none => (s, some p.2)
      | none =>
        match s.bel.getAfter t with
        | some a => (s, some a.2)
        | none => (s, none)
    | .predict =>
      let r := U.predictTo s.bel t
      ({ s with bel := r.1 }, if r.2 then (r.1.getAt t).map (·.2) else none)
  else (s, (s.bel.getAt t).map (·.2))

/-- KF:299-325 `delegate_measurement`. -/
def delegate (U : KFUser B P) (b : Buf B) (m : Meas P) : Buf B × Status :=
  match m.kind with
  | .propagation => U.prop b m
  | .priv => U.priv b m
  | .joint => (b, .discarded)
  | .unknown => (b, .discarded)

/-- Body of the loops of KF:78-96. -/
def redoStep (U : KFUser B P) (a : Buf B × List Status) (m : Meas P) : Buf B × List Status :=
  let r := delegate U a.1 m
  (r.1, a.2 ++ [r.2])

/-- KF:78-96 `redo_updates_after_t`. Where the first later stamp is the last one, `get_at_t` reads one
element (the first of its stamp). -/
def redoAfter (U : KFUser B P) (s : KFState B P) (t : Int) : KFState B P × List Status :=
  let b1 := s.bel.removeAfter t
  match s.meas.getAfter t, s.meas.latest with
  | some a, some l =>
    let ms := if a.1 == l.1 then (s.meas.getAt a.1).toList.map (·.2) else s.meas.visitMulti a.1 l.1
    let r := ms.foldl (redoStep U) (b1, [])
    ({ s with bel := r.1 }, r.2)
  | _, _ => ({ s with bel := b1 }, [])

/-- KF:240-245 `insert_measurement`. -/
def insertMeas (s : KFState B P) (m : Meas P) : KFState B P :=
  if s.delayed then { s with meas := s.meas.insertMulti m.t m } else s

/-- KF:59-76 `process_measurement`. -/
def process (fp : FP) (U : KFUser B P) (s : KFState B P) (m : Meas P) : KFState B P × List Status :=
  let r := delegate U s.bel m
  let s1 := { s with bel := r.1 }
  if s1.delayed then
    let q := if r.2 = .outOfOrder ∧ s1.meas.existAfter m.t = true then redoAfter U s1 m.t else (s1, [])
    if r.2 ≠ .discarded then
      let s2 := insertMeas q.1 m
      ({ s2 with meas := Buf.checkHorizon fp s2.hMeas s2.meas }, r.2 :: q.2)
    else (q.1, r.2 :: q.2)
  else (s1, [r.2])

end SKF
end Ikf
