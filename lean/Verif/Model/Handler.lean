import Verif.Model.Buffer

/-!
# Centralised handler of delayed measurements

Model of source/ikf/source/EstimatorHandler/IDICOHandler.cpp (`DH` below).
Simplifications: a time is its nanosecond key (faithful by C01 for normalised stamps with
0 ≤ sec ≤ 9223372035); the handler mutex is held during every function (single caller; see
Model/Lock.lean for the lock itself); log output, profiling and the residual/rejection details of
`ProcessMeasResult_t` are left out; virtual functions are those of this base class.
-/

namespace Ikf

/-- MeasData.hpp:31-36 `eObservationType`. -/
inductive ObsType where
  | unknown | propagation | priv | joint
deriving DecidableEq, Repr

/-- ProcessMeasResult_t.hpp:29-34 `eMeasStatus`. -/
inductive Status where
  | rejected | processed | outOfOrder | discarded
deriving DecidableEq, Repr

/-- MeasData.hpp:40-60 `MeasData`: sensor id, measurement time `t_m`, observation type; everything else
is the payload. -/
structure Meas (P : Type _) where
  id : Nat
  t : Int
  kind : ObsType
  data : P
deriving DecidableEq, Repr

/-- The estimator instances as seen by the handler. `W` is the joint state of all instances (belief
histories, cross-covariance factors, registry). -/
structure Insts (W P : Type _) where
  /-- DH:58-66 `exists`. -/
  known : W → Nat → Bool
  /-- `id_dict[id]->enabled()`. -/
  enabled : W → Nat → Bool
  /-- `id_dict[id]->delegate_measurement(m)`; may touch any instance (joint observations). -/
  inst : W → Meas P → W × Status
  /-- DH:418-425 `remove_beliefs_from_t`. -/
  removeFrom : W → Int → W
  /-- DH:404-416 `remove_beliefs_after_t`. -/
  removeAfter : W → Int → W

/-- IDICOHandler.hpp:107-114: the members the functions below touch. -/
structure HState (W P : Type _) where
  w : W
  meas : Buf (Meas P)
  ooo : Buf Bool
  redo : Buf Bool
  hMeas : ℚ
  hOoo : ℚ
  hRedo : ℚ

namespace Handler
variable {W P : Type _}

/-- DH:17-26 constructor; buffers take the absolute value of the horizon (TH:33). -/
def init (w : W) (horizon : ℚ) : HState W P :=
  { w := w, meas := [], ooo := [], redo := [], hMeas := |horizon|, hOoo := |horizon * (1/4)|,
    hRedo := |horizon * (1/2)| }

/-- DH:99-112 `set_horizon` (the buffers of the handler). -/
def setHorizon (h : HState W P) (horizon : ℚ) : HState W P :=
  { h with hMeas := |horizon|, hOoo := |horizon * (1/2)|, hRedo := |horizon * (1/2)| }

/-- DH:114-125 `reset_buffer`. -/
def resetBuffer (h : HState W P) : HState W P := { h with meas := [], ooo := [], redo := [] }

/-- DH:127-136 `insert_measurement` (called with `t = m.t_m` by this class). -/
def insertMeas (h : HState W P) (m : Meas P) : HState W P :=
  { h with meas := h.meas.insertMulti m.t m }

/-- `HistMeas.check_horizon()`. -/
def trim (fp : FP) (h : HState W P) : HState W P :=
  { h with meas := Buf.checkHorizon fp h.hMeas h.meas }

/-- One of the three passes DH:166-185: re-insert the elements of type `k`, keyed by their `t_m`. -/
def reinsert (k : ObsType) (src dst : Buf (Meas P)) : Buf (Meas P) :=
  src.foldl (fun b e => if e.2.kind = k then b.insertMulti e.2.t e.2 else b) dst

/-- DH:155-191 `sort_measurements_from_t`. -/
def sortFrom (b : Buf (Meas P)) (t : Int) : Buf (Meas P) :=
  match b.latest with
  | none => b
  | some l =>
    let ms := b.betweenMulti t l.1
    if ms.isEmpty then b
    else
      reinsert .joint ms (reinsert .priv ms (reinsert .propagation ms ((b.removeAfter t).removeAt t)))

/-- DH:287-304 `delegate_measurement`. -/
def delegate (S : Insts W P) (w : W) (m : Meas P) : W × Status :=
  if S.known w m.id then
    if S.enabled w m.id then S.inst w m else (w, .discarded)
  else (w, .discarded)

/-- Body of the loops DH:319-330, 332-342, 368-378, 381-391: state is the instances, the out-of-order
flags and the results so far. -/
def redoStep (S : Insts W P) (a : W × Buf Bool × List Status) (m : Meas P) : W × Buf Bool × List Status :=
  if a.2.1.isEmpty || m.kind == .propagation then
    let r := delegate S a.1 m
    (r.1, if r.2 = .outOfOrder then a.2.1.insertMap m.t true else a.2.1, a.2.2 ++ [r.2])
  else (a.1, a.2.1.insertMap m.t true, a.2.2)

/-- DH:306-352 `redo_updates_from_t`. -/
def redoFrom (S : Insts W P) (h : HState W P) (t : Int) : HState W P × List Status :=
  let w1 := S.removeFrom h.w t
  match h.meas.latest with
  | none => ({ h with w := w1, ooo := [] }, [])
  | some l =>
    let ms := if t == l.1 then h.meas.getAllAt t else h.meas.visitMulti t l.1
    let r := ms.foldl (redoStep S) (w1, [], [])
    ({ h with w := r.1, ooo := r.2.1 }, r.2.2)

/-- DH:354-402 `redo_updates_after_t`. -/
def redoAfter (S : Insts W P) (h : HState W P) (t : Int) : HState W P × List Status :=
  let w1 := S.removeAfter h.w t
  match h.meas.getAfter t, h.meas.latest with
  | some a, some l =>
    let ms := if a.1 == l.1 then h.meas.getAllAt a.1 else h.meas.visitMulti a.1 l.1
    let r := ms.foldl (redoStep S) (w1, [], [])
    ({ h with w := r.1, ooo := r.2.1 }, r.2.2)
  | _, _ => ({ h with w := w1, ooo := [] }, [])

/-- DH:569-601 `is_order_violated`. -/
def isOrderViolated (b : Buf (Meas P)) (m : Meas P) : Bool :=
  if b.existAfter m.t then true
  else if m.kind ≠ .joint then
    let arr := b.getAllAt m.t
    if m.kind = .propagation then arr.any (fun x => x.kind == .priv || x.kind == .joint)
    else if m.kind = .priv then arr.any (fun x => x.kind == .joint)
    else false
  else false

/-- DH:603-605 `discard_measurement` of the base class. -/
def discardMeasurement (_ : HState W P) (_ : Meas P) : Bool := false

/-- DH:607-612 `schedule_redo_update`. -/
def schedule (fp : FP) (h : HState W P) (t : Int) (after : Bool) : HState W P :=
  { h with redo := Buf.checkHorizon fp h.hRedo (h.redo.insertMap t after) }

/-- DH:200-207: the "too much delayed" test. -/
def tooOld (fp : FP) (h : HState W P) (m : Meas P) : Bool :=
  match h.meas.latest with
  | some l => decide (h.meas.horizon fp ≤ fp.rnd (fp.secOfKey l.1 - fp.secOfKey m.t))
  | none => false

/-- DH:209-237: serve open redo requests. `t_latest` is the default time 0 if nothing is stored. -/
def serveRequests (fp : FP) (S : Insts W P) (h : HState W P) : HState W P :=
  let tl := match h.meas.latest with
    | some l => fp.secOfKey l.1
    | none => fp.toSec ⟨0, 0⟩
  let redo1 := Buf.checkHorizonFrom fp h.hRedo h.redo tl
  match redo1.oldest with
  | none => { h with redo := redo1 }
  | some o =>
    let h1 := { h with redo := [] }
    match h1.meas.oldest with
    | some om =>
      if om.1 < o.1 then
        if o.2 then (redoAfter S h1 o.1).1 else (redoFrom S h1 o.1).1
      else h1
    | none => h1

/-- DH:239-279: from the order check on. -/
def processTail (fp : FP) (S : Insts W P) (h : HState W P) (m : Meas P) : HState W P × List Status :=
  let violated := isOrderViolated h.meas m
  let h1 := { h with ooo := Buf.checkHorizonFrom fp h.hOoo h.ooo (fp.secOfKey m.t) }
  let oooExists := h1.ooo.existBefore m.t || h1.ooo.existAt m.t
  if violated || oooExists then
    let h2 := trim fp (insertMeas h1 m)
    let tStart := if oooExists then
        match h2.ooo.oldest with
        | some o => if o.1 < m.t then o.1 else m.t
        | none => m.t
      else m.t
    let h3 := if oooExists then { h2 with ooo := [] } else h2
    let h4 := { h3 with meas := sortFrom h3.meas tStart }
    redoFrom S h4 tStart
  else
    let r := delegate S h1.w m
    let h2 := { h1 with w := r.1 }
    let h3 := if r.2 = .outOfOrder then { h2 with ooo := h2.ooo.insertMap m.t true } else h2
    let h4 := if r.2 ≠ .discarded then trim fp (insertMeas h3 m) else h3
    (h4, [r.2])

/-- DH:193-285 `process_measurement`. -/
def process (fp : FP) (S : Insts W P) (h : HState W P) (m : Meas P) : HState W P × List Status :=
  if !S.known h.w m.id then (h, [.discarded])
  else if tooOld fp h m then (h, [.discarded])
  else
    let h1 := serveRequests fp S h
    if discardMeasurement h1 m then (h1, [.discarded])
    else processTail fp S h1 m

/-- DH:193-195,281-284: with the mutex attempt (`got` = acquired in time). -/
def processTimed (fp : FP) (S : Insts W P) (h : HState W P) (m : Meas P) (got : Bool) :
    HState W P × List Status :=
  if got then process fp S h m else (h, [.outOfOrder])

/-- A stream of arrivals. -/
def runStream (fp : FP) (S : Insts W P) (h : HState W P) (ms : List (Meas P)) : HState W P :=
  ms.foldl (fun h m => (process fp S h m).1) h

end Handler
end Ikf
