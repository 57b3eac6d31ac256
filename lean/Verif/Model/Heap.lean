import Verif.Model.Isolated

/-!
# Belief objects are shared pointers

The other models treat a belief pointer (`pBelief_t`, IBelief.hpp:119 `std::shared_ptr<IBelief>`) as its value. Here the
pointers are addresses into a heap: histories hold addresses, `clone()` allocates, `correct`, `set_timestamp` and the
caller's own writes change an object that every holder of its address sees. Same sources and simplifications as
Model/Isolated.lean otherwise (`IK`, `KF`, `IH` there).
-/

namespace Ikf
open Mat

/-- The belief objects; addresses from `next` on are unused. -/
structure Heap where
  val : ℕ → Belief
  next : ℕ

namespace Heap
/-- Change of one object. -/
def put (H : Heap) (a : ℕ) (b : Belief) : Heap := { H with val := fun x => if x = a then b else H.val x }
/-- `std::make_shared`, `clone()` (LinearBelief.cpp:30-35): a new object; its address. -/
def alloc (H : Heap) (b : Belief) : Heap × ℕ := (⟨fun x => if x = H.next then b else H.val x, H.next + 1⟩, H.next)
end Heap

/-- `Inst` (Model/Isolated.lean) with a history of addresses. -/
structure PInst where
  ptr : Buf ℕ
  ccf : SMap (Buf Mat)
  hor : ℚ

namespace PInst

/-- KF:54-57 with IK:40-43 `initialize(bel, t)`: the pointer is stored, not a copy. -/
def doInit (i : PInst) (a : ℕ) (t : Int) : PInst := { i with ptr := Buf.insertMap [] t a, ccf := [] }

/-- KF:201-203 `set_belief_at_t`: the pointer is stored, not a copy. -/
def setPtr (i : PInst) (a : ℕ) (t : Int) : PInst := { i with ptr := i.ptr.insertMap t a }

/-- IK:167-178 `add_correction_at_t`. -/
def addCorrection (i : PInst) (ta tb : Int) (Phi : Mat) : Res PInst := do
  let c ← i.ccf.mapR (Inst.bufMul ta tb Phi)
  .ok { i with ccf := c }

/-- IK:156-164 `check_horizon`. -/
def checkHorizon (fp : FP) (i : PInst) : PInst :=
  { i with
    ptr := Buf.checkHorizonRestricted fp i.hor i.ptr 4
    ccf := i.ccf.mapV (fun b => Buf.checkHorizonRestricted fp i.hor b 4) }

/-- IK:133-138 `remove_after_t`. -/
def removeAfter (i : PInst) (t : Int) : PInst :=
  { i with ptr := i.ptr.removeAfter t, ccf := i.ccf.mapV (fun b => b.removeAfter t) }

/-- IK:140-147 `remove_from_t`. -/
def removeFrom (i : PInst) (t : Int) : PInst :=
  { i with
    ptr := (i.ptr.removeAfter t).removeAt t
    ccf := i.ccf.mapV (fun b => (b.removeAfter t).removeAt t) }

/-- KF:342-369: the a-priori object is cloned, the clone is changed and stored. -/
noncomputable def basePropEKF (H : Heap) (i : PInst) (a : ℕ) (mb Phi Q : Mat) (tb : Int) : Res (Heap × PInst × Bool) :=
  if checkDimQ (H.val a).Sigma Phi Q then do
    let Sb ← covPropagation (H.val a).Sigma Phi Q false
    let c := H.alloc (H.val a)
    if checkDimMean mb Sb then
      let bb := (c.1.val c.2).set mb Sb
      if bb.2 then .ok (c.1.put c.2 { bb.1 with stamp := tb }, i.setPtr c.2 tb, true) else .ok (c.1, i, false)
    else .ok (c.1, i, false)
  else .ok (H, i, false)

/-- IK:245-259 `apply_propagation(bel_a, mean_b, Phi, Q, t_a, t_b)`. -/
noncomputable def propEKF (fp : FP) (H : Heap) (i : PInst) (a : ℕ) (mb Phi Q : Mat) (ta tb : Int) : Res (Heap × PInst × Bool) := do
  let r ← basePropEKF H i a mb Phi Q tb
  if r.2.2 then do
    let j ← r.2.1.addCorrection ta tb Phi
    .ok (r.1, j.checkHorizon fp, true)
  else .ok (r.1, r.2.1, false)

/-- KF:327-339: the part of IK:228-242 inside the base class. -/
noncomputable def propKFBase (fp : FP) (H : Heap) (i : PInst) (Phi Q : Mat) (ta tb : Int) : Res (Heap × PInst × Bool) :=
  match i.ptr.getAt ta with
  | some e =>
    if checkDimMean (H.val e.2).mean Phi then do
      let mb ← Phi *! (H.val e.2).mean
      i.propEKF fp H e.2 mb Phi Q ta tb
    else .ok (H, i, false)
  | none => .ok (H, i, false)

/-- IK:228-242 `apply_propagation(Phi, Q, t_a, t_b)`. -/
noncomputable def propKF (fp : FP) (H : Heap) (i : PInst) (Phi Q : Mat) (ta tb : Int) : Res (Heap × PInst × Bool) := do
  let r ← propKFBase fp H i Phi Q ta tb
  if r.2.2 then do
    let j ← r.2.1.addCorrection ta tb Phi
    .ok (r.1, j.checkHorizon fp, true)
  else .ok (r.1, r.2.1, false)

/-- IK:261-274 with KF:371-388 `apply_propagation(bel_b, Phi, t_a, t_b)`: the caller's object gets the new timestamp and is
stored itself. -/
noncomputable def propBel (fp : FP) (H : Heap) (i : PInst) (a : ℕ) (Phi : Mat) (ta tb : Int) : Res (Heap × PInst × Bool) :=
  if checkDimPhi (H.val a).Sigma Phi then do
    let j ← (i.setPtr a tb).addCorrection ta tb Phi
    .ok (H.put a { H.val a with stamp := tb }, j.checkHorizon fp, true)
  else .ok (H, i, false)

/-- IK:289-312 (EKF) `apply_private_observation(bel, H, R, r, cfg)` for the object `a`, corrected in place. -/
noncomputable def privEKF (H : Heap) (i : PInst) (a : ℕ) (Hm R r : Mat) (cfg : Cfg) : Res (Heap × PInst × Bool) := do
  let res ← correctionStep Hm R r (H.val a).Sigma cfg
  if !res.rejected then do
    let j ← i.addCorrection (H.val a).stamp (H.val a).stamp res.U
    let b' ← (H.val a).correct res.dx res.Sapos
    .ok (H.put a b', j, true)
  else .ok (H, i, false)

/-- IK:277-286 (KF) `apply_private_observation(H, R, z, t, cfg)`. -/
noncomputable def privKF (H : Heap) (i : PInst) (Hm R z : Mat) (t : Int) (cfg : Cfg) : Res (Heap × PInst × Bool) :=
  match i.ptr.getAt t with
  | some e => do
    let hm ← Hm *! (H.val e.2).mean
    let r ← z -! hm
    privEKF H i e.2 Hm R r cfg
  | none => .ok (H, i, false)

end PInst

/-- The heap and the registered instances. -/
structure PSt where
  heap : Heap
  inst : SMap PInst

/-- The values an instance's history shows. -/
def PInst.view (H : Heap) (i : PInst) : Inst := ⟨i.ptr.map (fun e => (e.1, H.val e.2)), i.ccf, i.hor⟩

namespace PSt

/-- The values all histories show. -/
def view (s : PSt) : Hdl := s.inst.mapV (fun i => i.view s.heap)

/-- The caller creates a belief object. -/
def make (s : PSt) (b : Belief) : PSt × ℕ := ({ s with heap := (s.heap.alloc b).1 }, (s.heap.alloc b).2)

/-- The caller changes an object through its pointer (IBelief.cpp:44-70, 77-83). -/
def write (s : PSt) (a : ℕ) (b : Belief) : PSt := { s with heap := s.heap.put a b }

/-- A call on instance `id`. -/
noncomputable def onInst (s : PSt) (id : ℕ) (f : Heap → PInst → Res (Heap × PInst × Bool)) : Res (PSt × Bool) :=
  match s.inst.find id with
  | some i => do
    let r ← f s.heap i
    .ok (⟨r.1, s.inst.set id r.2.1⟩, r.2.2)
  | none => .ub

/-- IDICOHandler.cpp:404-416 `remove_beliefs_after_t`. -/
def removeBeliefsAfter (s : PSt) (t : Int) : PSt :=
  { s with inst := s.inst.mapV (fun i => if i.ptr.existAt t || i.ptr.existBefore t then i.removeAfter t else i) }

/-- IDICOHandler.cpp:418-425 `remove_beliefs_from_t`. -/
def removeBeliefsFrom (s : PSt) (t : Int) : PSt :=
  { s with inst := s.inst.mapV (fun i => if i.ptr.existBefore t then i.removeFrom t else i) }

/-- IH:74-88 `get_dict_bel(ids, t)`: the map of pointers. `pred` is the user's `predict_to`. -/
def getDictPtr (pred : ℕ → Heap → PInst → Int → Heap × PInst × Bool) : PSt → List ℕ → Int → SMap ℕ → Res (PSt × SMap ℕ)
  | s, [], _, acc => .ok (s, acc)
  | s, id :: r, t, acc =>
    match s.inst.find id with
    | none => .ub
    | some i =>
      if i.ptr.existAt t then
        match i.ptr.getAt t with
        | some e => getDictPtr pred s r t (acc.emplace id e.2)
        | none => .ok (s, [])
      else
        let x := pred id s.heap i t
        let s1 : PSt := ⟨x.1, s.inst.set id x.2.1⟩
        if x.2.2 then
          match x.2.1.ptr.getAt t with
          | some e => getDictPtr pred s1 r t (acc.emplace id e.2)
          | none => .ok (s1, [])
        else .ok (s1, [])

/-- IH:203-216 `correct_beliefs_implace` through the pointers of the map. -/
def correctPtrs (P dx : Mat) : SMap ℕ → ℕ → Heap → Res Heap
  | [], _, H => .ok H
  | e :: r, row, H =>
    if !(H.val e.2).fixed then do
      let B ← P.blockC row row (H.val e.2).dim (H.val e.2).dim
      let x ← dx.blockC row 0 (H.val e.2).dim 1
      let b ← (H.val e.2).correct x B
      correctPtrs P dx r (row + (H.val e.2).dim) (H.put e.2 b)
    else correctPtrs P dx r row H

/-- The factors of `h`. -/
def withFactors (s : PSt) (h : Hdl) : PSt :=
  { s with inst := s.inst.map (fun e => (e.1, match h.find e.1 with
      | some j => { e.2 with ccf := j.ccf, hor := j.hor }
      | none => e.2)) }

/-- IH:33-43 `set_Sigma_IJ_at_t`: factors only. -/
def setSigma (s : PSt) (I J : ℕ) (S : Mat) (t : Int) : Res PSt := do
  let h ← Hdl.setSigma s.view I J S t
  .ok (s.withFactors h)

/-- IH:266-275 the three steps after an accepted correction. The first two do not look at the belief histories and do not
change them: they run on the values and their factors are taken over. -/
noncomputable def commit (s : PSt) (d : SMap ℕ) (P dx : Mat) (t : Int) : Res PSt := do
  let h1 ← Hdl.applyCorrections P t (d.mapV s.heap.val) 0 s.view
  let h2 ← Hdl.splitRightUpper P (d.mapV s.heap.val) t h1
  let H ← correctPtrs P dx d 0 s.heap
  .ok { s.withFactors h2 with heap := H }

/-- IH:257-277. -/
noncomputable def correctJoint (near : Mat → Mat) (s : PSt) (d : SMap ℕ) (H R r S : Mat) (t : Int) (cfg : Cfg) : Res (PSt × Bool) := do
  let res ← correctionStep H R r S cfg
  if !res.rejected then do
    let s1 ← commit s d (Hdl.fixPsd near res.Sapos) res.dx t
    .ok (s1, true)
  else .ok (s, false)

/-- IH:284-329 `apply_observation(dict_H, z, R, t, cfg)`; stacking reads the objects of the map and the factors. -/
noncomputable def applyObsZ (near : Mat → Mat) (pred : ℕ → Heap → PInst → Int → Heap × PInst × Bool) (s : PSt) (dH : SMap Mat) (z R : Mat)
    (t : Int) (cfg : Cfg) : Res (PSt × Bool) := do
  let H ← Hdl.stackH dH
  let x ← getDictPtr pred s dH.keys t []
  if x.2.isEmpty then .ok (x.1, false)
  else do
    let d := x.2.mapV x.1.heap.val
    let mean ← Hdl.stackMean d
    let S0 ← Hdl.stackSigma x.1.view d t
    let Hm ← H *! mean
    let r ← z -! Hm
    let S ← stabilize S0 (1 / 10^12)
    correctJoint near x.1 x.2 H R r S t cfg

/-- IH:238-282 `apply_observation(dict_H, R, r, t, cfg)`. -/
noncomputable def applyObsR (near : Mat → Mat) (pred : ℕ → Heap → PInst → Int → Heap × PInst × Bool) (s : PSt) (dH : SMap Mat) (R r : Mat)
    (t : Int) (cfg : Cfg) : Res (PSt × Bool) := do
  let H ← Hdl.stackH dH
  let x ← getDictPtr pred s dH.keys t []
  if x.2.isEmpty then .ok (x.1, false)
  else do
    let d := x.2.mapV x.1.heap.val
    let S0 ← Hdl.stackSigma x.1.view d t
    let S ← stabilize S0 (1 / 10^12)
    correctJoint near x.1 x.2 H R r S t cfg

end PSt
end Ikf
