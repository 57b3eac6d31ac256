import Verif.Model.SMap
import Verif.Model.Buffer
import Verif.Model.KalmanMath
import Mathlib.LinearAlgebra.Matrix.PosDef

/-!
# Isolated Kalman filter instances and their joint updates

Model of source/ikf/source/Estimator/IIsolatedKalmanFilter.cpp (`IK`), the matrix part of
Estimator/IKalmanFilter.cpp (`KF`), Estimate/IBelief.cpp and LinearBelief.cpp, and
EstimatorHandler/IsolatedKalmanFilterHandler.cpp (`IH`).

Simplifications: exact real arithmetic; times are nanosecond keys; beliefs are `LinearBelief`s (plus is
addition, `es_dim = ns_dim = Sigma.rows()`, LinearBelief.cpp:37-50); a belief pointer is its value, a
change through the pointer is written back to the history at its key (no belief object is stored twice);
`HistMeas` of an instance is empty while it belongs to a handler and is left out; the mutex is acquired;
log output is left out. `unordered_map`s are in key order (no result depends on the order).
-/

namespace Ikf
open Mat

/-- IBelief.hpp:110-115 members used; `fixed`/`essential` are `BeliefOptions` (IBelief.hpp:30-34). -/
structure Belief where
  mean : Mat
  Sigma : Mat
  stamp : Int
  fixed : Bool := false
  essential : Bool := true

namespace Belief
/-- LinearBelief.cpp:37-48 `es_dim()` and `ns_dim()`. -/
def dim (b : Belief) : ℕ := b.Sigma.rows

/-- LinearBelief.cpp:37-44 `correct(dx, Sigma_apos)`. -/
def correct (b : Belief) (dx Sapos : Mat) : Res Belief := do
  let m ← b.mean +! dx
  .ok { b with mean := m, Sigma := Sapos }

/-- IBelief.cpp:52-57 `set(mean, Sigma)`. -/
def set (b : Belief) (mean Sigma : Mat) : Belief × Bool :=
  if !checkDimMean mean Sigma then (b, false) else ({ b with mean := mean, Sigma := Sigma }, true)
end Belief

/-- IKalmanFilter.hpp:128-133, IIsolatedKalmanFilter.hpp:194-195 members used. `hor` is the horizon of all
its buffers. -/
structure Inst where
  bel : Buf Belief
  ccf : SMap (Buf Mat)
  hor : ℚ

namespace Inst

/-- IK:40-43 `reset`. -/
def reset (i : Inst) : Inst := { i with bel := [], ccf := [] }

/-- KF:54-57 with IK:40-43: `initialize(bel, t)`. The belief keeps its own timestamp. -/
def doInit (i : Inst) (b : Belief) (t : Int) : Inst := { i.reset with bel := i.reset.bel.insertMap t b }

/-- KF:140-199, `get_belief_at_t(t, bel, EXACT)`. -/
def beliefAt (i : Inst) (t : Int) : Option Belief := (i.bel.getAt t).map (·.2)

/-- KF:201-203 `set_belief_at_t`. -/
def setBelief (i : Inst) (b : Belief) (t : Int) : Inst := { i with bel := i.bel.insertMap t b }

/-- IK:91-98 `get_CrossCovFact_at_t`: an empty matrix if there is none. -/
def getCCF (i : Inst) (t : Int) (J : ℕ) : Mat :=
  match i.ccf.find J with
  | some b => match b.getAt t with
    | some e => e.2
    | none => Mat.empty
  | none => Mat.empty

/-- IK:112-120 `set_CrossCovFact_at_t`. -/
def setCCF (i : Inst) (t : Int) (J : ℕ) (M : Mat) : Inst :=
  match i.ccf.find J with
  | some b => { i with ccf := i.ccf.set J (b.insertMap t M) }
  | none => { i with ccf := i.ccf.set J (Buf.insertMap [] t M) }

/-- Loop body of IK:167-178 (and of 180-191 with `ta = tb`): one factor history. -/
def bufMul (ta tb : Int) (F : Mat) (b : Buf Mat) : Res (Buf Mat) :=
  if b.existAt ta then
    match b.getAt ta with
    | some e => do
      let x ← F *! e.2
      .ok (b.insertMap tb x)
    | none => .ok b   -- get_at_t cannot fail here
  else .ok b

/-- IK:167-178 `add_correction_at_t(t_a, t_b, Phi)`; it returns true. -/
def addCorrection (i : Inst) (ta tb : Int) (Phi : Mat) : Res Inst := do
  let c ← i.ccf.mapR (bufMul ta tb Phi)
  .ok { i with ccf := c }

/-- IK:180-191 `apply_correction_at_t(t, Factor)`; it returns true. -/
def applyCorrection (i : Inst) (t : Int) (F : Mat) : Res Inst := do
  let c ← i.ccf.mapR (bufMul t t F)
  .ok { i with ccf := c }

/-- IK:194-197 `apply_correction_at_t(t, Sigma_apri, Sigma_apos)`. -/
noncomputable def applyCorrectionSigma (i : Inst) (t : Int) (Sapri Sapos : Mat) : Res Inst := do
  let inv ← Sapri.invC
  let L ← Sapos *! inv
  i.applyCorrection t L

/-- IK:156-164 `check_horizon`. -/
def checkHorizon (fp : FP) (i : Inst) : Inst :=
  { i with
    bel := Buf.checkHorizonRestricted fp i.hor i.bel 4
    ccf := i.ccf.mapV (fun b => Buf.checkHorizonRestricted fp i.hor b 4) }

/-- IK:133-138 `remove_after_t`. -/
def removeAfter (i : Inst) (t : Int) : Inst :=
  { i with bel := i.bel.removeAfter t, ccf := i.ccf.mapV (fun b => b.removeAfter t) }

/-- IK:140-147 `remove_from_t`. -/
def removeFrom (i : Inst) (t : Int) : Inst :=
  { i with
    bel := (i.bel.removeAfter t).removeAt t
    ccf := i.ccf.mapV (fun b => (b.removeAfter t).removeAt t) }

/-- KF:342-369 `apply_propagation(bel_a, mean_b, Phi, Q, t_a, t_b)` of the base class. -/
noncomputable def basePropEKF (i : Inst) (ba : Belief) (mb Phi Q : Mat) (tb : Int) : Res (Inst × Bool) :=
  if checkDimQ ba.Sigma Phi Q then do
    let Sb ← covPropagation ba.Sigma Phi Q false
    if checkDimMean mb Sb then
      let bb := ba.set mb Sb
      if bb.2 then .ok (i.setBelief { bb.1 with stamp := tb } tb, true) else .ok (i, false)
    else .ok (i, false)
  else .ok (i, false)

/-- IK:245-259 (EKF) `apply_propagation(bel_a, mean_b, Phi, Q, t_a, t_b)`. -/
noncomputable def propEKF (fp : FP) (i : Inst) (ba : Belief) (mb Phi Q : Mat) (ta tb : Int) : Res (Inst × Bool) := do
  let r ← i.basePropEKF ba mb Phi Q tb
  if r.2 then do
    let j ← r.1.addCorrection ta tb Phi
    .ok (j.checkHorizon fp, true)
  else .ok (r.1, false)

/-- IK:228-242 with KF:327-339 (KF) `apply_propagation(Phi, Q, t_a, t_b)`. The base class calls the
virtual EKF overload, i.e. IK:245-259, and this function then repeats the factor propagation. -/
noncomputable def propKF (fp : FP) (i : Inst) (Phi Q : Mat) (ta tb : Int) : Res (Inst × Bool) := do
  let r ← (match i.beliefAt ta with
    | some ba =>
      if checkDimMean ba.mean Phi then do
        let mb ← Phi *! ba.mean
        i.propEKF fp ba mb Phi Q ta tb
      else .ok (i, false)
    | none => .ok (i, false) : Res (Inst × Bool))
  if r.2 then do
    let j ← r.1.addCorrection ta tb Phi
    .ok (j.checkHorizon fp, true)
  else .ok (r.1, false)

/-- IK:261-274 with KF:371-388 `apply_propagation(bel_b, Phi, t_a, t_b)`. -/
noncomputable def propBel (fp : FP) (i : Inst) (bb : Belief) (Phi : Mat) (ta tb : Int) : Res (Inst × Bool) :=
  if checkDimPhi bb.Sigma Phi then do
    let j ← (i.setBelief { bb with stamp := tb } tb).addCorrection ta tb Phi
    .ok (j.checkHorizon fp, true)
  else .ok (i, false)

/-- IK:289-312 (EKF) `apply_private_observation(bel, H, R, r, cfg)` for the belief stored at `key`. -/
noncomputable def privEKF (i : Inst) (b : Belief) (key : Int) (H R r : Mat) (cfg : Cfg) : Res (Inst × Bool) := do
  let res ← correctionStep H R r b.Sigma cfg
  if !res.rejected then do
    let j ← i.applyCorrection b.stamp res.U
    let b' ← b.correct res.dx res.Sapos
    .ok (j.setBelief b' key, true)
  else .ok (i, false)

/-- IK:277-286 (KF) `apply_private_observation(H, R, z, t, cfg)`. -/
noncomputable def privKF (i : Inst) (H R z : Mat) (t : Int) (cfg : Cfg) : Res (Inst × Bool) :=
  match i.beliefAt t with
  | some b => do
    let hm ← H *! b.mean
    let r ← z -! hm
    i.privEKF b t H R r cfg
  | none => .ok (i, false)

end Inst

/-- IDICOHandler.hpp:107 `id_dict`. -/
abbrev Hdl := SMap Inst

namespace Hdl

/-- IDICOHandler.cpp:427-438 `get(ID)` followed by a dereference of the pointer (null if unknown). -/
def get (h : Hdl) (id : ℕ) : Res Inst :=
  match h.find id with
  | some i => .ok i
  | none => .ub

/-- IDICOHandler.cpp:404-416 `remove_beliefs_after_t`. -/
def removeBeliefsAfter (h : Hdl) (t : Int) : Hdl :=
  h.mapV (fun i => if i.bel.existAt t || i.bel.existBefore t then i.removeAfter t else i)

/-- IDICOHandler.cpp:418-425 `remove_beliefs_from_t`. -/
def removeBeliefsFrom (h : Hdl) (t : Int) : Hdl :=
  h.mapV (fun i => if i.bel.existBefore t then i.removeFrom t else i)

/-- IH:33-43 `set_Sigma_IJ_at_t`. -/
def setSigma (h : Hdl) (I J : ℕ) (S : Mat) (t : Int) : Res Hdl :=
  if I < J then do
    let i ← get h I
    let h1 := h.set I (i.setCCF t J S)
    let j ← get h1 J
    .ok (h1.set J (j.setCCF t I (one S.cols)))
  else do
    let SJI := S.tr
    let j ← get h J
    let h1 := h.set J (j.setCCF t I SJI)
    let i ← get h1 I
    .ok (h1.set I (i.setCCF t J (one SJI.cols)))

/-- IH:219-236 `get_Sigma_IJ_at_t`. -/
def getSigma (h : Hdl) (I J : ℕ) (t : Int) : Res Mat := do
  let i ← get h I
  let j ← get h J
  let FIJ := i.getCCF t J
  let FJI := j.getCCF t I
  if FIJ.size ≠ 0 ∧ FJI.size ≠ 0 then
    if I < J then FIJ *! FJI.tr
    else do
      let SJI ← FJI *! FIJ.tr
      .ok SJI.tr
  else .ok Mat.empty

/-- First loop of IH:46-51: (`state_dim`, `H_rows`). -/
def dimsH : SMap Mat → ℕ × ℕ → ℕ × ℕ
  | [], a => a
  | e :: r, a => dimsH r (a.1 + e.2.cols, e.2.rows)

/-- Second loop of IH:54-61. -/
def stackHLoop (Hrows : ℕ) : SMap Mat → ℕ → Mat → Res Mat
  | [], _, H => .ok H
  | e :: r, col, H => do
    let H1 ← H.setBlockC 0 col Hrows e.2.cols e.2
    stackHLoop Hrows r (col + e.2.cols) H1

/-- IH:45-63 `stack_H`. -/
def stackH (d : SMap Mat) : Res Mat :=
  let a := dimsH d (0, 0)
  stackHLoop a.2 d 0 (Mat.zero a.2 a.1)

/-- IH:75-87 loop body: `get(id)->get_belief_at_t(t, bel, PREDICT_BELIEF)` (KF:140-199). `pred` is the
user's `predict_to`; it may change the instance. -/
def beliefPredict (pred : ℕ → Inst → Int → Inst × Bool) (h : Hdl) (id : ℕ) (t : Int) : Res (Hdl × Option Belief) := do
  let i ← get h id
  if i.bel.existAt t then .ok (h, i.beliefAt t)
  else
    let r := pred id i t
    .ok (h.set id r.1, if r.2 then r.1.beliefAt t else none)

/-- IH:74-88 `get_dict_bel(ids, t)`: new handler state and the map (empty on failure). -/
def getDictBel (pred : ℕ → Inst → Int → Inst × Bool) : Hdl → List ℕ → Int → SMap Belief → Res (Hdl × SMap Belief)
  | h, [], _, acc => .ok (h, acc)
  | h, id :: r, t, acc => do
    let x ← beliefPredict pred h id t
    match x.2 with
    | none => .ok (x.1, [])
    | some b => getDictBel pred x.1 r t (acc.emplace id b)

/-- The entries not skipped by `if (!e.second->options().is_fixed)`. -/
def unfixed (d : SMap Belief) : SMap Belief := d.filter (fun e => !e.2.fixed)

/-- IH:90-98 `get_dim`. -/
def getDim (d : SMap Belief) : ℕ := d.foldl (fun a e => if !e.2.fixed then a + e.2.dim else a) 0

/-- Second loop of IH:110-117. -/
def stackMeanLoop : SMap Belief → ℕ → Mat → Res Mat
  | [], _, m => .ok m
  | e :: r, row, m =>
    if !e.2.fixed then do
      let m1 ← m.setBlockC row 0 e.2.dim 1 e.2.mean
      stackMeanLoop r (row + e.2.dim) m1
    else stackMeanLoop r row m

/-- IH:100-118 `stack_mean`. -/
def stackMean (d : SMap Belief) : Res Mat := stackMeanLoop d 0 (Mat.zero (getDim d) 1)

/-- Inner loop of IH:134-152 for the row of `a`. -/
def stackRow (h : Hdl) (t : Int) (a : ℕ × Belief) (row : ℕ) : SMap Belief → ℕ → Mat → Res Mat
  | [], _, M => .ok M
  | b :: r, col, M =>
    if !b.2.fixed then do
      let M1 ← (if a.1 = b.1 then M.setBlockC row col a.2.dim b.2.dim a.2.Sigma
        else if a.1 < b.1 then do
          let X ← getSigma h a.1 b.1 t
          if X.size ≠ 0 then do
            let M2 ← M.setBlockC row col a.2.dim b.2.dim X
            M2.setBlockC col row b.2.dim a.2.dim X.tr
          else .ok M
        else .ok M : Res Mat)
      stackRow h t a row r (col + b.2.dim) M1
    else stackRow h t a row r col M

/-- Outer loop of IH:128-155. -/
def stackRows (h : Hdl) (t : Int) (d : SMap Belief) : SMap Belief → ℕ → Mat → Res Mat
  | [], _, M => .ok M
  | a :: r, row, M =>
    if !a.2.fixed then do
      let M1 ← stackRow h t a row d 0 M
      stackRows h t d r (row + a.2.dim) M1
    else stackRows h t d r row M

/-- IH:121-159 `stack_Sigma`. -/
noncomputable def stackSigma (h : Hdl) (d : SMap Belief) (t : Int) : Res Mat := do
  let M ← stackRows h t d d 0 (Mat.zero (getDim d) (getDim d))
  symmetrize M

/-- IH:161-174 `apply_corrections_at_t` from row `row` on. -/
noncomputable def applyCorrections (P : Mat) (t : Int) : SMap Belief → ℕ → Hdl → Res Hdl
  | [], _, h => .ok h
  | e :: r, row, h =>
    if !e.2.fixed then do
      let B ← P.blockC row row e.2.dim e.2.dim
      let i ← get h e.1
      let j ← i.applyCorrectionSigma t e.2.Sigma B
      applyCorrections P t r (row + e.2.dim) (h.set e.1 j)
    else applyCorrections P t r row h

/-- Inner loop of IH:192-198. -/
def splitRow (P : Mat) (t : Int) (I : ℕ) (di row : ℕ) : List (ℕ × ℕ) → ℕ → Hdl → Res Hdl
  | [], _, h => .ok h
  | (J, dj) :: r, col, h => do
    let B ← P.blockC row col di dj
    let h1 ← setSigma h I J B t
    splitRow P t I di row r (col + dj) h1

/-- Outer loop of IH:187-200 over the (ID, dimension) pairs. The last one has no inner iterations, so
running it too (the C++ stops before it) changes nothing. -/
def splitRows (P : Mat) (t : Int) : List (ℕ × ℕ) → ℕ → ℕ → Hdl → Res Hdl
  | [], _, _, h => .ok h
  | (I, di) :: r, row, off, h => do
    let h1 ← splitRow P t I di row r (off + di) h
    splitRows P t r (row + di) (off + di) h1

/-- IH:176-201 `split_right_upper_covariance`: with no unfixed participant `IDs.size() - 1` wraps around
and `IDs.at(0)` throws. -/
def splitRightUpper (P : Mat) (d : SMap Belief) (t : Int) (h : Hdl) : Res Hdl :=
  let ids := (unfixed d).map (fun e => (e.1, e.2.dim))
  if ids.isEmpty then .throws else splitRows P t ids 0 0 h

/-- IH:203-216 `correct_beliefs_implace`: the belief of `id` is the one stored at `t`. -/
def correctBeliefs (P dx : Mat) (t : Int) : SMap Belief → ℕ → Hdl → Res Hdl
  | [], _, h => .ok h
  | e :: r, row, h =>
    if !e.2.fixed then do
      let B ← P.blockC row row e.2.dim e.2.dim
      let x ← dx.blockC row 0 e.2.dim 1
      let b ← e.2.correct x B
      let i ← get h e.1
      correctBeliefs P dx t r (row + e.2.dim) (h.set e.1 (i.setBelief b t))
    else correctBeliefs P dx t r row h

open Classical in
/-- IH:260-264 `if (!is_positive_semidefinite(P)) P = nearest_covariance(P, 1e-6)`, exact test.
`near` stands for `nearest_covariance` (eigen_utils.cpp:236-272, an eigenvalue decomposition), modelled
in Model/MatUtils (`nearestCov`) and a parameter here. -/
noncomputable def fixPsd (near : Mat → Mat) (P : Mat) : Mat :=
  if P.rows = P.cols ∧ (P.toM P.rows P.rows).PosSemidef then P else near P

/-- IH:266-275 the three steps after an accepted correction. -/
noncomputable def commit (h : Hdl) (d : SMap Belief) (P dx : Mat) (t : Int) : Res Hdl := do
  let h1 ← applyCorrections P t d 0 h
  let h2 ← splitRightUpper P d t h1
  correctBeliefs P dx t d 0 h2

/-- IH:257-277 correction with residual `r` of the stacked belief. -/
noncomputable def correctJoint (near : Mat → Mat) (h : Hdl) (d : SMap Belief) (H R r S : Mat) (t : Int) (cfg : Cfg) :
    Res (Hdl × Bool) := do
  let res ← correctionStep H R r S cfg
  if !res.rejected then do
    let h1 ← commit h d (fixPsd near res.Sapos) res.dx t
    .ok (h1, true)
  else .ok (h, false)

/-- IH:238-282 `apply_observation(dict_H, R, r, t, cfg)`. -/
noncomputable def applyObsR (near : Mat → Mat) (pred : ℕ → Inst → Int → Inst × Bool) (h : Hdl) (dH : SMap Mat) (R r : Mat) (t : Int) (cfg : Cfg) :
    Res (Hdl × Bool) := do
  let H ← stackH dH
  let x ← getDictBel pred h dH.keys t []
  if x.2.isEmpty then .ok (x.1, false)
  else do
    let S0 ← stackSigma x.1 x.2 t
    let S ← stabilize S0 (1 / 10^12)
    correctJoint near x.1 x.2 H R r S t cfg

/-- IH:284-329 `apply_observation(dict_H, z, R, t, cfg)`. -/
noncomputable def applyObsZ (near : Mat → Mat) (pred : ℕ → Inst → Int → Inst × Bool) (h : Hdl) (dH : SMap Mat) (z R : Mat) (t : Int) (cfg : Cfg) :
    Res (Hdl × Bool) := do
  let H ← stackH dH
  let x ← getDictBel pred h dH.keys t []
  if x.2.isEmpty then .ok (x.1, false)
  else do
    let mean ← stackMean x.2
    let S0 ← stackSigma x.1 x.2 t
    let Hm ← H *! mean
    let r ← z -! Hm
    let S ← stabilize S0 (1 / 10^12)
    correctJoint near x.1 x.2 H R r S t cfg

end Hdl
end Ikf
