import Verif.Model.Isolated

/-!
# Correction-buffer flavour of the isolated filter

Model of source/ikf/source/Estimator/IIsolatedKalmanFilterCorr.cpp (`IC`), which overrides virtual
functions of IIsolatedKalmanFilter.cpp (`IK`), whose inherited `apply_propagation` and
`apply_private_observation` therefore run with the overrides. Same simplifications as Model/Isolated.
An exception in the middle of a call loses the state in the model (`Res.throws`).
-/

namespace Ikf
open Mat

/-- IIsolatedKalmanFilterCorr.hpp:71: base class members and `HistCorr` with its own horizon (IC:28-30:
constructed with the horizon of the base; IC:82-86 `set_horizon` makes it twice that of the base). -/
structure CInst where
  base : Inst
  corr : Buf Mat
  corrHor : ℚ

namespace CInst

/-- IC:28-30: constructor. -/
def new (hor : ℚ) : CInst := ⟨⟨[], [], hor⟩, [], hor⟩

/-- IC:34-37 `reset`. -/
def reset (c : CInst) : CInst := { c with base := c.base.reset, corr := [] }

/-- IC:82-86 `set_horizon`. -/
def setHorizon (fp : FP) (c : CInst) (h : ℚ) : CInst :=
  { c with base := { c.base with hor := h }, corrHor := fp.rnd (h * 2) }

/-- IC:71-74 `remove_after_t`. -/
def removeAfter (c : CInst) (t : Int) : CInst := { c with base := c.base.removeAfter t, corr := c.corr.removeAfter t }

/-- IC:76-80 `remove_from_t`. -/
def removeFrom (c : CInst) (t : Int) : CInst :=
  { c with base := c.base.removeFrom t, corr := (c.corr.removeAfter t).removeAt t }

/-- `std::accumulate` with `B*A` (IC:139-142), products checked. -/
def accumC : Buf Mat → Mat → Res Mat
  | [], A => .ok A
  | e :: r, A => do
    let X ← e.2 *! A
    accumC r X

/-- IC:122-149 `compute_correction`; an empty matrix if no entries were found. `accumulate_between_t1_t2`
(HB:87-95) returns the start value if `t1 > t2`. -/
def computeCorrection (c : CInst) (ta tb : Int) : Res Mat :=
  match c.corr.getAfter ta with
  | none => .ok Mat.empty
  | some a =>
    match (match c.corr.getAt tb with | some e => some (tb, e.2) | none => c.corr.getBefore tb) with
    | none => .ok Mat.empty
    | some b =>
      let I := one (max a.2.cols a.2.rows)
      if a.1 ≤ b.1 ∧ 0 < c.corr.length then accumC (c.corr.range a.1 b.1) I else .ok I

/-- IC:39-69 `get_CrossCovFact_at_t`: new state and returned matrix. -/
def getCCF (c : CInst) (t : Int) (J : ℕ) : Res (CInst × Mat) :=
  match c.base.ccf.find J with
  | none => .ok (c, Mat.empty)
  | some b =>
    match b.getAt t with
    | some e => .ok (c, e.2)
    | none =>
      match b.getBefore t with
      | none => .ok (c, Mat.empty)
      | some p => do
        let M ← c.computeCorrection p.1 t
        if M.size ≠ 0 then do
          let X ← M *! p.2
          .ok ({ c with base := c.base.setCCF t J X }, X)
        else .ok (c, p.2)

/-- IC:151-161 `add_correction_at_t(t_a, t_b, Phi)`. -/
def addCorrection (c : CInst) (_ta tb : Int) (Phi : Mat) : CInst × Bool :=
  if !c.corr.existAt tb then ({ c with corr := c.corr.insertMap tb Phi }, true) else (c, false)

/-- IC:163-188 `apply_correction_at_t(t, Factor)`. -/
def applyCorrection (c : CInst) (t : Int) (F : Mat) : Res (CInst × Bool) := do
  let i ← c.base.applyCorrection t F
  match c.corr.getAt t with
  | some e => do
    let X ← F *! e.2
    .ok ({ c with base := i, corr := c.corr.insertMap t X }, true)
  | none => .ok ({ c with base := i, corr := c.corr.insertMap t F }, false)

/-- IC:190-193 `apply_correction_at_t(t, Sigma_apri, Sigma_apos)`. -/
noncomputable def applyCorrectionSigma (c : CInst) (t : Int) (Sapri Sapos : Mat) : Res (CInst × Bool) := do
  let inv ← Sapri.invC
  let L ← Sapos *! inv
  c.applyCorrection t L

/-- IC:92-98 `middle_t`: the newest correction strictly before `oldest_t.to_sec() + half_horizon`; a
default `Timestamp` (0) if there is none. -/
def middle (fp : FP) (c : CInst) : Int :=
  match c.corr.oldest with
  | none => 0
  | some o =>
    match c.corr.getBefore ((fp.fromSec (fp.rnd (fp.secOfKey o.1 + fp.rnd (c.corrHor * (1/2))))).ns) with
    | some m => m.1
    | none => 0

/-- Loop body of IC:100-111 for one factor history. -/
def promote (fp : FP) (c : CInst) (b : Buf Mat) : Res (Buf Mat) :=
  match b.latest with
  | none => .ok b
  | some l =>
    if l.1 ≤ c.middle fp then
      if c.corr.existAt l.1 then do
        let M ← c.computeCorrection l.1 (c.middle fp)
        let X ← M *! l.2
        .ok (b.insertMap (c.middle fp) X)
      else .throws
    else .ok b

/-- IC:88-113 `check_correction_horizon`. -/
def checkCorrectionHorizon (fp : FP) (c : CInst) : Res CInst :=
  if fp.rnd (c.corrHor * (1/2)) < c.corr.horizon fp then do
    let m ← c.base.ccf.mapR (promote fp c)
    .ok { c with base := { c.base with ccf := m } }
  else .ok c

/-- IC:115-120 `check_horizon`. -/
def checkHorizon (fp : FP) (c : CInst) : Res CInst := do
  let d ← c.checkCorrectionHorizon fp
  .ok { d with base := d.base.checkHorizon fp, corr := Buf.checkHorizon fp d.corrHor d.corr }

/-- IK:245-259 (EKF) `apply_propagation(bel_a, mean_b, Phi, Q, t_a, t_b)` with the overrides. -/
noncomputable def propEKF (fp : FP) (c : CInst) (ba : Belief) (mb Phi Q : Mat) (ta tb : Int) : Res (CInst × Bool) := do
  let r ← c.base.basePropEKF ba mb Phi Q tb
  if r.2 then
    let a := ({ c with base := r.1 } : CInst).addCorrection ta tb Phi
    if a.2 then do
      let d ← a.1.checkHorizon fp
      .ok (d, true)
    else .ok (a.1, false)
  else .ok ({ c with base := r.1 }, false)

/-- IK:228-242 with KF:327-339 (KF) `apply_propagation(Phi, Q, t_a, t_b)` with the overrides. -/
noncomputable def propKF (fp : FP) (c : CInst) (Phi Q : Mat) (ta tb : Int) : Res (CInst × Bool) := do
  let r ← (match c.base.beliefAt ta with
    | some ba =>
      if checkDimMean ba.mean Phi then do
        let mb ← Phi *! ba.mean
        c.propEKF fp ba mb Phi Q ta tb
      else .ok (c, false)
    | none => .ok (c, false) : Res (CInst × Bool))
  if r.2 then
    let a := r.1.addCorrection ta tb Phi
    if a.2 then do
      let d ← a.1.checkHorizon fp
      .ok (d, true)
    else .ok (a.1, false)
  else .ok (r.1, false)

/-- IK:261-274 with KF:371-388 `apply_propagation(bel_b, Phi, t_a, t_b)` with the overrides. -/
noncomputable def propBel (fp : FP) (c : CInst) (bb : Belief) (Phi : Mat) (ta tb : Int) : Res (CInst × Bool) :=
  if checkDimPhi bb.Sigma Phi then
    let a := ({ c with base := c.base.setBelief { bb with stamp := tb } tb } : CInst).addCorrection ta tb Phi
    if a.2 then do
      let d ← a.1.checkHorizon fp
      .ok (d, true)
    else .ok (a.1, false)
  else .ok (c, false)

/-- IK:289-312 (EKF) `apply_private_observation(bel, H, R, r, cfg)` with the overrides. -/
noncomputable def privEKF (c : CInst) (b : Belief) (key : Int) (H R r : Mat) (cfg : Cfg) : Res (CInst × Bool) := do
  let res ← correctionStep H R r b.Sigma cfg
  if !res.rejected then do
    let a ← c.applyCorrection b.stamp res.U
    if a.2 then do
      let b' ← b.correct res.dx res.Sapos
      .ok ({ a.1 with base := a.1.base.setBelief b' key }, true)
    else .ok (a.1, false)
  else .ok (c, false)

/-- IK:277-286 (KF) `apply_private_observation(H, R, z, t, cfg)` with the overrides. -/
noncomputable def privKF (c : CInst) (H R z : Mat) (t : Int) (cfg : Cfg) : Res (CInst × Bool) :=
  match c.base.beliefAt t with
  | some b => do
    let hm ← H *! b.mean
    let r ← z -! hm
    c.privEKF b t H R r cfg
  | none => .ok (c, false)

end CInst
end Ikf
