import Verif.Model.StandaloneKF
import Verif.Model.Isolated
import Mathlib.Analysis.Real.Sqrt

/-!
# The matrix part of a standalone filter

Model of source/ikf/source/Estimator/IKalmanFilter.cpp (`KF`) for a filter that is not an isolated one: the functions
a user's filter calls from its propagation and private-observation routines. Simplifications: exact real arithmetic;
beliefs are `LinearBelief`s; a belief pointer handed out by the history is named by the key it is stored at, and a
change through it is a change of the entry with that key; log output is left out. The filter is its belief history
(`HistBelief`): none of these functions touches the measurement history.
-/

namespace Ikf
open Mat

namespace SKF

/-- KF:32-35 constructor with a belief: stored at the belief's own time stamp. -/
def newWith {P : Type _} (b : Belief) (horizon : ℚ) (delayed : Bool) : KFState Belief P :=
  { (new horizon delayed : KFState Belief P) with bel := Buf.insertMap [] b.stamp b }

/-- KF:50-52 `initialize(bel)`: at the belief's own time stamp. -/
def doInitOwn {P : Type _} (s : KFState Belief P) (b : Belief) : KFState Belief P := doInit s b b.stamp

/-- KF:251-255 `set_horizon`, with TTimeHorizonBuffer.hpp:41-44. -/
def setHorizon {B P : Type _} (s : KFState B P) (horizon : ℚ) : KFState B P := { s with hBel := |horizon|, hMeas := |horizon| }

/-- KF:257-260 `check_horizon`. -/
def checkHorizon {B P : Type _} (fp : FP) (s : KFState B P) : KFState B P :=
  { s with bel := Buf.checkHorizon fp s.hBel s.bel, meas := Buf.checkHorizon fp s.hMeas s.meas }

/-- KF:140-199 `get_belief_at_t(t, bel)` (exact). -/
def beliefAt (h : Buf Belief) (t : Int) : Option Belief := (h.getAt t).map (·.2)

/-- Use of a belief pointer: null is undefined behaviour. -/
def deref : Option Belief → Res Belief
  | some b => .ok b
  | none => .ub

/-- KF:201-203 `set_belief_at_t(bel, t)`. -/
def setBelief (h : Buf Belief) (b : Belief) (t : Int) : Buf Belief := h.insertMap t b

/-- KF:205-213 `correct_belief_at_t(mean_corr, Sigma_apos, t)`. -/
def correctBeliefAt (h : Buf Belief) (dx Sapos : Mat) (t : Int) : Res (Buf Belief × Bool) :=
  match beliefAt h t with
  | some b => do
    let b' ← b.correct dx Sapos
    .ok (setBelief h b' t, true)
  | none => .ok (h, false)

/-- KF:224-227 `get_mean_at_t`. -/
def getMean (h : Buf Belief) (t : Int) : Res Mat := do
  let b ← deref (beliefAt h t)
  .ok b.mean

/-- KF:229-232 `get_Sigma_at_t`. -/
def getSigma (h : Buf Belief) (t : Int) : Res Mat := do
  let b ← deref (beliefAt h t)
  .ok b.Sigma

/-- KF:342-369 `apply_propagation(bel_a, mean_b, Phi, Q, t_a, t_b)`. -/
noncomputable def propEKF (h : Buf Belief) (ba : Belief) (mb Phi Q : Mat) (tb : Int) : Res (Buf Belief × Bool) :=
  if checkDimQ ba.Sigma Phi Q then do
    let Sb ← covPropagation ba.Sigma Phi Q false
    if checkDimMean mb Sb then
      let bb := ba.set mb Sb
      if bb.2 then .ok (setBelief h { bb.1 with stamp := tb } tb, true) else .ok (h, false)
    else .ok (h, false)
  else .ok (h, false)

/-- KF:327-340 `apply_propagation(Phi, Q, t_a, t_b)`. -/
noncomputable def propKF (h : Buf Belief) (Phi Q : Mat) (ta tb : Int) : Res (Buf Belief × Bool) :=
  match beliefAt h ta with
  | some ba =>
    if checkDimMean ba.mean Phi then do
      let mb ← Phi *! ba.mean
      propEKF h ba mb Phi Q tb
    else .ok (h, false)
  | none => .ok (h, false)

/-- KF:371-388 `apply_propagation(bel_b, Phi, t_a, t_b)`. -/
def propBel (h : Buf Belief) (bb : Belief) (Phi : Mat) (tb : Int) : Res (Buf Belief × Bool) :=
  if checkDimPhi bb.Sigma Phi then .ok (setBelief h { bb with stamp := tb } tb, true) else .ok (h, false)

/-- KF:411-422 `apply_private_observation(bel, H, R, r, cfg)` for the belief `b` stored at `key`. -/
noncomputable def privEKF (h : Buf Belief) (b : Belief) (key : Int) (H R r : Mat) (cfg : Cfg) : Res (Buf Belief × Bool) := do
  let res ← correctionStep H R r b.Sigma cfg
  if !res.rejected then do
    let b' ← b.correct res.dx res.Sapos
    .ok (setBelief h b' key, !res.rejected)
  else .ok (h, !res.rejected)

/-- KF:401-409 `apply_private_observation(H, R, z, t, cfg)`: the residual is formed before any dimension check. -/
noncomputable def privKF (h : Buf Belief) (H R z : Mat) (t : Int) (cfg : Cfg) : Res (Buf Belief × Bool) :=
  match beliefAt h t with
  | some b => do
    let hm ← H *! b.mean
    let r ← z -! hm
    privEKF h b t H R r cfg
  | none => .ok (h, false)

/-- IKalmanFilter.hpp:53 `h_priv`: measurement matrix and residual at a belief. -/
abbrev HPriv := Belief → Mat → Mat × Mat

/-- One pass of the loop of KF:435-470. `none`: return false; otherwise the new iterated belief, its mean as kept in
`mean_idx`, the gain, and whether the loop is left. `H_idx` declared in line 437 is a new variable. -/
noncomputable def privIterStep (b : Belief) (S R z : Mat) (hf : HPriv) (cfg : Cfg) (iter : ℕ) (bi : Belief) (mi : Mat) :
    Res (Option (Belief × Mat × Mat × Bool)) :=
  let Hr := hf bi z
  if !checkDimObs Hr.1 R Hr.2 S then .ok none
  else do
    let r ← (if iter > 0 then do
        let x ← Hr.1 *! b.mean
        let y ← Hr.1 *! bi.mean
        let d ← Hr.2 -! x
        d +! y
      else .ok Hr.2 : Res Mat)
    let a ← Hr.1 *! S
    let c ← a *! Hr.1.tr
    let S0 ← c +! R
    let Si ← stabilize S0 cfg.eps
    let good ← (if cfg.outlier then checkNIS Si r cfg.conf else .ok true : Res Bool)
    if !good then .ok none
    else do
      let p ← S *! Hr.1
      let Sinv ← Si.invC
      let K ← p *! Sinv
      let dx ← K *! r
      let m ← b.mean +! dx
      let bi' := { bi with mean := m }
      let d ← mi -! m
      let small := open Classical in decide (Real.sqrt (∑ i ∈ Finset.range d.rows, (d.e i 0) ^ 2) < cfg.tolEps)
      .ok (some (bi', (if small then mi else m), K, small))

/-- The loop KF:435-470, at most `k` passes. -/
noncomputable def privIterLoop (b : Belief) (S R z : Mat) (hf : HPriv) (cfg : Cfg) :
    ℕ → ℕ → Belief → Mat → Mat → Res (Option (Belief × Mat))
  | 0, _, bi, _, K => .ok (some (bi, K))
  | k + 1, iter, bi, mi, _ => do
    let x ← privIterStep b S R z hf cfg iter bi mi
    match x with
    | none => .ok none
    | some (bi', mi', K', stop) =>
      if stop then .ok (some (bi', K')) else privIterLoop b S R z hf cfg k (iter + 1) bi' mi' K'

/-- KF:424-488 `apply_private_observation(R, z, t, h, cfg)`. Line 427 reads the covariance through `bel_apri` before
line 428 looks the belief up, so through a null pointer; the outer `H_idx` of line 430 stays empty. -/
noncomputable def privIter (h : Buf Belief) (R z : Mat) (t : Int) (hf : HPriv) (cfg : Cfg) : Res (Buf Belief × Bool) := do
  let bel_apri : Option Belief := none
  let b0 ← deref bel_apri
  let S := b0.Sigma
  match beliefAt h t with
  | none => .ok (h, false)
  | some b => do
    let r ← privIterLoop b S R z hf cfg cfg.numIter 0 b b.mean Mat.empty
    match r with
    | none => .ok (h, false)
    | some (bi, K) => do
      let KH ← K *! Mat.empty
      let U ← one b.dim -! KH
      let P0 ← (if cfg.joseph then do
          let x ← U *! S
          let y ← x *! U.tr
          let v ← K *! R
          let w ← v *! K.tr
          y +! w
        else U *! S)
      let P ← (if cfg.stab then stabilize P0 cfg.eps else .ok P0)
      .ok (setBelief h { b with mean := bi.mean, Sigma := P } t, true)

end SKF
end Ikf
