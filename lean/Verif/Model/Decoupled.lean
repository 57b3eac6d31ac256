import Verif.Model.Iterated

/-!
# The handler with decoupled propagation

Model of source/ikf/source/EstimatorHandler/DecoupledPropagationHandler.cpp (`DP`), with the
simplifications of `Model/Isolated.lean`. Every observation is meant to update the full state, i.e. all
registered instances.
-/

namespace Ikf
open Mat
namespace Hdl

/-- First loop of DP:33-35: the rows of the last Jacobian. -/
def lastRows : SMap Mat → ℕ → ℕ
  | [], m => m
  | e :: r, _ => lastRows r e.2.rows

/-- Loop of DP:37-43: sizes of the newest beliefs of all registered instances; an instance without a belief
is a dereference of a null pointer (`current_belief()`, IKalmanFilter.cpp:106-113). -/
def allDims : Hdl → Res (List (ℕ × ℕ))
  | [] => .ok []
  | e :: r =>
    match e.2.bel.latest with
    | none => .ub
    | some b => do
      let ds ← allDims r
      .ok ((e.1, b.2.dim) :: ds)

/-- Loop of DP:47-54. -/
def stackAllLoop (dH : SMap Mat) (m : ℕ) : List (ℕ × ℕ) → ℕ → Mat → Res Mat
  | [], _, H => .ok H
  | e :: r, col, H => do
    let H1 ← (match dH.find e.1 with
      | some M => H.setBlockC 0 col m e.2 M
      | none => .ok H : Res Mat)
    stackAllLoop dH m r (col + e.2) H1

/-- DP:30-57 `stack_H`. -/
def stackHAll (h : Hdl) (dH : SMap Mat) : Res Mat := do
  let ds ← allDims h
  stackAllLoop dH (lastRows dH 0) ds 0 (Mat.zero (lastRows dH 0) ((ds.map (·.2)).sum))

/-- DP:59-70 `get_dict_bel`: throws if one belief cannot be had. -/
def getDictAll (pred : ℕ → Inst → Int → Inst × Bool) : Hdl → List ℕ → Int → SMap Belief → Res (Hdl × SMap Belief)
  | h, [], _, acc => .ok (h, acc)
  | h, id :: r, t, acc => do
    let x ← beliefPredict pred h id t
    match x.2 with
    | none => .throws
    | some b => getDictAll pred x.1 r t (acc.emplace id b)

/-- DP:95-99 (130-134, 151-155): no correction of the factors towards others. -/
def commitD (h : Hdl) (d : SMap Belief) (P dx : Mat) (t : Int) : Res Hdl := do
  let h1 ← splitRightUpper P d t h
  correctBeliefs P dx t d 0 h1

/-- DP:87-101. -/
noncomputable def correctD (near : Mat → Mat) (h : Hdl) (d : SMap Belief) (H R r S : Mat) (t : Int) (cfg : Cfg) :
    Res (Hdl × Bool) := do
  let res ← correctionStep H R r S cfg
  if !res.rejected then do
    let h1 ← commitD h d (fixPsd near res.Sapos) res.dx t
    .ok (h1, true)
  else .ok (h, false)

/-- DP:72-102 `apply_observation(dict_H, R, r, t, cfg)`. -/
noncomputable def applyObsRD (near : Mat → Mat) (pred : ℕ → Inst → Int → Inst × Bool) (h : Hdl) (dH : SMap Mat) (R r : Mat) (t : Int) (cfg : Cfg) :
    Res (Hdl × Bool) := do
  let H ← stackHAll h dH
  let x ← getDictAll pred h h.keys t []
  let S0 ← stackSigma x.1 x.2 t
  let S ← stabilize S0 (1 / 10^12)
  correctD near x.1 x.2 H R r S t cfg

/-- DP:104-137 `apply_observation(dict_H, z, R, t, cfg)`. -/
noncomputable def applyObsZD (near : Mat → Mat) (pred : ℕ → Inst → Int → Inst × Bool) (h : Hdl) (dH : SMap Mat) (z R : Mat) (t : Int) (cfg : Cfg) :
    Res (Hdl × Bool) := do
  let H ← stackHAll h dH
  let x ← getDictAll pred h h.keys t []
  let mean ← stackMean x.2
  let S0 ← stackSigma x.1 x.2 t
  let Hm ← H *! mean
  let r ← z -! Hm
  let S ← stabilize S0 (1 / 10^12)
  correctD near x.1 x.2 H R r S t cfg

/-- IH:397-460 the loop body of the base class's `process_observation`; its `stack_H` (IH:421) is the
virtual one of this class. The rest is `iterBody` of Model/Iterated.lean. -/
noncomputable def iterBodyD (h : Hdl) (pj : Belief → Mat → Mat) (hf : SMap Belief → List ℕ → Mat → SMap Mat × Mat) (ids : List ℕ) (z R : Mat)
    (d : SMap Belief) (S : Mat) (cfg : Cfg) (iter : ℕ) (s : It) : Res ItOut := do
  let Hr := hf (fullBel s.x d) ids z
  let H ← stackHAll h (eraseFixed d Hr.1)
  if checkDimObs H R Hr.2 S then do
    let q ← relinearise pj d iter s H Hr.2
    iterCorrect cfg S R H q.1 q.2.1 q.2.2 s.x
  else .ok (.ret .discarded (Mat.zero 0 1))

/-- IH:397-477 the loop. -/
noncomputable def iterLoopD (h : Hdl) (pj : Belief → Mat → Mat) (hf : SMap Belief → List ℕ → Mat → SMap Mat × Mat) (ids : List ℕ) (z R : Mat)
    (d : SMap Belief) (S : Mat) (cfg : Cfg) : ℕ → ℕ → It → Res LoopOut
  | 0, iter, s => .ok (.fin iter s)
  | n + 1, iter, s =>
    (iterBodyD h pj hf ids z R d S cfg iter s).bind fun o =>
      match o with
      | .ret st r => .ok (.ret st r)
      | .next s1 dx =>
        if 0 < iter ∧ converged dx cfg.tolEps = true then .ok (.fin iter s1)
        else iterLoopD h pj hf ids z R d S cfg n (iter + 1) s1

/-- IH:370-510. -/
noncomputable def processDictD (near : Mat → Mat) (pj : Belief → Mat → Mat) (hf : SMap Belief → List ℕ → Mat → SMap Mat × Mat) (h : Hdl)
    (d : SMap Belief) (R z : Mat) (t : Int) (ids : List ℕ) (cfg : Cfg) : Res (Hdl × Status × Mat × Mat × SMap Belief) := do
  let _ ← stackMean d
  let S0 ← stackSigma h d t
  let S ← stabilize S0 (1 / 10^12)
  let o ← iterLoopD h pj hf ids z R d S cfg cfg.numIter 0
    ⟨unfixed d, Mat.empty, Mat.empty, one (getDim d), S, Mat.zero 0 1⟩
  match o with
  | .ret st r => .ok (h, st, r, Mat.empty, d)
  | .fin iter s => do
    let P ← iterPost near pj R d cfg iter s
    let y ← setMeans t s.x h d
    .ok (y.1, .processed, s.r, P, y.2)

/-- End of DP:139-158. -/
noncomputable def finishObsD (t : Int) (o : Hdl × Status × Mat × Mat × SMap Belief) : Res (Hdl × Status × Mat) :=
  if o.2.1 = .processed then do
    let h1 ← commitD o.1 o.2.2.2.2 o.2.2.2.1 (Mat.zero (getDim o.2.2.2.2) 1) t
    .ok (h1, o.2.1, o.2.2.1)
  else .ok (o.1, o.2.1, o.2.2.1)

/-- DP:139-158 `apply_observation(R, z, t, h, IDs, cfg)`: the base class's `process_observation` (whose
`get_dict_bel(IDs, t)` is the base class's). -/
noncomputable def applyObsID (near : Mat → Mat) (pj : Belief → Mat → Mat) (pred : ℕ → Inst → Int → Inst × Bool)
    (hf : SMap Belief → List ℕ → Mat → SMap Mat × Mat) (h : Hdl) (R z : Mat) (t : Int) (ids : List ℕ) (cfg : Cfg) :
    Res (Hdl × Status × Mat) := do
  let x ← getDictBel pred h ids t []
  if x.2.isEmpty then .ok (x.1, .outOfOrder, Mat.zero 0 1)
  else do
    let o ← processDictD near pj hf x.1 x.2 R z t ids cfg
    finishObsD t o

end Hdl
end Ikf
