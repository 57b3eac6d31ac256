import Verif.Model.Schmidt

/-!
# The iterated joint observation

Model of `process_observation` and `apply_observation(R, z, t, h, IDs, cfg)` of
source/ikf/source/EstimatorHandler/IsolatedKalmanFilterHandler.cpp (`IH`), with the simplifications of
Model/Isolated.lean. The measurement function `h` of the user is a pure function of the beliefs, the IDs and the
measurement. `pj b dx` is `plus_jacobian(dx)` of the belief `b`, a virtual function.
-/

namespace Ikf
open Mat
namespace Hdl

/-- IBelief.cpp:97-99 `plus_jacobian`, not overridden by `LinearBelief`: `Identity(m_es_dim, m_es_dim)`, and nothing in
the library assigns `m_es_dim`, which is 0 (IBelief.hpp:112). -/
def linJac (_ : Belief) (_ : Mat) : Mat := one 0

/-- IBelief.cpp:44-46 `mean(vec)`: the mean replaced. -/
def _root_.Ikf.Belief.setMean (b : Belief) (m : Mat) : Belief := { b with mean := m }

/-- IH:401-409: all unfixed beliefs of the iteration and the fixed ones of the dictionary (`std::map::insert`). -/
def fullBel (x d : SMap Belief) : SMap Belief :=
  d.foldl (fun a e => if e.2.fixed then a.emplace e.1 e.2 else a) (x.foldl (fun a e => a.emplace e.1 e.2) [])

/-- IH:525-539 the loop of `compute_state_error` (lines 512-541). -/
def stateError (apos : SMap Belief) : SMap Belief → ℕ → Mat → Res Mat
  | [], _, e => .ok e
  | a :: r, row, e =>
    if !a.2.fixed then
      match apos.find a.1 with
      | none => .throws
      | some b => do
        let d ← b.mean -! a.2.mean
        let e1 ← e.setBlockC row 0 a.2.dim 1 d
        stateError apos r (row + a.2.dim) e1
    else stateError apos r row e

/-- IH:554-564 the loop of `compute_state_error_Jacobian` (lines 543-566). -/
def stateJac (pj : Belief → Mat → Mat) (ex : Mat) : SMap Belief → ℕ → Mat → Res Mat
  | [], _, J => .ok J
  | a :: r, row, J =>
    if !a.2.fixed then do
      let v ← ex.blockC row 0 a.2.dim 1
      let J1 ← J.setBlockC row row a.2.dim a.2.dim (pj a.2 (smul (-1) v))
      stateJac pj ex r (row + a.2.dim) J1
    else stateJac pj ex r row J

/-- IH:455-460: the correction added to each belief (`LinearBelief::boxplus`). -/
def boxplusAll (dx : Mat) : SMap Belief → ℕ → Res (SMap Belief)
  | [], _ => .ok []
  | e :: r, row => do
    let v ← dx.blockC row 0 e.2.dim 1
    let m ← e.2.mean +! v
    let rs ← boxplusAll dx r (row + e.2.dim)
    .ok ((e.1, e.2.setMean m) :: rs)

/-- IH:379-392: the variables carried from one iteration to the next: `bel_idx`, `H_idx`, `K_idx`, `J_idx`, `P_idx`,
`res.residual`. -/
structure It where
  x : SMap Belief
  H : Mat
  K : Mat
  J : Mat
  P : Mat
  r : Mat

/-- Outcome of the loop body: `return`, or go on (with `dx_idx`). -/
inductive ItOut where
  | ret (st : Status) (r : Mat)
  | next (s : It) (dx : Mat)

/-- IH:429-436: `e_x_idx`, `J_idx` and `r_idx`. -/
def relinearise (pj : Belief → Mat → Mat) (d : SMap Belief) (iter : ℕ) (s : It) (H r : Mat) : Res (Mat × Mat × Mat) :=
  if 0 < iter then do
    let e ← stateError s.x d 0 (Mat.zero (getDim d) 1)
    let J ← stateJac pj e s.x 0 (one (getDim d))
    let a ← J *! e
    let b ← H *! a
    let r1 ← r +! b
    .ok (e, J, r1)
  else .ok (Mat.zero (getDim d) 1, s.J, r)

/-- IH:442-447 the gate. -/
noncomputable def gate (S r : Mat) (cfg : Cfg) : Res Bool := if cfg.outlier then checkNIS S r cfg.conf else .ok true

/-- IH:438-460 after the residual. -/
noncomputable def iterCorrect (cfg : Cfg) (S R H e J r : Mat) (x : SMap Belief) : Res ItOut := do
  let js ← J *! S
  let P ← js *! J.tr
  let a ← H *! P
  let b ← a *! H.tr
  let S0 ← b +! R
  let Si ← stabilize S0 cfg.eps
  let good ← gate Si r cfg
  if good then do
    let p ← P *! H.tr
    let inv ← Si.invC
    let K ← p *! inv
    let kr ← K *! r
    let je ← J *! e
    let dx ← kr -! je
    let y ← boxplusAll dx x 0
    .ok (.next ⟨y, H, K, J, P, r⟩ dx)
  else .ok (.ret .rejected r)

/-- IH:397-460 the loop body up to the test of convergence. `S` is the stabilised prior `Sigma_apri`. -/
noncomputable def iterBody (pj : Belief → Mat → Mat) (hf : SMap Belief → List ℕ → Mat → SMap Mat × Mat) (ids : List ℕ) (z R : Mat)
    (d : SMap Belief) (S : Mat) (cfg : Cfg) (iter : ℕ) (s : It) : Res ItOut := do
  let Hr := hf (fullBel s.x d) ids z
  let H ← stackH (eraseFixed d Hr.1)
  if checkDimObs H R Hr.2 S then do
    let q ← relinearise pj d iter s H Hr.2
    iterCorrect cfg S R H q.1 q.2.1 q.2.2 s.x
  else .ok (.ret .discarded (Mat.zero 0 1))

open Classical in
/-- IH:465-471. -/
noncomputable def converged (dx : Mat) (tol : ℝ) : Bool := decide (∀ i < dx.rows, |dx.e i 0| ≤ tol)

/-- The outcome of the loop: `return`, or the value of `iter` and the variables behind it. -/
inductive LoopOut where
  | ret (st : Status) (r : Mat)
  | fin (iter : ℕ) (s : It)

/-- IH:397-477 the loop; `n` iterations to go. -/
noncomputable def iterLoop (pj : Belief → Mat → Mat) (hf : SMap Belief → List ℕ → Mat → SMap Mat × Mat) (ids : List ℕ) (z R : Mat)
    (d : SMap Belief) (S : Mat) (cfg : Cfg) : ℕ → ℕ → It → Res LoopOut
  | 0, iter, s => .ok (.fin iter s)
  | n + 1, iter, s =>
    (iterBody pj hf ids z R d S cfg iter s).bind fun o =>
      match o with
      | .ret st r => .ok (.ret st r)
      | .next s1 dx =>
        if 0 < iter ∧ converged dx cfg.tolEps = true then .ok (.fin iter s1)
        else iterLoop pj hf ids z R d S cfg n (iter + 1) s1

/-- IH:486-492: projection after more than one iteration. -/
def project (pj : Belief → Mat → Mat) (d x : SMap Belief) (iter : ℕ) (P : Mat) : Res Mat :=
  if 1 < iter then do
    let e ← stateError x d 0 (Mat.zero (getDim d) 1)
    let L ← stateJac pj e x 0 (one (getDim d))
    let a ← L *! P
    a *! L.tr
  else .ok P

/-- IH:479-502: the posterior covariance. -/
noncomputable def iterPost (near : Mat → Mat) (pj : Belief → Mat → Mat) (R : Mat) (d : SMap Belief) (cfg : Cfg) (iter : ℕ) (s : It) :
    Res Mat := do
  let KH ← s.K *! s.H
  let U ← one (getDim d) -! KH
  let P0 ← (if cfg.joseph then do
      let x ← U *! s.P
      let y ← x *! U.tr
      let v ← s.K *! R
      let w ← v *! s.K.tr
      y +! w
    else U *! s.P)
  let P1 ← project pj d s.x iter P0
  let P2 ← (if cfg.stab then stabilize P1 cfg.eps else .ok P1)
  .ok (fixPsd near P2)

/-- IH:506-508: the means of the dictionary, i.e. of the beliefs stored at `t`, are replaced. -/
def setMeans (t : Int) : SMap Belief → Hdl → SMap Belief → Res (Hdl × SMap Belief)
  | [], h, d => .ok (h, d)
  | e :: r, h, d =>
    match d.find e.1 with
    | none => .throws
    | some b => do
      let i ← get h e.1
      setMeans t r (h.set e.1 (i.setBelief (b.setMean e.2.mean) t)) (d.set e.1 (b.setMean e.2.mean))

/-- `process_observation` behind `get_dict_bel` (IH:370-510). -/
noncomputable def processDict (near : Mat → Mat) (pj : Belief → Mat → Mat) (hf : SMap Belief → List ℕ → Mat → SMap Mat × Mat) (h : Hdl)
    (d : SMap Belief) (R z : Mat) (t : Int) (ids : List ℕ) (cfg : Cfg) : Res (Hdl × Status × Mat × Mat × SMap Belief) := do
  let _ ← stackMean d
  let S0 ← stackSigma h d t
  let S ← stabilize S0 (1 / 10^12)
  let o ← iterLoop pj hf ids z R d S cfg cfg.numIter 0
    ⟨unfixed d, Mat.empty, Mat.empty, one (getDim d), S, Mat.zero 0 1⟩
  match o with
  | .ret st r => .ok (h, st, r, Mat.empty, d)
  | .fin iter s => do
    let P ← iterPost near pj R d cfg iter s
    let y ← setMeans t s.x h d
    .ok (y.1, .processed, s.r, P, y.2)

/-- The end of IH:331-359: nothing more unless processed. -/
noncomputable def finishObs (t : Int) (o : Hdl × Status × Mat × Mat × SMap Belief) : Res (Hdl × Status × Mat) :=
  if o.2.1 = .processed then do
    let h1 ← commit o.1 o.2.2.2.2 o.2.2.2.1 (Mat.zero (getDim o.2.2.2.2) 1) t
    .ok (h1, o.2.1, o.2.2.1)
  else .ok (o.1, o.2.1, o.2.2.1)

/-- IH:331-359 `apply_observation(R, z, t, h, IDs, cfg)` with IH:361-369: handler, status and residual. -/
noncomputable def applyObsI (near : Mat → Mat) (pj : Belief → Mat → Mat) (pred : ℕ → Inst → Int → Inst × Bool)
    (hf : SMap Belief → List ℕ → Mat → SMap Mat × Mat) (h : Hdl) (R z : Mat) (t : Int) (ids : List ℕ) (cfg : Cfg) :
    Res (Hdl × Status × Mat) := do
  let x ← getDictBel pred h ids t []
  if x.2.isEmpty then .ok (x.1, .outOfOrder, Mat.zero 0 1)
  else do
    let o ← processDict near pj hf x.1 x.2 R z t ids cfg
    finishObs t o

end Hdl
end Ikf
