import Verif.Model.Collab

/-!
# The handler with covariance intersection between agents

Model of EstimatorHandler/DCI_IKF_Handler.cpp (`DC`). Everything else of the class is inherited: `apply_observation` with a
measurement function from ICSE_IKF_Handler.cpp:115-155, the rest from IsolatedKalmanFilterHandler (Model/Isolated).
Simplifications as in Model/Collab; the request to the other agent is answered if `recv` of the `Link` is set.
-/

namespace Ikf
open Mat
namespace Collab

/-- eigen_utils.cpp:274-283 `correct_covariance`. -/
noncomputable def correctCov (near : Mat → Mat) (S : Mat) : Res Mat := do
  let S1 ← stabilize S (1 / 10^12)
  .ok (Hdl.fixPsd near S1)

/-- DC:77-81, DC:82-86: the Jacobians of the instances `ids`. -/
def pickJac (J : SMap Mat) (ids : List ℕ) : SMap Mat :=
  ids.foldl (fun m p => match J.find p with | some M => m.set p M | none => m) []

/-- DC:65-143 after both sides have delivered their beliefs `lb`, `rb` and factors `lF`, `rF`: new local handler, status and
residual. The loops DC:88-107 remove the fixed beliefs of each side. -/
noncomputable def dciTail (near : Mat → Mat) (hf : SMap Belief → List ℕ → Mat → SMap Mat × Mat) (l : Hdl) (lb rb : SMap Belief)
    (lF rF : SMap (SMap Mat)) (R z : Mat) (t : Int) (ids : List ℕ) (cfg : Cfg) (remote loc : List ℕ) : Res (Hdl × Status × Mat) := do
  let Hr := hf (insertAll (insertAll [] lb) rb) ids z
  let Hi ← Hdl.stackH (dropFixed lb (pickJac Hr.1 loc))
  let Hj ← Hdl.stackH (dropFixed rb (pickJac Hr.1 remote))
  let Si0 ← stackSigmaL (Hdl.unfixed lb) (dropFixed lb lF)
  let Sj0 ← stackSigmaL (Hdl.unfixed rb) (dropFixed rb rF)
  let Si ← correctCov near Si0
  let Sj ← correctCov near Sj0
  let res ← ciCorrection Hi Hj R Hr.2 Si Sj (995 / 1000) cfg
  if !res.rejected then do
    let h ← Hdl.commit l (Hdl.unfixed lb) (Hdl.fixPsd near res.Sapos) res.dx t
    .ok (h, .processed, Hr.2)
  else .ok (l, .rejected, Hr.2)

/-- DC:37-148 `apply_inter_agent_observation(R, z, t, h, IDs, cfg, remote_IDs, local_IDs)`: new local handler, new remote
handler, status and residual. -/
noncomputable def interDci (near : Mat → Mat) (pred : ℕ → Inst → Int → Inst × Bool) (hf : SMap Belief → List ℕ → Mat → SMap Mat × Mat)
    (lk : Link) (l rm : Hdl) (R z : Mat) (t : Int) (ids : List ℕ) (cfg : Cfg) (remote loc : List ℕ) :
    Res (Hdl × Hdl × Status × Mat) := do
  let xl ← getBF pred l loc loc t
  match xl.2 with
  | none => .ok (xl.1, rm, .outOfOrder, Mat.zero 0 1)
  | some (lb, lF) =>
    if lb.isEmpty then .ok (xl.1, rm, .outOfOrder, Mat.zero 0 1)
    else if lk.recv then do
      let xr ← getBF pred rm remote remote t
      match xr.2 with
      | none => .ok (xl.1, xr.1, .outOfOrder, Mat.zero 0 1)
      | some (rb, rF) =>
        if rb.isEmpty then .ok (xl.1, xr.1, .outOfOrder, Mat.zero 0 1)
        else do
          let y ← dciTail near hf xl.1 lb rb lF rF R z t ids cfg remote loc
          .ok (y.1, xr.1, y.2.1, y.2.2)
    else .ok (xl.1, rm, .outOfOrder, Mat.zero 0 1)

namespace Net

/-- IC:115-155 `apply_observation(R, z, t, h, IDs, cfg)` of a covariance intersection handler, called on agent `a`. -/
noncomputable def applyObsDci (T : Agents.Tables) (a : ℕ) (near : Mat → Mat) (pj : Belief → Mat → Mat) (pred : ℕ → Inst → Int → Inst × Bool)
    (hf : SMap Belief → List ℕ → Mat → SMap Mat × Mat) (lk : Link) (n : Net) (R z : Mat) (t : Int) (ids : List ℕ) (cfg : Cfg) :
    Res ((Net × Mat) × Status) :=
  Agents.applyObsH (fun p => ((n a).find p).isSome) T
    (fun (w : Net × Mat) ids => do
      let x ← Hdl.applyObsI near pj pred hf (w.1 a) R z t ids cfg
      .ok ((Function.update w.1 a x.1, x.2.2), x.2.1))
    (fun (w : Net × Mat) remote loc => do
      let b := Agents.agentOf T (remote.headD 0)
      let x ← interDci near pred hf lk (w.1 a) (w.1 b) R z t ids cfg remote loc
      .ok ((Function.update (Function.update w.1 a x.1) b x.2.1, x.2.2.2), x.2.2.1))
    (n, Mat.zero 0 1) ids

end Net
end Collab
end Ikf
