import Verif.Model.Isolated
import Verif.Model.Handler

/-!
# The Schmidt-Kalman handler

Model of source/ikf/source/EstimatorHandler/SchmidtKalmanFilterHandler.cpp (`SH`), on top of the model of its
base class (Model/Isolated.lean). Same simplifications.
-/

namespace Ikf
open Mat
namespace Hdl

/-- SH:215-222: the rows of the gain of the essential beliefs are copied. The row counter advances over
every belief of the dictionary, also over fixed ones. -/
def schmidtGain (K : Mat) (m : ℕ) : SMap Belief → ℕ → Mat → Res Mat
  | [], _, G => .ok G
  | e :: r, row, G =>
    if e.2.essential then do
      let B ← K.blockC row 0 e.2.dim m
      let G1 ← G.setBlockC row 0 e.2.dim m B
      schmidtGain K m r (row + e.2.dim) G1
    else schmidtGain K m r (row + e.2.dim) G

/-- SH:192-235 `correction_step(t, H, R, r, dict_bel, cfg)`. -/
noncomputable def schmidtStep (h : Hdl) (t : Int) (H R r : Mat) (d : SMap Belief) (cfg : Cfg) : Res CorrRes := do
  let Sigma ← stackSigma h d t
  if checkDimObs H R r Sigma then do
    let dim := Sigma.rows
    let a ← H *! Sigma
    let b ← a *! H.tr
    let S0 ← b +! R
    let S ← stabilize S0 cfg.eps
    let rejected ← (if cfg.outlier then do
        let good ← checkNIS S r cfg.conf
        .ok (!good)
      else .ok false : Res Bool)
    let p ← Sigma *! H.tr
    let Si ← S.invC
    let K ← p *! Si
    let G ← schmidtGain K H.rows d 0 (Mat.zero K.rows K.cols)
    let dx ← G *! r
    let GH ← G *! H
    let U ← one dim -! GH
    let x ← U *! Sigma
    let y ← x *! U.tr
    let v ← G *! R
    let w ← v *! G.tr
    let P0 ← y +! w
    let P ← symmetrize P0
    .ok ⟨P, dx, U, rejected⟩
  else .ok CorrRes.dflt

/-- SH:237-248 `correct_beliefs_implace`: only the essential beliefs, fixed or not. -/
def correctBeliefsS (P dx : Mat) (t : Int) : SMap Belief → ℕ → Hdl → Res Hdl
  | [], _, h => .ok h
  | e :: r, row, h =>
    if e.2.essential then do
      let B ← P.blockC row row e.2.dim e.2.dim
      let x ← dx.blockC row 0 e.2.dim 1
      let b ← e.2.correct x B
      let i ← get h e.1
      correctBeliefsS P dx t r (row + e.2.dim) (h.set e.1 (i.setBelief b t))
    else correctBeliefsS P dx t r (row + e.2.dim) h

/-- SH:62-72 (and 111-119): the three steps after an accepted correction. -/
noncomputable def commitS (h : Hdl) (d : SMap Belief) (P dx : Mat) (t : Int) : Res Hdl := do
  let h1 ← applyCorrections P t d 0 h
  let h2 ← splitRightUpper P d t h1
  correctBeliefsS P dx t d 0 h2

/-- SH:51-74 (and 102-121). -/
noncomputable def correctJointS (near : Mat → Mat) (h : Hdl) (d : SMap Belief) (H R r : Mat) (t : Int) (cfg : Cfg) : Res (Hdl × Bool) := do
  let res ← schmidtStep h t H R r d cfg
  if !res.rejected then do
    let h1 ← commitS h d (fixPsd near res.Sapos) res.dx t
    .ok (h1, true)
  else .ok (h, false)

/-- SH:32-79 `apply_observation(dict_H, R, r, t, cfg)`. The covariance stacked first is only looked at for a log message. -/
noncomputable def applyObsSR (near : Mat → Mat) (pred : ℕ → Inst → Int → Inst × Bool) (h : Hdl) (dH : SMap Mat) (R r : Mat) (t : Int) (cfg : Cfg) :
    Res (Hdl × Bool) := do
  let H ← stackH dH
  let x ← getDictBel pred h dH.keys t []
  if x.2.isEmpty then .ok (x.1, false)
  else do
    let _ ← stackSigma x.1 x.2 t
    correctJointS near x.1 x.2 H R r t cfg

/-- SH:81-126 `apply_observation(dict_H, z, R, t, cfg)`. -/
noncomputable def applyObsSZ (near : Mat → Mat) (pred : ℕ → Inst → Int → Inst × Bool) (h : Hdl) (dH : SMap Mat) (z R : Mat) (t : Int) (cfg : Cfg) :
    Res (Hdl × Bool) := do
  let H ← stackH dH
  let x ← getDictBel pred h dH.keys t []
  if x.2.isEmpty then .ok (x.1, false)
  else do
    let mean ← stackMean x.2
    let S0 ← stackSigma x.1 x.2 t
    let Hm ← H *! mean
    let r ← z -! Hm
    let _ ← stabilize S0 (1 / 10^12)
    correctJointS near x.1 x.2 H R r t cfg

/-- SH:143-148 (and IH:399-404): the Jacobians of fixed beliefs are removed. -/
def eraseFixed (d : SMap Belief) (dH : SMap Mat) : SMap Mat := d.foldl (fun a e => if e.2.fixed then a.erase e.1 else a) dH

/-- SH:128-188 `apply_observation(R, z, t, h, IDs, cfg)`. The user function `h` is a pure function of the beliefs,
the IDs and the measurement. The answer is PROCESSED whether or not the gate rejected the measurement. -/
noncomputable def applyObsSH (near : Mat → Mat) (pred : ℕ → Inst → Int → Inst × Bool) (hf : SMap Belief → List ℕ → Mat → SMap Mat × Mat)
    (h : Hdl) (R z : Mat) (t : Int) (ids : List ℕ) (cfg : Cfg) : Res (Hdl × Status) := do
  let x ← getDictBel pred h ids t []
  if x.2.isEmpty then .ok (x.1, .outOfOrder)
  else do
    let _ ← stackMean x.2
    let S0 ← stackSigma x.1 x.2 t
    let Hr := hf x.2 ids z
    let H ← stackH (eraseFixed x.2 Hr.1)
    let _ ← stabilize S0 (1 / 10^12)
    let y ← correctJointS near x.1 x.2 H R Hr.2 t cfg
    .ok (y.1, .processed)

end Hdl
end Ikf
