import Verif.Model.Handler
import Verif.Model.Isolated
import Verif.Model.MatUtils

/-!
# A user's isolated filter under the handler of delayed measurements

Model of source/examples/ikf_delay_cmd/include/LinearIKF_1D_const_acc.hpp (`EX`), the only filter class of the repository
that is written against the library, of the dispatch in Estimator/IIsolatedKalmanFilter.cpp:205-221 and
Estimator/IKalmanFilter.cpp:299-325 `delegate_measurement`, and of the instances as IDICOHandler sees them.

`EkfUser` leaves open the numbers the class computes (its dynamics and its measurement models) and keeps the calls it
makes. Simplifications: log output, `meas_type`, `residual`, `ID_participants` and timing of the result are left out; an
exception or undefined behaviour inside a callback ends the program (`Res.throws`, `Res.ub` in place of the state).
-/

namespace Ikf
open Mat

/-- The numbers a filter class computes from its current estimate and the measurement.
`prop id data t_a t_b mean_a` is `(mean_b, Phi_ab, Q_ab)` of EX:51-62; `priv id data t mean` is `(H, R, r)` of EX:79-98;
`parts id data` are the participants and `joint id data t means` is `(dict_H, R, r)` of EX:115-136; `cfg` is EX:91, 124;
`viaHandler` is the preprocessor switch EX:94. -/
structure EkfUser (P : Type _) where
  prop : ℕ → P → Int → Int → Mat → Res (Mat × Mat × Mat)
  priv : ℕ → P → Int → Mat → Res (Mat × Mat × Mat)
  parts : ℕ → P → List ℕ
  joint : ℕ → P → Int → List Mat → Res (SMap Mat × Mat × Mat)
  cfg : Cfg
  viaHandler : Bool

namespace Hdl

/-- EX:148 `predict_to`. -/
def noPredict : ℕ → Inst → Int → Inst × Bool := fun _ i _ => (i, false)

/-- EX:102-104, 139-142. -/
def statusOf (accepted : Bool) : Status := if accepted then .processed else .rejected

section
variable {P : Type _} (fp : FP) (near : Mat → Mat) (U : EkfUser P)

/-- EX:35-74 `progapation_measurement`, with KF:215-222 `get_belief_before_t`: without an earlier belief the null pointer is
dereferenced in EX:61. The answer of `apply_propagation` is overwritten (EX:71). -/
noncomputable def userProp (h : Hdl) (m : Meas P) : Res (Hdl × Status) := do
  let i ← get h m.id
  match i.bel.getBefore m.t with
  | none => .ub
  | some e => do
    let n ← U.prop m.id m.data e.1 m.t e.2.mean
    let r ← i.propEKF fp e.2 n.1 n.2.1 n.2.2 e.1 m.t
    .ok (h.set m.id r.1, .processed)

/-- EX:95 or EX:97-98. -/
noncomputable def privCall (h : Hdl) (i : Inst) (b : Belief) (id : ℕ) (t : Int) (H R r : Mat) : Res (Hdl × Bool) :=
  if U.viaHandler then applyObsR near noPredict h [(id, H)] R r t U.cfg
  else do
    let x ← i.privEKF b t H R r U.cfg
    .ok (h.set id x.1, x.2)

/-- EX:75-107 `local_private_measurement`. The status of a default constructed result is REJECTED
(ProcessMeasResult_t.hpp:39). -/
noncomputable def userPriv (h : Hdl) (m : Meas P) : Res (Hdl × Status) := do
  let i ← get h m.id
  match i.beliefAt m.t with
  | none => .ok (h, .rejected)
  | some b => do
    let n ← U.priv m.id m.data m.t b.mean
    let x ← privCall near U h i b m.id m.t n.1 n.2.1 n.2.2
    .ok (x.1, statusOf x.2)

/-- EX:132-133: the means of the participants at `t`; a null pointer is dereferenced when one has no belief there. -/
def meansAt (h : Hdl) (t : Int) : List ℕ → Res (List Mat)
  | [] => .ok []
  | p :: ps => do
    let i ← get h p
    match i.beliefAt t with
    | none => .ub
    | some b => do
      let r ← meansAt h t ps
      .ok (b.mean :: r)

/-- EX:111-144 `local_joint_measurement`. -/
noncomputable def userJoint (h : Hdl) (m : Meas P) : Res (Hdl × Status) := do
  let ms ← meansAt h m.t (U.parts m.id m.data)
  let n ← U.joint m.id m.data m.t ms
  let x ← applyObsR near noPredict h n.1 n.2.1 n.2.2 m.t U.cfg
  .ok (x.1, statusOf x.2)

/-- IIsolatedKalmanFilter.cpp:205-221 and IKalmanFilter.cpp:299-325 `delegate_measurement`. -/
noncomputable def userStep (h : Hdl) (m : Meas P) : Res (Hdl × Status) :=
  match m.kind with
  | .joint => userJoint near U h m
  | .propagation => userProp fp U h m
  | .priv => userPriv near U h m
  | .unknown => .ok (h, .discarded)

/-- The outcome of a callback as the handler's state; after a crash nothing happens any more. -/
def settle (w : Res Hdl) (x : Res (Hdl × Status)) : Res Hdl × Status :=
  match w with
  | .ok _ =>
    match x with
    | .ok r => (.ok r.1, r.2)
    | .throws => (.throws, .discarded)
    | .ub => (.ub, .discarded)
  | .throws => (.throws, .discarded)
  | .ub => (.ub, .discarded)

/-- The instances of one handler as IDICOHandler.cpp uses them (Model/Handler.lean): DH:58-66 `exists`,
`enabled()` (IKalmanFilter.hpp:66, 137, none is disabled here), `delegate_measurement`, DH:418-425, DH:404-416. -/
noncomputable def userInsts : Insts (Res Hdl) P where
  known w p := match w with
    | .ok h => (h.find p).isSome
    | _ => false
  enabled _ _ := true
  inst w m := match w with
    | .ok h => settle w (userStep fp near U h m)
    | _ => (w, .discarded)
  removeFrom w t := match w with
    | .ok h => .ok (removeBeliefsFrom h t)
    | _ => w
  removeAfter w t := match w with
    | .ok h => .ok (removeBeliefsAfter h t)
    | _ => w

end
/-- DH:28-43 `add`: the instance gets the horizon of the handler (IK:149-154, KF:251-255, TH:41-44 takes the absolute value). -/
def addTo (horizon : ℚ) (h : Hdl) (id : ℕ) (i : Inst) : Hdl :=
  if (h.find id).isSome then h else h.emplace id { i with hor := |horizon| }

end Hdl

/-! ## The filter of the example -/

namespace Linear1D

/-- MeasData.hpp:40-60, the members the class reads; `J` is `std::stoi(meta_info)` (EX:121). -/
structure Data where
  z : Mat
  R : Mat
  J : ℕ

/-- EX:51. -/
def dt (fp : FP) (ta tb : Int) : ℝ := ((fp.rnd (fp.secOfKey tb - fp.secOfKey ta) : ℚ) : ℝ)

/-- EX:55. -/
def Phi (d : ℝ) : Mat := of 2 2 fun i j => if i = j then 1 else if i = 0 then d else 0

/-- EX:56. -/
noncomputable def G (d : ℝ) : Mat := of 2 1 fun i _ => if i = 0 then 1 / 2 * d * d else d

/-- EX:59. -/
noncomputable def Q0 : Mat := Mat.smul (1 / 1000000) (one 2)

/-- EX:51-62. -/
noncomputable def prop (fp : FP) (_ : ℕ) (m : Data) (ta tb : Int) (mean : Mat) : Res (Mat × Mat × Mat) := do
  let d := dt fp ta tb
  let x ← Phi d *! mean
  let u ← G d *! m.z
  let mb ← x +! u
  let g ← G d *! m.R
  let q ← g *! (G d).tr
  let Q ← q +! Q0
  .ok (mb, Phi d, Q)

/-- EX:79-80 and EX:118: the row `[s, 0]`. -/
def row (s : ℝ) : Mat := of 1 2 fun _ j => if j = 0 then s else 0

/-- EX:79-98. -/
noncomputable def priv (_ : ℕ) (m : Data) (_ : Int) (mean : Mat) : Res (Mat × Mat × Mat) := do
  let hm ← row 1 *! mean
  let r ← m.z -! hm
  .ok (row 1, m.R, r)

/-- EX:115-136; `g` fills the uninitialised temporaries of `horcat` and `vertcat_vec`. -/
noncomputable def joint (g : ℕ → ℕ → ℝ) (id : ℕ) (m : Data) (_ : Int) (means : List Mat) : Res (SMap Mat × Mat × Mat) :=
  match means with
  | [mI, mJ] => do
    let H ← MatU.horcat g (row (-1)) (row 1)
    let x ← MatU.vertcat g mI mJ
    let zest ← H *! x
    let r ← m.z -! zest
    .ok ((SMap.emplace [(id, row (-1))] m.J (row 1)), m.R, r)
  | _ => .ub

/-- EX:26-149 `LinearIKF_1D_const_acc`. -/
noncomputable def user (fp : FP) (g : ℕ → ℕ → ℝ) : EkfUser Data where
  prop := prop fp
  priv := priv
  parts id m := [id, m.J]
  joint := joint g
  cfg := {}
  viaHandler := true

end Linear1D
end Ikf
