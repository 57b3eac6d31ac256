import Verif.Model.Isolated
import Verif.Model.MatUtils

/-!
# The filters without buffers

Model of source/ikf/source/EstimatorStd/KalmanFilterStd.cpp (`KS`) and IsolatedKalmanFilterStd.cpp (`IS`), with the
lookups of IKFHandlerStd.cpp (`HS`; `add` and `remove` are in Model/Registry.lean).

Simplifications: exact real arithmetic; times are nanosecond keys; beliefs are `LinearBelief`s and are owned by one
filter (no aliasing through `get_belief`/`set_belief`); the filter a member function is called on is the one registered
under its ID; `unordered_map`s are in key order (the loops over them treat each entry alone); log output is left out.
-/

namespace Ikf
open Mat

/-- KalmanFilterStd.hpp:48 (`m_belief`, a null pointer unless given) and IsolatedKalmanFilterStd.hpp:84
(`m_CrossCovFactors`). -/
structure StdInst where
  bel : Option Belief
  ccf : SMap Mat

namespace StdInst

/-- Dereferencing `m_belief`. -/
def deref (i : StdInst) : Res Belief :=
  match i.bel with
  | some b => .ok b
  | none => .ub

/-- KS:42-52 `KalmanFilterStd::propagate(Phi, Q, t_b)`. -/
noncomputable def baseProp (i : StdInst) (Phi Q : Mat) (tb : Int) : Res (StdInst × Bool) := do
  let b ← i.deref
  if checkDimQ b.Sigma Phi Q = true ∧ b.stamp < tb then do
    let S ← covPropagation b.Sigma Phi Q false
    let m ← Phi *! b.mean
    .ok ({ i with bel := some { b with mean := m, Sigma := S, stamp := tb } }, true)
  else .ok (i, false)

/-- KS:54-68 `KalmanFilterStd::propagate(Phi, Q, t_b, G, u, var_u)`. -/
noncomputable def basePropU (i : StdInst) (Phi Q : Mat) (tb : Int) (G u var : Mat) : Res (StdInst × Bool) := do
  let b ← i.deref
  if checkDimQ b.Sigma Phi Q = true ∧ b.stamp < tb then do
    let pm ← Phi *! b.mean
    let gu ← G *! u
    let m ← pm +! gu
    let gv ← G *! var
    let gvg ← gv *! G.tr
    let Qd ← gvg +! Q
    let S ← covPropagation b.Sigma Phi Qd false
    .ok ({ i with bel := some { b with mean := m, Sigma := S, stamp := tb } }, true)
  else .ok (i, false)

/-- KS:70-84 `KalmanFilterStd::private_update(H, R, z)`; the configuration is the default one. -/
noncomputable def basePriv (i : StdInst) (H R z : Mat) : Res (StdInst × Bool) := do
  let b ← i.deref
  let hm ← H *! b.mean
  let r ← z -! hm
  let res ← correctionStep H R r b.Sigma {}
  if !res.rejected then do
    let b' ← b.correct res.dx res.Sapos
    .ok ({ i with bel := some b' }, true)
  else .ok (i, false)

/-- IS:185-189 `apply_propagation(Phi)` and IS:191-195 `apply_correction(Lambda)`. -/
def mulFactors (i : StdInst) (F : Mat) : Res StdInst := do
  let c ← i.ccf.mapR (fun M => F *! M)
  .ok { i with ccf := c }

/-- IS:197-201 `apply_correction(Sigma_apri, Sigma_apos)`. -/
noncomputable def applyCorrection (i : StdInst) (Sapri Sapos : Mat) : Res StdInst := do
  let inv ← Sapri.invC
  let L ← Sapos *! inv
  i.mulFactors L

/-- The common end of IS:35-49: propagate the factors after a successful propagation. -/
def thenFactors (Phi : Mat) (r : StdInst × Bool) : Res (StdInst × Bool) :=
  if r.2 then do
    let j ← r.1.mulFactors Phi
    .ok (j, true)
  else .ok r

/-- IS:35-41 `IsolatedKalmanFilterStd::propagate(Phi, Q, t_b)`. -/
noncomputable def prop (i : StdInst) (Phi Q : Mat) (tb : Int) : Res (StdInst × Bool) := do
  let r ← i.baseProp Phi Q tb
  thenFactors Phi r

/-- IS:43-49 `IsolatedKalmanFilterStd::propagate(Phi, Q, t_b, G, u, var_u)`. -/
noncomputable def propU (i : StdInst) (Phi Q : Mat) (tb : Int) (G u var : Mat) : Res (StdInst × Bool) := do
  let r ← i.basePropU Phi Q tb G u var
  thenFactors Phi r

/-- The end of IS:51-58. -/
noncomputable def thenCorrect (Sapri : Mat) (r : StdInst × Bool) : Res (StdInst × Bool) :=
  if r.2 then do
    let b ← r.1.deref
    let j ← r.1.applyCorrection Sapri b.Sigma
    .ok (j, true)
  else .ok r

/-- IS:51-58 `IsolatedKalmanFilterStd::private_update(H, R, z)`. -/
noncomputable def priv (i : StdInst) (H R z : Mat) : Res (StdInst × Bool) := do
  let b ← i.deref
  let r ← i.basePriv H R z
  thenCorrect b.Sigma r

/-- IS:130-132 `set_CrossCovFact`. -/
def setCCF (i : StdInst) (J : ℕ) (M : Mat) : StdInst := { i with ccf := i.ccf.set J M }

/-- IS:145-151 `get_CrossCovFact`. -/
def getCCF (i : StdInst) (J : ℕ) : Mat :=
  match i.ccf.find J with
  | some M => M
  | none => Mat.empty

end StdInst

/-- IKFHandlerStd.hpp `id_dict`. -/
abbrev StdHdl := SMap StdInst

namespace StdHdl

/-- HS:43-49 `get(ID)` followed by a dereference. -/
def get (h : StdHdl) (id : ℕ) : Res StdInst :=
  match h.find id with
  | some i => .ok i
  | none => .ub

/-- IS:134-143 `set_Sigma_IJ`. -/
def setSigma (h : StdHdl) (I J : ℕ) (S : Mat) : Res StdHdl :=
  if I < J then do
    let i ← get h I
    let h1 := h.set I (i.setCCF J S)
    let j ← get h1 J
    .ok (h1.set J (j.setCCF I (one S.cols)))
  else do
    let SJI := S.tr
    let j ← get h J
    let h1 := h.set J (j.setCCF I SJI)
    let i ← get h1 I
    .ok (h1.set I (i.setCCF J (one SJI.cols)))

/-- IS:153-169 `get_Sigma_IJ`. -/
def getSigma (h : StdHdl) (I J : ℕ) : Res Mat := do
  let i ← get h I
  let j ← get h J
  let FIJ := i.getCCF J
  let FJI := j.getCCF I
  if FIJ.size ≠ 0 ∧ FJI.size ≠ 0 then
    if I < J then FIJ *! FJI.tr
    else do
      let SJI ← FJI *! FIJ.tr
      .ok SJI.tr
  else .ok Mat.empty

/-- IS:172-183 `stack_apri_covariance`. IS:109-119 `stack_Sigma` is `MatU.stackSigma2`. -/
def stackPrior (g : ℕ → ℕ → ℝ) (h : StdHdl) (I J : ℕ) (SI SJ : Mat) : Res Mat := do
  let X ← getSigma h I J
  if X.size ≠ 0 then MatU.stackSigma2 g SI SJ X
  else MatU.stackSigma2 g SI SJ (Mat.zero SI.rows SJ.cols)

/-- `RTV_EXPECT_TRUE_THROW(c, ..)`. -/
def expect (c : Prop) [Decidable c] : Res Unit := if c then .ok () else .throws

open Classical in
/-- IS:85 `RTV_EXPECT_TRUE_THROW(is_positive_semidefinite(P))`, exact test. -/
noncomputable def expectPsd (P : Mat) : Res Unit := expect (P.rows = P.cols ∧ (P.toM P.rows P.rows).PosSemidef)

/-- `get(ID)->get_belief()->correct(dx, Sapos)`. -/
def correctBel (h : StdHdl) (id : ℕ) (dx Sapos : Mat) : Res StdHdl := do
  let i ← get h id
  let b ← i.deref
  let b' ← b.correct dx Sapos
  .ok (h.set id { i with bel := some b' })

/-- IS:84-104 after an accepted correction. IS:121-128 `split_Sigma` is `MatU.splitSigma2`. -/
noncomputable def commit (h : StdHdl) (I J : ℕ) (SI SJ : Mat) (res : CorrRes) : Res StdHdl := do
  expectPsd res.Sapos
  let sp ← MatU.splitSigma2 res.Sapos SI.rows SJ.rows
  let i ← get h I
  let i1 ← i.applyCorrection SI sp.1
  let h1 := h.set I i1
  let j ← get h1 J
  let j1 ← j.applyCorrection SJ sp.2.1
  let h2 := h1.set J j1
  let h3 ← setSigma h2 I J sp.2.2
  let dI ← res.dx.blockC 0 0 SI.rows 1
  let h4 ← correctBel h3 I dI sp.1
  let dJ ← MatU.brC res.dx SJ.rows 1
  correctBel h4 J dJ sp.2.1

/-- IS:60-106 `joint_update(ID_I, ID_J, H_II, H_JJ, R, z)` of the filter `me`. `g1`, `g2`, `g3` are the initial contents of
the stacked Jacobian, mean and covariance (all overwritten). -/
noncomputable def joint (g1 g2 g3 : ℕ → ℕ → ℝ) (h : StdHdl) (me I J : ℕ) (HI HJ R z : Mat) : Res (StdHdl × Bool) := do
  expect ((h.find I).isSome ∧ (h.find J).isSome)
  expect (I = me)
  let i ← get h I
  let j ← get h J
  let bI ← i.deref
  let bJ ← j.deref
  expect (bI.stamp = bJ.stamp)
  let H ← MatU.horcat g1 HI HJ
  let m ← MatU.vertcat g2 bI.mean bJ.mean
  let Hm ← H *! m
  let r ← z -! Hm
  let S0 ← stackPrior g3 h I J bI.Sigma bJ.Sigma
  let S ← stabilize S0 (1 / 10^12)
  let res ← correctionStep H R r S {}
  if !res.rejected then do
    let h' ← commit h I J bI.Sigma bJ.Sigma res
    .ok (h', true)
  else .ok (h, false)

/-- A call on a registered filter. -/
noncomputable def onInst (h : StdHdl) (id : ℕ) (f : StdInst → Res (StdInst × Bool)) : Res (StdHdl × Bool) := do
  let i ← get h id
  let r ← f i
  .ok (h.set id r.1, r.2)

end StdHdl
end Ikf
