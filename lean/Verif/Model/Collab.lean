import Verif.Model.Iterated
import Verif.Model.MultiAgent

/-!
# The collaborative handler: joint observations of instances held by several agents

Model of EstimatorHandler/C_IKF_Handler.cpp (`CI`) and the parts of EstimatorHandler/ICSE_IKF_Handler.cpp (`IC`) it
uses. The transport `IMultiAgentHandler` is abstract in the repository (IMultiAgentHandler.hpp:59-95, no
implementation). It is modelled by what its declarations say: a request for an instance is served by the same member
functions of the agent that owns it. `Link` says whether requests are answered and whether the posterior is delivered.
Re-doing later updates on the remote agent (`redo_update`, CI:301-308, CI:553) is left out: for a user who works in
order there is none.
As in Model/Isolated: exact arithmetic, nanosecond keys, `LinearBelief`s, mutexes acquired, no log output.
-/

namespace Ikf
open Mat

/-- Result of the two messages of an inter-agent update: `recv` the answer to `get_beliefs_and_FCC_at_t`, `send` the
return value of `set_beliefs_and_FCC_at_t`. -/
structure Link where
  recv : Bool := true
  send : Bool := true

namespace Collab

/-- `m.at(k)`. -/
def at' {V : Type _} (m : SMap V) (k : ℕ) : Res V :=
  match m.find k with
  | some v => .ok v
  | none => .throws

/-- First loop of IC:210-227: beliefs of the instances `IDs`; `none` if one is unknown or has no belief at `t`. -/
def getBels (pred : ℕ → Inst → Int → Inst × Bool) (t : Int) : List ℕ → Hdl → SMap Belief → Res (Hdl × Option (SMap Belief))
  | [], h, acc => .ok (h, some acc)
  | id :: r, h, acc =>
    if (h.find id).isSome then do
      let x ← Hdl.beliefPredict pred h id t
      match x.2 with
      | some b => getBels pred t r x.1 (acc.emplace id b)
      | none => .ok (x.1, none)
    else .ok (h, none)

/-- Body of IC:232-237: `dict_FFC[I].insert({P, FFC_IP})`. -/
def fccCell (i : Inst) (t : Int) (I : ℕ) (m : SMap (SMap Mat)) (P : ℕ) : SMap (SMap Mat) :=
  if I ≠ P then m.set I (((m.find I).getD []).emplace P (i.getCCF t P)) else m

/-- Second loop of IC:228-245. -/
def fccLoop (h : Hdl) (t : Int) (parts : List ℕ) : List ℕ → SMap (SMap Mat) → Res (SMap (SMap Mat))
  | [], m => .ok m
  | I :: r, m => do
    let i ← Hdl.get h I
    fccLoop h t parts r (parts.foldl (fccCell i t I) m)

/-- IC:199-251 `get_local_beliefs_and_FCC_at_t(IDs, ID_participants, t, beliefs, dict_FFC)`. -/
def getBF (pred : ℕ → Inst → Int → Inst × Bool) (h : Hdl) (ids parts : List ℕ) (t : Int) :
    Res (Hdl × Option (SMap Belief × SMap (SMap Mat))) := do
  let x ← getBels pred t ids h []
  match x.2 with
  | some bs => do
    let F ← fccLoop x.1 t parts ids []
    .ok (x.1, some (bs, F))
  | none => .ok (x.1, none)

/-- `m.insert(n.begin(), n.end())`. -/
def insertAll {V : Type _} (m n : SMap V) : SMap V := n.foldl (fun m e => m.emplace e.1 e.2) m

/-- Sum of the dimensions, IC:255-258. -/
def dimAll (d : SMap Belief) : ℕ := d.foldl (fun a e => a + e.2.dim) 0

/-- Inner loop of IC:271-293. -/
def stackRowL (F : SMap (SMap Mat)) (a : ℕ × Belief) (row : ℕ) : SMap Belief → ℕ → Mat → Res Mat
  | [], _, M => .ok M
  | b :: r, col, M => do
    let M1 ← (if a.1 = b.1 then M.setBlockC row col a.2.dim b.2.dim a.2.Sigma
      else if a.1 < b.1 then do
        let ri ← at' F a.1
        let FIJ ← at' ri b.1
        let rj ← at' F b.1
        let FJI ← at' rj a.1
        let X ← (if FIJ.size ≠ 0 ∧ FJI.size ≠ 0 then FIJ *! FJI.tr else .ok Mat.empty : Res Mat)
        if X.size ≠ 0 then do
          let M2 ← M.setBlockC row col a.2.dim b.2.dim X
          M2.setBlockC col row b.2.dim a.2.dim X.tr
        else .ok M
      else .ok M : Res Mat)
    stackRowL F a row r (col + b.2.dim) M1

/-- Outer loop of IC:265-295. -/
def stackRowsL (F : SMap (SMap Mat)) (d : SMap Belief) : SMap Belief → ℕ → Mat → Res Mat
  | [], _, M => .ok M
  | a :: r, row, M =>
    if ((F.find a.1).getD []).length ≥ d.length - 1 then do
      let M1 ← stackRowL F a row d 0 M
      stackRowsL F d r (row + a.2.dim) M1
    else .throws

/-- IC:253-298 `stack_Sigma_locally(dict_bel, t, dict_FFC)`. -/
def stackSigmaL (d : SMap Belief) (F : SMap (SMap Mat)) : Res Mat :=
  if F.length = d.length then stackRowsL F d d 0 (Mat.zero (dimAll d) (dimAll d)) else .throws

/-- IC:329-338 `dict_FCC[I].insert({J, FCC})`. -/
def putFCC (F : SMap (SMap Mat)) (I J : ℕ) (M : Mat) : SMap (SMap Mat) := F.set I (((F.find I).getD []).emplace J M)

/-- Inner loop of IC:314-341. -/
def splitRowL (P : Mat) (I di row : ℕ) : List (ℕ × ℕ) → ℕ → SMap (SMap Mat) → Res (SMap (SMap Mat))
  | [], _, F => .ok F
  | (J, dj) :: r, col, F => do
    let S ← P.blockC row col di dj
    let FIJ := if I < J then S else one S.tr.cols
    let FJI := if I < J then one S.cols else S.tr
    splitRowL P I di row r (col + dj) (putFCC (putFCC F I J FIJ) J I FJI)

/-- Outer loop of IC:309-343 (the last one has no inner iterations). -/
def splitRowsL (P : Mat) : List (ℕ × ℕ) → ℕ → ℕ → SMap (SMap Mat) → Res (SMap (SMap Mat))
  | [], _, _, F => .ok F
  | (I, di) :: r, row, off, F => do
    let F1 ← splitRowL P I di row r (off + di) F
    splitRowsL P r (row + di) (off + di) F1

/-- IC:300-344 `split_Sigma_locally`: the dictionary starts empty; without participants `IDs.size() - 1` wraps around
and `IDs.at(0)` throws. -/
def splitL (P : Mat) (d : SMap Belief) : Res (SMap (SMap Mat)) :=
  if d.isEmpty then .throws else splitRowsL P (d.map fun e => (e.1, e.2.dim)) 0 0 []

/-- CI:131-150 `apply_corrections_at_t(Sigma_apos, dict_bel, t, true)`: the local instances only; fixed ones are not
skipped. -/
noncomputable def applyCorrL (P : Mat) (t : Int) : SMap Belief → ℕ → Hdl → Res Hdl
  | [], _, h => .ok h
  | e :: r, row, h => do
    let B ← P.blockC row row e.2.dim e.2.dim
    match h.find e.1 with
    | some i => do
      let j ← i.applyCorrectionSigma t e.2.Sigma B
      applyCorrL P t r (row + e.2.dim) (h.set e.1 j)
    | none => applyCorrL P t r (row + e.2.dim) h

/-- Inner loop of CI:531-534. -/
def setRow (t : Int) (row : SMap Mat) (i : Inst) : Inst := row.foldl (fun i e => i.setCCF t e.1 e.2) i

/-- CI:530-535: the posterior factors of the local instances. -/
def setFCCs (t : Int) (F : SMap (SMap Mat)) : List ℕ → Hdl → Res Hdl
  | [], h => .ok h
  | I :: r, h => do
    let row ← at' F I
    let i ← Hdl.get h I
    setFCCs t F r (h.set I (setRow t row i))

/-- IH:203-216 `correct_beliefs_implace` on local and remote beliefs: the local ones are stored beliefs, the remote ones
the entries of `remote_beliefs` (second component of the state). -/
def correctL (P dx : Mat) (t : Int) : SMap Belief → ℕ → Hdl × SMap Belief → Res (Hdl × SMap Belief)
  | [], _, x => .ok x
  | e :: r, row, x =>
    if !e.2.fixed then do
      let B ← P.blockC row row e.2.dim e.2.dim
      let v ← dx.blockC row 0 e.2.dim 1
      let b ← e.2.correct v B
      match x.1.find e.1 with
      | some i => correctL P dx t r (row + e.2.dim) (x.1.set e.1 (i.setBelief b t), x.2)
      | none => correctL P dx t r (row + e.2.dim) (x.1, x.2.set e.1 b)
    else correctL P dx t r row x

/-- The remote side of `set_beliefs_and_FCC_at_t(t, beliefs, dict_FFC, calc_correction = true, redo_update)`
(IMultiAgentHandler.hpp:71-74): for an instance whose factors are sent the correction from the stored to the new
covariance is applied first (as CI:516-535 on the local side), then the factors are set; the belief replaces the stored
one. -/
noncomputable def remoteSet (t : Int) (F : SMap (SMap Mat)) : SMap Belief → Hdl → Res Hdl
  | [], h => .ok h
  | e :: r, h => do
    let i ← Hdl.get h e.1
    match F.find e.1 with
    | some row => do
      let b0 ← (match i.beliefAt t with | some b => .ok b | none => .throws : Res Belief)
      let j ← i.applyCorrectionSigma t b0.Sigma e.2.Sigma
      remoteSet t F r (h.set e.1 ((setRow t row j).setBelief e.2 t))
    | none => remoteSet t F r (h.set e.1 (i.setBelief e.2 t))

/-- CI:546-550: `remote_FFCs[ID] = FCCs[ID]`. -/
def pick (F : SMap (SMap Mat)) (ids : List ℕ) : SMap (SMap Mat) :=
  ids.foldl (fun m p => m.set p ((F.find p).getD [])) []

/-- CI:489-563 after both sides have delivered their beliefs `lb`, `rb` and factors `lF`, `rF`: new local handler, new
remote handler, answer. -/
noncomputable def interTail (near : Mat → Mat) (lk : Link) (l rm : Hdl) (lb rb : SMap Belief) (lF rF : SMap (SMap Mat)) (H R r : Mat)
    (t : Int) (cfg : Cfg) (remote loc : List ℕ) : Res (Hdl × Hdl × Bool) := do
  let d := insertAll (insertAll [] lb) rb
  let F := insertAll (insertAll [] lF) rF
  let S0 ← stackSigmaL d F
  let S ← stabilize S0 (1 / 10^12)
  let res ← correctionStep H R r (Hdl.fixPsd near S) cfg
  if !res.rejected then do
    let P := Hdl.fixPsd near res.Sapos
    let l1 ← applyCorrL P t d 0 l
    let G ← splitL P d
    let l2 ← setFCCs t G loc l1
    let x ← correctL P res.dx t d 0 (l2, rb)
    if lk.send then do
      let rm' ← remoteSet t (pick G remote) x.2 rm
      .ok (x.1, rm', true)
    else .ok (x.1, rm, false)
  else .ok (l, rm, true)

/-- CI:455-568 `apply_inter_agent_observation(dict_H, R, r, t, cfg, remote_IDs, local_IDs)`: `l` the local handler, `rm`
the handler of the one remote agent. -/
noncomputable def interR (near : Mat → Mat) (pred : ℕ → Inst → Int → Inst × Bool) (lk : Link) (l rm : Hdl) (dH : SMap Mat)
    (R r : Mat) (t : Int) (cfg : Cfg) (remote loc : List ℕ) : Res (Hdl × Hdl × Bool) := do
  let parts := remote ++ loc
  let H ← Hdl.stackH dH
  let xl ← getBF pred l loc parts t
  match xl.2 with
  | none => .ok (xl.1, rm, false)
  | some (lb, lF) =>
    if lb.isEmpty then .ok (xl.1, rm, false)
    else if lk.recv then do
      let xr ← getBF pred rm remote parts t
      match xr.2 with
      | none => .ok (xl.1, xr.1, false)
      | some (rb, rF) =>
        if rb.isEmpty then .ok (xl.1, xr.1, false)
        else interTail near lk xl.1 xr.1 lb rb lF rF H R r t cfg remote loc
    else .ok (xl.1, rm, false)

/-! ## The same update with a measurement function -/

/-- CI:627-637: the entries of fixed beliefs are removed from a map. -/
def dropFixed {V : Type _} (d : SMap Belief) (m : SMap V) : SMap V := d.foldl (fun a e => if e.2.fixed then a.erase e.1 else a) m

/-- CI:676, 679, 698: `dict_bel.find(ID) != dict_bel.end() && !dict_bel[ID]->options().is_fixed`. -/
def free (d : SMap Belief) (p : ℕ) : Bool :=
  match d.find p with
  | some b => !b.fixed
  | none => false

/-- CI:675-684. -/
def setFCCsH (t : Int) (F : SMap (SMap Mat)) (d : SMap Belief) : List ℕ → Hdl → Res Hdl
  | [], h => .ok h
  | I :: r, h =>
    if free d I then do
      let row ← at' F I
      let i ← Hdl.get h I
      setFCCsH t F d r (h.set I (setRow t (row.filter (fun e => free d e.1)) i))
    else setFCCsH t F d r h

/-- CI:696-701. -/
def pickH (F : SMap (SMap Mat)) (d : SMap Belief) (ids : List ℕ) : SMap (SMap Mat) :=
  ids.foldl (fun m p => if free d p then m.set p ((F.find p).getD []) else m) []

/-- CI:605-715 after both sides have delivered their beliefs and factors: new local handler, new remote handler, status
and residual. -/
noncomputable def interTailH (near : Mat → Mat) (hf : SMap Belief → List ℕ → Mat → SMap Mat × Mat) (lk : Link) (l rm : Hdl)
    (lb rb : SMap Belief) (lF rF : SMap (SMap Mat)) (R z : Mat) (t : Int) (ids : List ℕ) (cfg : Cfg) (remote loc : List ℕ) :
    Res (Hdl × Hdl × Status × Mat) := do
  let d0 := insertAll (insertAll [] lb) rb
  let F0 := insertAll (insertAll [] lF) rF
  let Hr := hf d0 ids z
  let d := Hdl.unfixed d0
  let F := dropFixed d0 F0
  let H ← Hdl.stackH (dropFixed d0 Hr.1)
  let S0 ← stackSigmaL d F
  let S ← stabilize S0 (1 / 10^12)
  let res ← correctionStep H R Hr.2 (Hdl.fixPsd near S) cfg
  if !res.rejected then do
    let P := Hdl.fixPsd near res.Sapos
    let l1 ← applyCorrL P t d 0 l
    let G ← splitL P d
    let l2 ← setFCCsH t G d loc l1
    let x ← correctL P res.dx t d 0 (l2, rb)
    if lk.send then do
      let rm' ← remoteSet t (pickH G d remote) x.2 rm
      .ok (x.1, rm', .processed, Hr.2)
    else .ok (x.1, rm, .outOfOrder, Mat.zero 0 1)
  else .ok (l, rm, .rejected, Hr.2)

/-- CI:570-720 `apply_inter_agent_observation(R, z, t, h, IDs, cfg, remote_IDs, local_IDs)`. The measurement function `hf`
of the user is a pure function of the beliefs, the IDs and the measurement. -/
noncomputable def interH (near : Mat → Mat) (pred : ℕ → Inst → Int → Inst × Bool) (hf : SMap Belief → List ℕ → Mat → SMap Mat × Mat)
    (lk : Link) (l rm : Hdl) (R z : Mat) (t : Int) (ids : List ℕ) (cfg : Cfg) (remote loc : List ℕ) :
    Res (Hdl × Hdl × Status × Mat) := do
  let parts := remote ++ loc
  let xl ← getBF pred l loc parts t
  match xl.2 with
  | none => .ok (xl.1, rm, .outOfOrder, Mat.zero 0 1)
  | some (lb, lF) =>
    if lb.isEmpty then .ok (xl.1, rm, .outOfOrder, Mat.zero 0 1)
    else if lk.recv then do
      let xr ← getBF pred rm remote parts t
      match xr.2 with
      | none => .ok (xl.1, xr.1, .outOfOrder, Mat.zero 0 1)
      | some (rb, rF) =>
        if rb.isEmpty then .ok (xl.1, xr.1, .outOfOrder, Mat.zero 0 1)
        else interTailH near hf lk xl.1 xr.1 lb rb lF rF R z t ids cfg remote loc
    else .ok (xl.1, rm, .outOfOrder, Mat.zero 0 1)

/-! ## Participant by participant -/

/-- All agents: agent ID to its handler. -/
abbrev Net := ℕ → Hdl

namespace Net

/-- The agent that serves instance `p` for agent `a`: `exists(p)` locally, else the lookup table. -/
def serv (T : Agents.Tables) (a : ℕ) (n : Net) (p : ℕ) : ℕ := if ((n a).find p).isSome then a else Agents.agentOf T p

/-- `get(p)->` or the same request to its agent. -/
def get (T : Agents.Tables) (a : ℕ) (n : Net) (p : ℕ) : Res Inst := Hdl.get (n (serv T a n p)) p

/-- The instance after the request. -/
def put (T : Agents.Tables) (a : ℕ) (n : Net) (p : ℕ) (i : Inst) : Net :=
  Function.update n (serv T a n p) ((n (serv T a n p)).set p i)

variable (T : Agents.Tables) (a : ℕ)

/-- CI:72-97 `get_Sigma_IJ_at_t`. -/
def getSigma (n : Net) (I J : ℕ) (t : Int) : Res Mat := do
  let i ← get T a n I
  let j ← get T a n J
  let FIJ := i.getCCF t J
  let FJI := j.getCCF t I
  if FIJ.size ≠ 0 ∧ FJI.size ≠ 0 then
    if I < J then FIJ *! FJI.tr
    else do
      let SJI ← FJI *! FIJ.tr
      .ok SJI.tr
  else .ok Mat.empty

/-- CI:100-129 `set_Sigma_IJ_at_t`. -/
def setSigma (n : Net) (I J : ℕ) (S : Mat) (t : Int) : Res Net :=
  if I < J then do
    let i ← get T a n I
    let n1 := put T a n I (i.setCCF t J S)
    let j ← get T a n1 J
    .ok (put T a n1 J (j.setCCF t I (one S.cols)))
  else do
    let SJI := S.tr
    let j ← get T a n J
    let n1 := put T a n J (j.setCCF t I SJI)
    let i ← get T a n1 I
    .ok (put T a n1 I (i.setCCF t J (one SJI.cols)))

/-- IC:172-197, CI:62-70 `get_dict_bel`: empty on failure. -/
def getDictBel (pred : ℕ → Inst → Int → Inst × Bool) : Net → List ℕ → Int → SMap Belief → Res (Net × SMap Belief)
  | n, [], _, acc => .ok (n, acc)
  | n, id :: r, t, acc => do
    let i ← get T a n id
    let x := (if i.bel.existAt t then (n, i.beliefAt t)
      else
        let q := pred id i t
        (put T a n id q.1, if q.2 then q.1.beliefAt t else none) : Net × Option Belief)
    match x.2 with
    | none => .ok (x.1, [])
    | some b => getDictBel pred x.1 r t (acc.emplace id b)

/-- Inner loop of IH:134-152 with CI:72-97. -/
def stackRow (n : Net) (t : Int) (e : ℕ × Belief) (row : ℕ) : SMap Belief → ℕ → Mat → Res Mat
  | [], _, M => .ok M
  | b :: r, col, M =>
    if !b.2.fixed then do
      let M1 ← (if e.1 = b.1 then M.setBlockC row col e.2.dim b.2.dim e.2.Sigma
        else if e.1 < b.1 then do
          let X ← getSigma T a n e.1 b.1 t
          if X.size ≠ 0 then do
            let M2 ← M.setBlockC row col e.2.dim b.2.dim X
            M2.setBlockC col row b.2.dim e.2.dim X.tr
          else .ok M
        else .ok M : Res Mat)
      stackRow n t e row r (col + b.2.dim) M1
    else stackRow n t e row r col M

/-- Outer loop of IH:128-155. -/
def stackRows (n : Net) (t : Int) (d : SMap Belief) : SMap Belief → ℕ → Mat → Res Mat
  | [], _, M => .ok M
  | e :: r, row, M =>
    if !e.2.fixed then do
      let M1 ← stackRow T a n t e row d 0 M
      stackRows n t d r (row + e.2.dim) M1
    else stackRows n t d r row M

/-- IH:121-159 `stack_Sigma`. -/
noncomputable def stackSigma (n : Net) (d : SMap Belief) (t : Int) : Res Mat := do
  let M ← stackRows T a n t d d 0 (Mat.zero (Hdl.getDim d) (Hdl.getDim d))
  symmetrize M

/-- CI:131-150 `apply_corrections_at_t(Sigma_apos, dict_bel, t, false)`. -/
noncomputable def applyCorr (P : Mat) (t : Int) : SMap Belief → ℕ → Net → Res Net
  | [], _, n => .ok n
  | e :: r, row, n => do
    let B ← P.blockC row row e.2.dim e.2.dim
    let i ← get T a n e.1
    let j ← i.applyCorrectionSigma t e.2.Sigma B
    applyCorr P t r (row + e.2.dim) (put T a n e.1 j)

/-- Inner loop of IH:192-198 with CI:100-129. -/
def splitRow (P : Mat) (t : Int) (I : ℕ) (di row : ℕ) : List (ℕ × ℕ) → ℕ → Net → Res Net
  | [], _, n => .ok n
  | (J, dj) :: r, col, n => do
    let B ← P.blockC row col di dj
    let n1 ← setSigma T a n I J B t
    splitRow P t I di row r (col + dj) n1

/-- Outer loop of IH:187-200. -/
def splitRows (P : Mat) (t : Int) : List (ℕ × ℕ) → ℕ → ℕ → Net → Res Net
  | [], _, _, n => .ok n
  | (I, di) :: r, row, off, n => do
    let n1 ← splitRow T a P t I di row r (off + di) n
    splitRows P t r (row + di) (off + di) n1

/-- IH:176-201 `split_right_upper_covariance`. -/
def splitRightUpper (P : Mat) (d : SMap Belief) (t : Int) (n : Net) : Res Net :=
  let ids := (Hdl.unfixed d).map (fun e => (e.1, e.2.dim))
  if ids.isEmpty then .throws else splitRows T a P t ids 0 0 n

/-- IH:203-216 `correct_beliefs_implace`: local beliefs are the stored ones, remote ones are copies, which CI:297-299
(CI:375-377) then stores with `set_belief_at_t`. The two loops touch different instances, so they are one here. -/
def correctBeliefs (P dx : Mat) (t : Int) : SMap Belief → ℕ → Net → Res Net
  | [], _, n => .ok n
  | e :: r, row, n =>
    if !e.2.fixed then do
      let B ← P.blockC row row e.2.dim e.2.dim
      let x ← dx.blockC row 0 e.2.dim 1
      let b ← e.2.correct x B
      let i ← get T a n e.1
      correctBeliefs P dx t r (row + e.2.dim) (put T a n e.1 (i.setBelief b t))
    else correctBeliefs P dx t r row n

/-- CI:263-310, CI:346-379 correction with residual `r`. -/
noncomputable def correctJoint (near : Mat → Mat) (n : Net) (d : SMap Belief) (H R r S : Mat) (t : Int) (cfg : Cfg) :
    Res (Net × Bool) := do
  let res ← correctionStep H R r (Hdl.fixPsd near S) cfg
  if !res.rejected then do
    let P := Hdl.fixPsd near res.Sapos
    let n1 ← applyCorr T a P t d 0 n
    let n2 ← splitRightUpper T a P d t n1
    let n3 ← correctBeliefs T a P res.dx t d 0 n2
    .ok (n3, true)
  else .ok (n, false)

/-- CI:254-310: participants of two or more remote agents. -/
noncomputable def generalR (near : Mat → Mat) (pred : ℕ → Inst → Int → Inst × Bool) (n : Net) (dH : SMap Mat) (R r : Mat) (t : Int)
    (cfg : Cfg) : Res (Net × Bool) := do
  let H ← Hdl.stackH dH
  let x ← getDictBel T a pred n dH.keys t []
  if x.2.isEmpty then .ok (x.1, false)
  else do
    let S0 ← stackSigma T a x.1 x.2 t
    let S ← stabilize S0 (1 / 10^12)
    correctJoint T a near x.1 x.2 H R r S t cfg

/-- CI:334-379: at least one remote participant. -/
noncomputable def generalZ (near : Mat → Mat) (pred : ℕ → Inst → Int → Inst × Bool) (n : Net) (dH : SMap Mat) (z R : Mat) (t : Int)
    (cfg : Cfg) : Res (Net × Bool) := do
  let H ← Hdl.stackH dH
  let x ← getDictBel T a pred n dH.keys t []
  if x.2.isEmpty then .ok (x.1, false)
  else do
    let mean ← Hdl.stackMean x.2
    let S0 ← stackSigma T a x.1 x.2 t
    let Hm ← H *! mean
    let r ← z -! Hm
    let S ← stabilize S0 (1 / 10^12)
    correctJoint T a near x.1 x.2 H R r S t cfg

/-- CI:218-315 `apply_observation(dict_H, R, r, t, cfg)` called on agent `a`. -/
noncomputable def applyObsR (near : Mat → Mat) (pred : ℕ → Inst → Int → Inst × Bool) (lk : Link) (n : Net) (dH : SMap Mat) (R r : Mat)
    (t : Int) (cfg : Cfg) : Res (Net × Bool) :=
  Agents.applyObsDict (fun p => ((n a).find p).isSome) T
    (fun n _ => do
      let x ← Hdl.applyObsR near pred (n a) dH R r t cfg
      .ok (Function.update n a x.1, x.2))
    (fun n remote loc => do
      let b := Agents.agentOf T (remote.headD 0)
      let x ← interR near pred lk (n a) (n b) dH R r t cfg remote loc
      .ok (Function.update (Function.update n a x.1) b x.2.1, x.2.2))
    (fun n _ => generalR T a near pred n dH R r t cfg) n dH.keys

/-- CI:317-384 `apply_observation(dict_H, z, R, t, cfg)` called on agent `a`. -/
noncomputable def applyObsZ (near : Mat → Mat) (pred : ℕ → Inst → Int → Inst × Bool) (n : Net) (dH : SMap Mat) (z R : Mat)
    (t : Int) (cfg : Cfg) : Res (Net × Bool) :=
  if dH.keys.all (fun p => ((n a).find p).isSome) then do
    let x ← Hdl.applyObsZ near pred (n a) dH z R t cfg
    .ok (Function.update n a x.1, x.2)
  else generalZ T a near pred n dH z R t cfg

/-- IC:115-155 `apply_observation(R, z, t, h, IDs, cfg)` called on agent `a`: the residual of the result is the second
component of the state. -/
noncomputable def applyObsH (near : Mat → Mat) (pj : Belief → Mat → Mat) (pred : ℕ → Inst → Int → Inst × Bool)
    (hf : SMap Belief → List ℕ → Mat → SMap Mat × Mat) (lk : Link) (n : Net) (R z : Mat) (t : Int) (ids : List ℕ) (cfg : Cfg) :
    Res ((Net × Mat) × Status) :=
  Agents.applyObsH (fun p => ((n a).find p).isSome) T
    (fun (w : Net × Mat) ids => do
      let x ← Hdl.applyObsI near pj pred hf (w.1 a) R z t ids cfg
      .ok ((Function.update w.1 a x.1, x.2.2), x.2.1))
    (fun (w : Net × Mat) remote loc => do
      let b := Agents.agentOf T (remote.headD 0)
      let x ← interH near pred hf lk (w.1 a) (w.1 b) R z t ids cfg remote loc
      .ok ((Function.update (Function.update w.1 a x.1) b x.2.1, x.2.2.2), x.2.2.1))
    (n, Mat.zero 0 1) ids

end Net
end Collab
end Ikf
