import Verif.Spec.CollabH

/-!
# Specification: covariance intersection between agents

Every agent has its own centralised filter (`Central`), over the instances it holds. An observation that involves one
other agent corrects the filter of the calling agent only, treating the estimates of the other agent as correlated in an
unknown way (weight 0.995 for its own).
-/

namespace Ikf
open Mat

/-- `bel` are the estimates of the instances `ids`, each as the agent that holds it has it. -/
def EstimatesAt (own : ℕ → ℕ) (c : ℕ → Central) (t : Int) (ids : List ℕ) (bel : SMap Belief) : Prop :=
  (SMap.keys bel).Pairwise (· < ·) ∧ (∀ p, p ∈ SMap.keys bel ↔ p ∈ ids) ∧
    ∀ e ∈ bel, e.2.mean = (c (own e.1)).mu e.1 ∧ e.2.Sigma = (c (own e.1)).cov e.1 e.1 ∧ e.2.stamp = t ∧ e.2.fixed = (c (own e.1)).fix e.1

/-- The free instances of agent `a` among `ids`, by ID. -/
def FreeAt (own : ℕ → ℕ) (c : ℕ → Central) (ids : List ℕ) (a : ℕ) (ks : List ℕ) : Prop :=
  ks.Pairwise (· < ·) ∧ ∀ p, p ∈ ks ↔ p ∈ ids ∧ own p = a ∧ (c a).fix p = false

/-- Covariance intersection: the measurement function is linearised at the estimates of both agents `a` and `b`; each side
stacks Jacobians and covariance of its own free participants. -/
structure Intersected (own : ℕ → ℕ) (dim : ℕ → ℕ) (near : Mat → Mat) (c : ℕ → Central) (a b : ℕ)
    (hf : SMap Belief → List ℕ → Mat → SMap Mat × Mat) (ids : List ℕ) (R z : Mat) (t : Int) (cfg : Cfg) (ks : List ℕ) (r : Mat)
    (res : CorrRes) : Prop where
  locals : FreeAt own c ids a ks
  ex : ∃ bel J kr Hi Hj Si Sj, EstimatesAt own c t ids bel ∧ hf bel ids z = (J, r) ∧ FreeAt own c ids b kr ∧
    SideBySide (J.filter (fun e => decide (e.1 ∈ ks))) Hi ∧ SideBySide (J.filter (fun e => decide (e.1 ∈ kr))) Hj ∧
    StackedCov (ks.map fun p => (p, dim p)) (c a).cov Si ∧ StackedCov (kr.map fun p => (p, dim p)) (c b).cov Sj ∧
    ciCorrection Hi Hj R r (Hdl.fixPsd near (stabM Si (1 / 10^12))) (Hdl.fixPsd near (stabM Sj (1 / 10^12))) (995 / 1000) cfg = .ok res

/-- The other agent is `b`: it holds every participant that `a` does not hold, and there is one. -/
def OtherIs (own : ℕ → ℕ) (a b : ℕ) (ids : List ℕ) : Prop := b ≠ a ∧ (∃ p ∈ ids, own p = b) ∧ ∀ p ∈ ids, own p = a ∨ own p = b

/-- What the call of agent `a` with its answer does to the filters of the agents. -/
inductive DStep (own : ℕ → ℕ) (dim : ℕ → ℕ) (near : Mat → Mat) (c : ℕ → Central) (a : ℕ) : HEv → HAns → (ℕ → Central) → Prop
  /-- a call on the agent's own instances -/
  | accept {ev c'} (h : SpecStep dim near (c a) ev c') : DStep own dim near c a (.base ev) (.done true) (Function.update c a c')
  | refuse {ev} : DStep own dim near c a (.base ev) (.done false) c
  /-- one other agent: accepted -/
  | obs (hf ids R z t cfg b ks r res) (ho : OtherIs own a b ids) (hl : Intersected own dim near c a b hf ids R z t cfg ks r res)
      (hr : res.rejected = false) :
      DStep own dim near c a (.obsH hf ids R z t cfg) (.meas .processed r)
        (Function.update c a ((c a).joint (ks.map fun p => (p, dim p)) (Hdl.fixPsd near res.Sapos) res.dx))
  /-- one other agent: outlier, or nobody free on one side -/
  | rej (hf ids R z t cfg b ks r res) (ho : OtherIs own a b ids) (hl : Intersected own dim near c a b hf ids R z t cfg ks r res)
      (hr : res.rejected = true) : DStep own dim near c a (.obsH hf ids R z t cfg) (.meas .rejected r) c
  /-- nothing of it held by `a` -/
  | none (hf ids R z t cfg) (ho : OneOtherL own a ids) (hh : ∀ p ∈ ids, own p ≠ a) :
      DStep own dim near c a (.obsH hf ids R z t cfg) (.meas .outOfOrder (Mat.zero 0 1)) c
  /-- two or more other agents: not performed -/
  | many (hf ids R z t cfg) (ha : ¬ ∀ p ∈ ids, own p = a) (ho : ¬ OneOtherL own a ids) :
      DStep own dim near c a (.obsH hf ids R z t cfg) (.meas .discarded (Mat.zero 0 1)) c

/-- Calls (agent, call, answer) one after the other. -/
inductive DSpecRun (own : ℕ → ℕ) (dim : ℕ → ℕ) (near : Mat → Mat) : (ℕ → Central) → List (ℕ × HEv × HAns) → (ℕ → Central) → Prop
  | nil (c) : DSpecRun own dim near c [] c
  | cons {c c1 c2 a ev ans l} (h : DStep own dim near c a ev ans c1) (r : DSpecRun own dim near c1 l c2) :
      DSpecRun own dim near c ((a, ev, ans) :: l) c2

end Ikf
