import Verif.Spec.Collab
import Verif.Model.Handler

/-!
# Specification: joint observations with a measurement function between agents

The centralised filter linearises the same measurement function at its own estimates.
-/

namespace Ikf
open Mat

/-- Calls of an agent. -/
inductive HEv where
  | base (ev : Ev)
  /-- `apply_observation(R, z, t, h, IDs, cfg)`; `hf bel IDs z` are the Jacobians and the residual. -/
  | obsH (hf : SMap Belief → List ℕ → Mat → SMap Mat × Mat) (ids : List ℕ) (R z : Mat) (t : Int) (cfg : Cfg)

/-- Answers: the return value, or status and residual. -/
inductive HAns where
  | done (b : Bool)
  | meas (st : Status) (r : Mat)

/-- `bel` are the estimates of the centralised filter for the instances `ks`. -/
def Estimates (c : Central) (t : Int) (ks : List ℕ) (bel : SMap Belief) : Prop :=
  bel.keys = ks ∧ ∀ e ∈ bel, e.2.mean = c.mu e.1 ∧ e.2.Sigma = c.cov e.1 e.1 ∧ e.2.stamp = t ∧ e.2.fixed = c.fix e.1

/-- The instances among `ks` that are not fixed, with their sizes. -/
def freeOf (dim : ℕ → ℕ) (c : Central) (ks : List ℕ) : List (ℕ × ℕ) := (ks.filter (fun p => !c.fix p)).map (fun p => (p, dim p))

/-- What the observation with a measurement function demands of the centralised filter: linearisation at the estimates,
Jacobians of the free participants side by side, their joint covariance, the correction. -/
structure Linearised (dim : ℕ → ℕ) (near : Mat → Mat) (c : Central) (hf : SMap Belief → List ℕ → Mat → SMap Mat × Mat) (ids : List ℕ) (R z : Mat)
    (t : Int) (cfg : Cfg) (ks : List ℕ) (r : Mat) (res : CorrRes) : Prop where
  sorted : ks.Pairwise (· < ·)
  perm : ks.Perm ids
  ex : ∃ bel J H S, Estimates c t ks bel ∧ hf bel ids z = (J, r) ∧ SideBySide (J.filter (fun e => !c.fix e.1)) H ∧
    StackedCov (freeOf dim c ks) c.cov S ∧ correctionStep H R r (Hdl.fixPsd near (stabM S (1 / 10^12))) cfg = .ok res

/-- What the call of agent `a` with its answer does to the centralised filter. -/
inductive CStepH (own : ℕ → ℕ) (dim : ℕ → ℕ) (near : Mat → Mat) (c : Central) (a : ℕ) : HEv → HAns → Central → Prop
  | base {ev ans c'} (h : CStep own dim near c a ev ans c') : CStepH own dim near c a (.base ev) (.done ans) c'
  /-- one other agent: accepted -/
  | obs (hf ids R z t cfg ks r res) (ho : OneOtherL own a ids) (hh : ∃ p ∈ ids, own p = a)
      (hl : Linearised dim near c hf ids R z t cfg ks r res) (hr : res.rejected = false) :
      CStepH own dim near c a (.obsH hf ids R z t cfg) (.meas .processed r) (c.joint (freeOf dim c ks) (Hdl.fixPsd near res.Sapos) res.dx)
  /-- one other agent: outlier -/
  | rej (hf ids R z t cfg ks r res) (ho : OneOtherL own a ids) (hh : ∃ p ∈ ids, own p = a)
      (hl : Linearised dim near c hf ids R z t cfg ks r res) (hr : res.rejected = true) :
      CStepH own dim near c a (.obsH hf ids R z t cfg) (.meas .rejected r) c
  /-- nothing of it held by `a` -/
  | none (hf ids R z t cfg) (ho : OneOtherL own a ids) (hh : ∀ p ∈ ids, own p ≠ a) :
      CStepH own dim near c a (.obsH hf ids R z t cfg) (.meas .outOfOrder (Mat.zero 0 1)) c
  /-- two or more other agents: not performed -/
  | many (hf ids R z t cfg) (ha : ¬ ∀ p ∈ ids, own p = a) (ho : ¬ OneOtherL own a ids) :
      CStepH own dim near c a (.obsH hf ids R z t cfg) (.meas .discarded (Mat.zero 0 1)) c

/-- Calls one after the other. -/
inductive CSpecRunH (own : ℕ → ℕ) (dim : ℕ → ℕ) (near : Mat → Mat) : Central → List (ℕ × HEv × HAns) → Central → Prop
  | nil (c) : CSpecRunH own dim near c [] c
  | cons {c c1 c2 a ev ans l} (h : CStepH own dim near c a ev ans c1) (r : CSpecRunH own dim near c1 l c2) :
      CSpecRunH own dim near c ((a, ev, ans) :: l) c2

end Ikf
