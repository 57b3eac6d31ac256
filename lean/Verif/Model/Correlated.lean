import Verif.Model.Isolated
import Verif.Model.CollabRedo

/-!
# Who an instance is correlated with

Model of the queries of Estimator/IIsolatedKalmanFilter.cpp (`IK`) about cross-covariance factors that the handlers do not
use, and of `propagate_CrossCovFact`. Simplifications: the order of an `unordered_map`'s keys is the increasing one; log output is left out.
-/

namespace Ikf
open Mat
namespace Inst

/-- IK:50-57 `get_correlated_IDs`. -/
def correlated (i : Inst) : List ℕ := i.ccf.keys

/-- IK:59-68 `get_correlated_IDs_at_t`. -/
def correlatedAt (i : Inst) (t : Int) : List ℕ := (i.ccf.filter (fun e => e.2.existAt t)).map (·.1)

/-- IK:86-89 `get_CrossCovFact_at_t(t, ID_J, FFC)`: the factor and whether it is not empty. -/
def factorAt (i : Inst) (t : Int) (J : ℕ) : Mat × Bool := (i.getCCF t J, decide (0 < (i.getCCF t J).size))

/-- IK:100-110 `get_CrossCovFact_before_t`. -/
def factorBefore (i : Inst) (t : Int) (J : ℕ) : Mat :=
  match i.ccf.find J with
  | some b => match b.getBefore t with
    | some e => e.2
    | none => Mat.empty
  | none => Mat.empty

/-- Body of the loop IK:123-129. -/
def propagateOne (ta tb : Int) (M : Mat) (b : Buf Mat) : Res (Buf Mat) :=
  match b.getAt ta with
  | some e => do
    let x ← M *! e.2
    .ok (b.insertMap tb x)
  | none => .ok b

/-- IK:122-131 `propagate_CrossCovFact`. -/
def propagateFactors (i : Inst) (ta tb : Int) (M : Mat) : Res Inst := do
  let c ← i.ccf.mapR (propagateOne ta tb M)
  .ok { i with ccf := c }

end Inst
end Ikf
