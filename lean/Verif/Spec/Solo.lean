import Verif.Spec.StandaloneMath
import Verif.Spec.Central
import Verif.Props.CrossCov
import Verif.Props.FactorStore

/-!
# Specification: an isolated instance on its own (C121)
-/

namespace Ikf
namespace Solo

/-- What a call means for the instance `id`: the same call on a standalone filter, or nothing if the call is meant for another instance, sets a
cross-covariance, or is a joint observation. -/
def own (id : ℕ) : Ev → Option KCall
  | .propKF p Phi Q ta tb => if p = id then some (.prop Phi Q ta tb) else none
  | .propEKF p mb Phi Q ta tb => if p = id then some (.propEKF mb Phi Q ta tb) else none
  | .propBel p bb Phi ta tb => if p = id then some (.propBel bb Phi ta tb) else none
  | .privKF p H R z t cfg => if p = id then some (.priv H R z t cfg) else none
  | .privEKF p H R r t cfg => if p = id then some (.privEKF H R r t cfg) else none
  | _ => none

/-- `id` does not take part in a joint observation. -/
def Absent (id : ℕ) : Ev → Prop
  | .jointR dH _ _ _ _ => id ∉ dH.keys
  | .jointZ dH _ _ _ _ => id ∉ dH.keys
  | _ => True

/-- The time of the belief a call starts from. -/
def from? : KCall → Option Int
  | .prop _ _ ta _ => some ta
  | .propEKF _ _ _ ta _ => some ta
  | .propBel _ _ _ _ => none
  | .priv _ _ _ t _ => some t
  | .privEKF _ _ _ t _ => some t
  | .correct _ _ t => some t

/-- Calls on any instances and on the handler, with their answers: `id` takes part in no joint observation, and its own calls start from beliefs it
still holds. The other instances are free to do what they like. -/
inductive Apart (fp : FP) (near : Mat → Mat) (pred : ℕ → Inst → Int → Inst × Bool) (id : ℕ) : Hdl → List (Ev × Bool) → Hdl → Prop
  | nil (h) : Apart fp near pred id h [] h
  | step {h h1 h2 ev ans l} (ha : Absent id ev)
      (hh : ∀ c, own id ev = some c → ∀ t, from? c = some t → (Hdl.belief h id t).isSome)
      (hs : Hdl.run fp near pred h ev = .ok (h1, ans)) (r : Apart fp near pred id h1 l h2) : Apart fp near pred id h ((ev, ans) :: l) h2

/-- The calls of `id` among these, as calls of a standalone filter. -/
def script (id : ℕ) (l : List (Ev × Bool)) : List KCall := l.filterMap fun e => own id e.1

/-- Their answers. -/
def answers (id : ℕ) (l : List (Ev × Bool)) : List Bool := (l.filter fun e => (own id e.1).isSome).map (·.2)

end Solo
end Ikf
