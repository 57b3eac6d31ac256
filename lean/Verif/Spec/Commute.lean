import Verif.Spec.Groups

/-!
# Specification: calls in another order (C135), propagation in steps or at once (C136)
-/

namespace Ikf
open Mat

namespace Commute

/-- The call concerns the instance `p`: it is made on it, or `p` takes part in it. -/
def Concerns : Ev → ℕ → Prop
  | .propKF id _ _ _ _, p => p = id
  | .propEKF id _ _ _ _ _, p => p = id
  | .propBel id _ _ _ _, p => p = id
  | .privKF id _ _ _ _ _, p => p = id
  | .privEKF id _ _ _ _ _, p => p = id
  | .setCov a b _ _, p => p = a ∨ p = b
  | .jointR dH _ _ _ _, p => p ∈ dH.keys
  | .jointZ dH _ _ _ _, p => p ∈ dH.keys

/-- The same calls with the same answers, in an order every single instance cannot tell from the first: the calls that concern it
come in the same order. -/
def SameForEach (l l' : List (Ev × Bool)) : Prop :=
  l.Perm l' ∧ open Classical in ∀ p, l.filter (fun x => Concerns x.1 p) = l'.filter (fun x => Concerns x.1 p)

/-- Successive propagations of the instance `id` from `ta` to `tb`. `F` and `Q` are the transition matrix and the process noise of
the whole interval. -/
inductive Steps (id : ℕ) : ℤ → ℤ → Mat → Mat → List Ev → Prop
  | one (F Q ta tb) : Steps id ta tb F Q [.propKF id F Q ta tb]
  | cons {F2 Q2 tm tb l} (F1 Q1 ta) (h : Steps id tm tb F2 Q2 l) :
      Steps id ta tb (F2 * F1) (F2 * Q1 * F2.tr + Q2) (.propKF id F1 Q1 ta tm :: l)

end Commute
end Ikf
