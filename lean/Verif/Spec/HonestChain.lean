import Verif.Spec.HonestTeam
import Verif.Spec.Contact

/-!
# Specification: joint measurements of instances that have nothing in common yet, or that were last measured together (C116)
-/

namespace Ikf
namespace Honest

variable {Ω : Type}

/-- The contacts after the step. -/
def NStp.contact : NStp Ω → Contact → Contact
  | .joint dH _ _ _ _, k => k.meet dH.keys
  | _, k => k

/-- The contacts at the end. -/
def endContact : List (NStp Ω) → Contact → Contact
  | [], k => k
  | s :: r, k => endContact r (s.contact k)

/-- Every joint measurement is of instances that know nothing of each other or were last measured together. -/
def Orderly : List (NStp Ω) → Contact → Prop
  | [], _ => True
  | .joint dH R t cfg v :: r, k => (∀ p ∈ dH.keys, ∀ q ∈ dH.keys, k.Clean p q) ∧ Orderly r ((NStp.joint dH R t cfg v).contact k)
  | s :: r, k => Orderly r (s.contact k)

end Honest
end Ikf
