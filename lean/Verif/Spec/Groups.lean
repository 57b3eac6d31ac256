import Verif.Spec.Rename

/-!
# Specification: groups of instances that never meet (C132)
-/

namespace Ikf
open Mat

namespace Groups

/-- The two groups of calls, with their answers, made in any order between the groups. -/
inductive Merge : List Ev → List Bool → List Ev → List Bool → List Ev → List Bool → Prop
  | nil : Merge [] [] [] [] [] []
  | left {e x A a B b C c} (h : Merge A a B b C c) : Merge (e :: A) (x :: a) B b (e :: C) (x :: c)
  | right {e x A a B b C c} (h : Merge A a B b C c) : Merge A a (e :: B) (x :: b) (e :: C) (x :: c)

/-- The instances of the last handler are those of the two others, which have no ID in common. -/
structure United (hA hB h : Hdl) : Prop where
  left : ∀ p i, hA.find p = some i → h.find p = some i
  right : ∀ p i, hB.find p = some i → h.find p = some i
  disjoint : ∀ p, (hA.find p).isSome → (hB.find p).isSome → False

/-- The estimates of the first handler are those the second has of the same instances. -/
def Agree (dim : ℕ → ℕ) (hA h : Hdl) : Prop := Rename.SameEstimates (fun p => p) dim dim hA h

/-- Instances of different groups are reported uncorrelated. -/
def Apart (dim : ℕ → ℕ) (hA hB h : Hdl) : Prop :=
  ∀ p q t, (hA.find p).isSome → (hB.find q).isSome → Hdl.Newest h p t → Hdl.Newest h q t →
    Hdl.IsCov dim h p q t (Mat.zero (dim p) (dim q)) ∧ Hdl.IsCov dim h q p t (Mat.zero (dim q) (dim p))

end Groups
end Ikf
