import Verif.Spec.Central

/-!
# Specification: who may know something of whom, and who was last measured together (C106, C116)
-/

namespace Ikf

/-- What a user has to remember: which instances may know something of each other (directly or through others), and which were last measured together. -/
structure Contact where
  linked : ℕ → ℕ → Prop
  together : ℕ → ℕ → Prop

namespace Contact

/-- After a joint measurement of `D`, whatever was linked to a member of `D` is linked to everything that was linked to a member of `D`; the members of `D` were
last measured together, and no longer with anybody else. -/
def meet (k : Contact) (D : List ℕ) : Contact where
  linked p q := k.linked p q ∨ (∃ d ∈ D, k.linked p d) ∧ ∃ d ∈ D, k.linked d q
  together p q := (p ∈ D ∧ q ∈ D) ∨ (p ∉ D ∧ q ∉ D ∧ k.together p q)

/-- If the two may know something of each other, they were last measured together. -/
def Clean (k : Contact) (p q : ℕ) : Prop := k.linked p q → k.together p q

/-- At the start the instances of one group know something of each other, and count as last measured together. -/
def groups (grp : ℕ → ℕ) : Contact := ⟨fun p q => grp p = grp q, fun p q => grp p = grp q⟩

/-- The contacts after a call that was accepted (`true`) or refused. -/
def after (k : Contact) : Ev × Bool → Contact
  | (.jointR dH _ _ _ _, true) => k.meet dH.keys
  | (.jointZ dH _ _ _ _, true) => k.meet dH.keys
  | _ => k

end Contact
end Ikf
