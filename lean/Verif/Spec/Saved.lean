import Verif.Spec.Commute

/-!
# Specification: saving the estimates of a handler and restoring them in a fresh one (C137)
-/

namespace Ikf
open Mat

namespace Saved

/-- The cross-covariances saved at `t`: each entry is what is read for two different instances, and the covariance of two instances
without an entry is zero. -/
structure Covs (dim : ℕ → ℕ) (h : Hdl) (t : ℤ) (l : List (ℕ × ℕ × Mat)) : Prop where
  read : ∀ e ∈ l, e.1 ≠ e.2.1 ∧ (h.find e.1).isSome ∧ (h.find e.2.1).isSome ∧ Hdl.IsCov dim h e.1 e.2.1 t e.2.2
  all : ∀ p q, p ≠ q → (h.find p).isSome → (h.find q).isSome →
    (∃ S, (p, q, S) ∈ l ∨ (q, p, S) ∈ l) ∨ Hdl.IsCov dim h p q t (Mat.zero (dim p) (dim q))

/-- Writing the saved cross-covariances. -/
def writes (t : ℤ) (l : List (ℕ × ℕ × Mat)) : List Ev := l.map fun e => .setCov e.1 e.2.1 e.2.2 t

/-- The fresh handler has the same instances, with the same beliefs at `t`. -/
structure Beliefs (h h' : Hdl) (t : ℤ) : Prop where
  dom : ∀ p, (h'.find p).isSome = (h.find p).isSome
  same : ∀ p, (h.find p).isSome → Hdl.Newest h' p t ∧ ∃ b b', Hdl.belief h p t = some b ∧ Hdl.belief h' p t = some b' ∧
    b'.mean = b.mean ∧ b'.Sigma = b.Sigma ∧ b'.fixed = b.fixed

end Saved
end Ikf
