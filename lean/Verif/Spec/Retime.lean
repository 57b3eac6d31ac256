import Verif.Spec.Rename

/-!
# Specification: the same calls at other times (C133)
-/

namespace Ikf
open Mat

namespace Retime

/-- The second call is the first one, at the new times. -/
inductive Retimed (φ : ℤ → ℤ) : Ev → Ev → Prop
  | propKF (id Phi Q ta tb) : Retimed φ (.propKF id Phi Q ta tb) (.propKF id Phi Q (φ ta) (φ tb))
  | propEKF (id mb Phi Q ta tb) : Retimed φ (.propEKF id mb Phi Q ta tb) (.propEKF id mb Phi Q (φ ta) (φ tb))
  | propBel (id bb Phi ta tb) : Retimed φ (.propBel id bb Phi ta tb) (.propBel id bb Phi (φ ta) (φ tb))
  | privKF (id H R z t cfg) : Retimed φ (.privKF id H R z t cfg) (.privKF id H R z (φ t) cfg)
  | privEKF (id H R r t cfg) : Retimed φ (.privEKF id H R r t cfg) (.privEKF id H R r (φ t) cfg)
  | setCov (a b S t) : Retimed φ (.setCov a b S t) (.setCov a b S (φ t))
  | jointR (dH R r t cfg) : Retimed φ (.jointR dH R r t cfg) (.jointR dH R r (φ t) cfg)
  | jointZ (dH z R t cfg) : Retimed φ (.jointZ dH z R t cfg) (.jointZ dH z R (φ t) cfg)

/-- The newest estimates are the same, but for their times. -/
structure SameButTimes (φ : ℤ → ℤ) (dim : ℕ → ℕ) (h h' : Hdl) : Prop where
  belief : ∀ p t, Hdl.Newest h p t → Hdl.Newest h' p (φ t) ∧ ∃ b b', Hdl.belief h p t = some b ∧ Hdl.belief h' p (φ t) = some b' ∧
    b'.mean = b.mean ∧ b'.Sigma = b.Sigma ∧ b'.fixed = b.fixed ∧ b.stamp = t ∧ b'.stamp = φ t
  cov : ∀ p q t, Hdl.Newest h p t → Hdl.Newest h q t → ∃ C, Hdl.IsCov dim h p q t C ∧ Hdl.IsCov dim h' p q (φ t) C

end Retime
end Ikf
