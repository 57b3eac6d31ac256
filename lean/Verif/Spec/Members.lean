import Verif.Spec.Commute
import Verif.Model.Members
import Verif.Model.Correlated

/-!
# Specification: instances that join and leave (C138)
-/

namespace Ikf
open Mat

namespace Members

/-- What the user does. -/
inductive Op where
  | call (ev : Ev)
  /-- an instance is initialised with the belief `b` at `t` and added under the ID `p` -/
  | join (p : ℕ) (b : Belief) (t : ℤ)
  /-- the instance is removed -/
  | leave (p : ℕ)

/-- The centralised filter gets a further, uncorrelated state. -/
def joined (dim : ℕ → ℕ) (c : Central) (p : ℕ) (b : Belief) (t : ℤ) : Central where
  tm a := if a = p then t else c.tm a
  mu a := if a = p then b.mean else c.mu a
  fix a := if a = p then b.fixed else c.fix a
  cov a d := if a = p ∧ d = p then b.Sigma else if a = p ∨ d = p then Mat.zero (dim a) (dim d) else c.cov a d

/-- The centralised filter with changing membership: a state that leaves is marginalised out, which changes nothing for the others. -/
inductive SpecLife (dim : ℕ → ℕ) (near : Mat → Mat) : Central → List (Op × Bool) → Central → Prop
  | nil (c) : SpecLife dim near c [] c
  | accept {c c1 c2 ev l} (h : SpecStep dim near c ev c1) (r : SpecLife dim near c1 l c2) : SpecLife dim near c ((.call ev, true) :: l) c2
  | reject {c c2 ev l} (r : SpecLife dim near c l c2) : SpecLife dim near c ((.call ev, false) :: l) c2
  | join {c c2 p b t l} (r : SpecLife dim near (joined dim c p b t) l c2) : SpecLife dim near c ((.join p b t, true) :: l) c2
  | leave {c c2 p l} (r : SpecLife dim near c l c2) : SpecLife dim near c ((.leave p, true) :: l) c2

/-- A belief of an instance of dimension `n` at `t`. -/
structure Fresh (n : ℕ) (b : Belief) (t : ℤ) : Prop where
  pos : 0 < n
  stamp : b.stamp = t
  mean : b.mean.Shape n 1
  cov : b.Sigma.Shape n n
  symm : b.Sigma.tr = b.Sigma

/-- No instance lists `p` among those it is correlated with: the ID is new. -/
def New (h : Hdl) (p : ℕ) : Prop := ∀ q i, h.find q = some i → p ∉ i.correlated

/-- In-order calls, joins under new IDs, and leaves, with their answers. -/
inductive Life (fp : FP) (near : Mat → Mat) (pred : ℕ → Inst → Int → Inst × Bool) (dim : ℕ → ℕ) (hor : ℚ) : Hdl → List (Op × Bool) → Hdl → Prop
  | nil (h) : Life fp near pred dim hor h [] h
  | call {h h1 h2 ev a l} (hw : Hdl.Wf dim h ev) (hs : Hdl.run fp near pred h ev = .ok (h1, a)) (r : Life fp near pred dim hor h1 l h2) :
      Life fp near pred dim hor h ((.call ev, a) :: l) h2
  | join {h h2 p b t l} (hb : Fresh (dim p) b t) (hn : New h p) (ha : (h.find p).isSome = false)
      (r : Life fp near pred dim hor (Hdl.addInst hor h p (Inst.doInit ⟨[], [], 0⟩ b t)).1 l h2) :
      Life fp near pred dim hor h ((.join p b t, (Hdl.addInst hor h p (Inst.doInit ⟨[], [], 0⟩ b t)).2) :: l) h2
  | leave {h h2 p l} (hp : (h.find p).isSome) (r : Life fp near pred dim hor (Hdl.removeInst h p).1 l h2) :
      Life fp near pred dim hor h ((.leave p, (Hdl.removeInst h p).2) :: l) h2

end Members
end Ikf
