import Verif.Spec.Std
import Verif.Spec.Team

/-!
# Filters without buffers that are observed jointly in fixed pairs (C106)

`mate` assigns each filter its partner. The factor of a private update makes the set of covariances lose a margin of the size
of the filters' stabilisation constant, 1e-16; a propagation with process noise or a joint update gives it back. `fresh p`
says that filter `p` has this margin.
-/

namespace Ikf
namespace StdTeam

/-- The constant added to every posterior covariance. -/
noncomputable def margin : ℝ := 1 / 10^16

/-- `Q` is at least `margin` times the identity of size `n`. -/
def AtLeast (n : ℕ) (Q : Mat) : Prop := ∀ x : ℕ → ℝ, margin * ∑ i ∈ Finset.range n, x i * x i ≤ bil Q n n x x

/-- What is asked of the calls. -/
def Allowed (mate : ℕ → ℕ) (fresh : ℕ → Prop) : StdEv → Prop
  | .prop _ _ Q _ => IsCovMat Q
  | .propU _ _ Q _ _ _ var => IsCovMat Q ∧ IsCovMat var
  | .priv id _ R _ => fresh id ∧ IsCovMat R
  | .joint _ I J _ _ R _ => mate I = J ∧ mate J = I ∧ IsCovMat R

/-- Who has a margin after an accepted call. -/
def after (dim : ℕ → ℕ) (fresh : ℕ → Prop) : StdEv → ℕ → Prop
  | .prop id _ Q _, p => if p = id then AtLeast (dim id) Q else fresh p
  | .propU id _ Q _ _ _ _, p => if p = id then AtLeast (dim id) Q else fresh p
  | .priv id _ _ _, p => if p = id then False else fresh p
  | .joint _ I J _ _ _ _, p => if p = I ∨ p = J then True else fresh p

/-- The calls with their answers: each is allowed where it is made. -/
inductive Paced (dim : ℕ → ℕ) (mate : ℕ → ℕ) : (ℕ → Prop) → List (StdEv × Bool) → (ℕ → Prop) → Prop
  | nil (fresh) : Paced dim mate fresh [] fresh
  | accept {fresh fresh' ev l} (ok : Allowed mate fresh ev) (r : Paced dim mate (after dim fresh ev) l fresh') : Paced dim mate fresh ((ev, true) :: l) fresh'
  | reject {fresh fresh' ev l} (r : Paced dim mate fresh l fresh') : Paced dim mate fresh ((ev, false) :: l) fresh'

end StdTeam
end Ikf
