import Verif.Spec.Covariance

/-!
# The covariances of several instances taken together (C106)
-/

namespace Ikf

/-- `∑ u_i C_ij v_j` over the first `n` rows and `m` columns: the covariance of two linear combinations of states. -/
def bil (C : Mat) (n m : ℕ) (u v : ℕ → ℝ) : ℝ := ∑ i ∈ Finset.range n, ∑ j ∈ Finset.range m, u i * C.e i j * v j

/-- The covariances `C p q` of the instances `ids` (with `dim p` states each), taken together, are a covariance: no linear
combination `x` of the states of all of them has a negative variance. -/
def TeamCov (dim : ℕ → ℕ) (ids : Finset ℕ) (C : ℕ → ℕ → Mat) : Prop :=
  ∀ x : ℕ → ℕ → ℝ, 0 ≤ ∑ p ∈ ids, ∑ q ∈ ids, bil (C p q) (dim p) (dim q) (x p) (x q)

end Ikf
