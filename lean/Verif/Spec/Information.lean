import Verif.Spec.Simultaneous

/-!
# Specification: the information of observations (C139)
-/

namespace Ikf
namespace Simultaneous
open Matrix

/-- The information an observation gives about `n` states: with the noise `N` (the measurement noise, regularised), `Hᵀ N⁻¹ H`. -/
noncomputable def Obs.info (n : ℕ) (o : Obs) : Matrix (Fin n) (Fin n) ℝ :=
  (o.H.toM o.m n)ᵀ * (o.R.toM o.m o.m + o.cfg.eps • 1)⁻¹ * o.H.toM o.m n

/-- What it says, weighted by its information: `Hᵀ N⁻¹ z`. -/
noncomputable def Obs.weighted (n : ℕ) (o : Obs) : Matrix (Fin n) (Fin 1) ℝ :=
  (o.H.toM o.m n)ᵀ * (o.R.toM o.m o.m + o.cfg.eps • 1)⁻¹ * o.z.toM o.m 1

/-- Both lists give the same information in total. -/
def SameInfo (n : ℕ) (os os' : List Obs) : Prop :=
  (os.map (Obs.info n)).sum = (os'.map (Obs.info n)).sum ∧ (os.map (Obs.weighted n)).sum = (os'.map (Obs.weighted n)).sum

/-- The observations of the instance `p` in a list of observations of instances. -/
def ofInst (p : ℕ) (l : List (ℕ × Obs)) : List Obs := (l.filter fun x => x.1 = p).map (·.2)

/-- `o` is the average of the measurements `os` of one quantity with equal, independent noise: the mean of the values, with the noise divided by their
number. -/
structure Averages (o : Obs) (os : List Obs) : Prop where
  some : os ≠ []
  same : ∀ x ∈ os, x.m = o.m ∧ x.H = o.H ∧ x.cfg.eps = 0 ∧ o.R.toM o.m o.m = (os.length : ℝ)⁻¹ • x.R.toM o.m o.m
  eps : o.cfg.eps = 0
  mean : o.z.toM o.m 1 = (os.length : ℝ)⁻¹ • (os.map fun x => x.z.toM o.m 1).sum

end Simultaneous
end Ikf
