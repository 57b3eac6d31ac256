import Verif.Spec.Team
import Verif.Lemmas.SMap
import Mathlib.MeasureTheory.Function.L2Space

/-!
# Specification: isolated filters that observe a team of linear systems with random noise (C116)

The true states of the instances, the noises and hence the measurements and the estimates are random variables over a probability space `Ω`.
-/

namespace Ikf
namespace Honest
open MeasureTheory

/-- A random vector; only the first components, as many as its size says, count. -/
abbrev RVec (Ω : Type) := Ω → ℕ → ℝ

variable {Ω : Type} [MeasurableSpace Ω]

/-- All components of the random vector `w` of size `n` have a finite second moment, and no linear combination of them has a larger one than `Q` says. -/
def AtMost (P : Measure Ω) (n : ℕ) (w : RVec Ω) (Q : Mat) : Prop :=
  (∀ i < n, MemLp (fun ω => w ω i) 2 P) ∧
    ∀ y : ℕ → ℝ, ∫ ω, (∑ i ∈ Finset.range n, y i * w ω i) ^ 2 ∂P ≤ bil Q n n y y

/-- One step: instance `id` moves on from `ta` to `tb` with transition matrix `F` and random disturbance `w`, or is measured on its own, or several instances
are measured together (`dH`: measurement matrix of each), with random error `v`. -/
inductive NStp (Ω : Type) where
  | move (id : ℕ) (F Q : Mat) (ta tb : Int) (w : RVec Ω)
  | priv (id : ℕ) (H R : Mat) (t : Int) (cfg : Cfg) (v : RVec Ω)
  | joint (dH : SMap Mat) (R : Mat) (t : Int) (cfg : Cfg) (v : RVec Ω)

/-- `H x` for one instance with `n` states, component `i`. -/
def app (H : Mat) (n : ℕ) (x : ℕ → ℝ) (i : ℕ) : ℝ := ∑ k ∈ Finset.range n, H.e i k * x k

namespace NStp

/-- The true states after the step; `x p` is the state of instance `p`. -/
def truth (dim : ℕ → ℕ) : NStp Ω → (ℕ → RVec Ω) → ℕ → RVec Ω
  | .move id F _ _ _ w, x => fun p => if p = id then fun ω i => app F (dim id) (x id ω) i + w ω i else x p
  | _, x => x

/-- The call: `apply_propagation` or `apply_private_observation` of the instance, or `apply_observation` of the handler, with measurement `z = H x + v`. -/
noncomputable def call (dim : ℕ → ℕ) : NStp Ω → (ℕ → RVec Ω) → Ω → Ev
  | .move id F Q ta tb _, _, _ => .propKF id F Q ta tb
  | .priv id H R t cfg v, x, ω => .privKF id H R (Mat.of R.rows 1 fun i _ => app H (dim id) (x id ω) i + v ω i) t cfg
  | .joint dH R t cfg v, x, ω => .jointZ dH (Mat.of R.rows 1 fun i _ => (dH.map fun e => app e.2 (dim e.1) (x e.1 ω) i).sum + v ω i) R t cfg

/-- The noise of the step with its size. -/
def noise (dim : ℕ → ℕ) : NStp Ω → ℕ × RVec Ω
  | .move id _ _ _ _ w => (dim id, w)
  | .priv _ _ R _ _ v => (R.rows, v)
  | .joint _ R _ _ v => (R.rows, v)

/-- The step is one of the instances `ids`, joint measurements are of all instances of one group (`grp`), and the noise is at most what the filters are told. -/
def Valid (P : Measure Ω) (dim grp : ℕ → ℕ) (ids : Finset ℕ) : NStp Ω → Prop
  | .move id _ Q _ _ w => id ∈ ids ∧ IsCovMat Q ∧ AtMost P (dim id) w Q
  | .priv id _ R _ cfg v => id ∈ ids ∧ NoiseOk R cfg ∧ AtMost P R.rows v R
  | .joint dH R _ cfg v => dH ≠ [] ∧ (∀ e ∈ dH, e.2.cols = dim e.1) ∧ (∃ g, ∀ p, p ∈ dH.keys ↔ p ∈ ids ∧ grp p = g) ∧ NoiseOk R cfg ∧ AtMost P R.rows v R

/-- The same whatever instances are measured together. -/
def Told (P : Measure Ω) (dim : ℕ → ℕ) (ids : Finset ℕ) : NStp Ω → Prop
  | .move id _ Q _ _ w => id ∈ ids ∧ IsCovMat Q ∧ AtMost P (dim id) w Q
  | .priv id _ R _ cfg v => id ∈ ids ∧ NoiseOk R cfg ∧ AtMost P R.rows v R
  | .joint dH R _ cfg v => dH ≠ [] ∧ (∀ e ∈ dH, e.2.cols = dim e.1) ∧ (∀ p ∈ dH.keys, p ∈ ids) ∧ NoiseOk R cfg ∧ AtMost P R.rows v R

end NStp

/-- The true states at the end. -/
def teamTruth (dim : ℕ → ℕ) : List (NStp Ω) → (ℕ → RVec Ω) → ℕ → RVec Ω
  | [], x => x
  | s :: r, x => teamTruth dim r (s.truth dim x)

/-- The calls if chance is `ω`. -/
noncomputable def teamScript (dim : ℕ → ℕ) : List (NStp Ω) → (ℕ → RVec Ω) → Ω → List Ev
  | [], _, _ => []
  | s :: r, x, ω => s.call dim x ω :: teamScript dim r (s.truth dim x) ω

/-- The matrices have the right sizes, propagation goes forward, and the outlier gate is off. -/
def NStp.Fit (dim : ℕ → ℕ) : NStp Ω → Prop
  | .move id F Q ta tb _ => F.Shape (dim id) (dim id) ∧ Q.Shape (dim id) (dim id) ∧ ta < tb
  | .priv id H R _ cfg _ => H.cols = dim id ∧ R.Shape H.rows H.rows ∧ cfg.outlier = false
  | .joint dH R _ cfg _ => dH.Sorted ∧ (∀ e ∈ dH, e.2.rows = R.rows) ∧ cfg.outlier = false

/-- Every step is at the time `tm` of the newest estimate of the instances it is about. -/
def Timed : List (NStp Ω) → (ℕ → Int) → Prop
  | [], _ => True
  | .move id _ _ ta tb _ :: r, tm => tm id = ta ∧ Timed r (Function.update tm id tb)
  | .priv id _ _ t _ _ :: r, tm => tm id = t ∧ Timed r tm
  | .joint dH _ t _ _ :: r, tm => (∀ p ∈ dH.keys, tm p = t) ∧ Timed r tm

/-- The times of the newest estimates at the end. -/
def endTm : List (NStp Ω) → (ℕ → Int) → ℕ → Int
  | [], tm => tm
  | .move id _ _ _ tb _ :: r, tm => endTm r (Function.update tm id tb)
  | _ :: r, tm => endTm r tm

/-- Two random vectors with their sizes are uncorrelated. -/
def Uncorr (P : Measure Ω) (a b : ℕ × RVec Ω) : Prop := ∀ i < a.1, ∀ j < b.1, ∫ ω, a.2 ω i * b.2 ω j ∂P = 0

/-- The mean squared value of the combination `y` of the random vectors `e p`, `p ∈ ids`. -/
noncomputable def meanSq (P : Measure Ω) (dim : ℕ → ℕ) (ids : Finset ℕ) (y : ℕ → ℕ → ℝ) (e : ℕ → RVec Ω) : ℝ :=
  ∫ ω, (∑ p ∈ ids, ∑ i ∈ Finset.range (dim p), y p i * e p ω i) ^ 2 ∂P

/-- No linear combination of the errors `e p` of the instances `ids` has a larger mean square than the covariances `C` say. -/
def Covers (P : Measure Ω) (dim : ℕ → ℕ) (ids : Finset ℕ) (C : ℕ → ℕ → Mat) (e : ℕ → RVec Ω) : Prop :=
  (∀ p ∈ ids, ∀ i < dim p, MemLp (fun ω => e p ω i) 2 P) ∧
    ∀ y : ℕ → ℕ → ℝ, meanSq P dim ids y e ≤ ∑ p ∈ ids, ∑ q ∈ ids, bil (C p q) (dim p) (dim q) (y p) (y q)

end Honest
end Ikf
