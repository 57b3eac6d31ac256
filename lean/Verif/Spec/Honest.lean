import Verif.Spec.StandaloneMath
import Mathlib.Probability.Independence.Integration
import Mathlib.MeasureTheory.Function.L2Space

/-!
# Specification: a filter that observes a linear system with random noise (C115)

The true state, the noises and hence the measurements and the estimates are random variables over a probability space `Ω`; the second
moments of the noises are bounded by the matrices `Q` and `R` the user passes to the filter.
-/

namespace Ikf
namespace Honest
open MeasureTheory Matrix

/-- Vectors of `k` numbers. -/
abbrev Vec (k : ℕ) := Matrix (Fin k) (Fin 1) ℝ

variable {Ω : Type} [MeasurableSpace Ω] {n k l : ℕ}

/-- All components of the random vector `X` have a finite second moment. -/
def L2 (P : Measure Ω) (X : Ω → Vec k) : Prop := ∀ i, MemLp (fun ω => X ω i 0) 2 P

/-- The matrix of the second moments `E[X Yᵀ]`. -/
noncomputable def mom (P : Measure Ω) (X : Ω → Vec k) (Y : Ω → Vec l) : Matrix (Fin k) (Fin l) ℝ :=
  Matrix.of fun i j => ∫ ω, X ω i 0 * Y ω j 0 ∂P

/-- One step of the system with `n` states: it moves on to time `tb` with transition matrix `F` and random disturbance `w`, told to the filter as process
noise covariance `Q`; or its state is measured with measurement matrix `H` and random error `v`, told to the filter as noise covariance `R`. -/
inductive Stp (Ω : Type) (n : ℕ) where
  | move (F Q : Mat) (tb : Int) (w : Ω → Vec n)
  | meas (m : ℕ) (H R : Mat) (cfg : Cfg) (v : Ω → Vec m)

namespace Stp

/-- The true state after the step. -/
noncomputable def truth : Stp Ω n → (Ω → Vec n) → Ω → Vec n
  | .move F _ _ w, x => fun ω => F.toM n n * x ω + w ω
  | .meas _ _ _ _ _, x => x

/-- The time after the step. -/
def time : Stp Ω n → Int → Int
  | .move _ _ tb _, _ => tb
  | .meas _ _ _ _ _, t => t

/-- The call of the filter: `apply_propagation(F, Q, t, tb)` or `apply_private_observation(H, R, z, t, cfg)` with the measurement `z = H x + v`. -/
noncomputable def call : Stp Ω n → Int → (Ω → Vec n) → Ω → KCall
  | .move F Q tb _, t, _, _ => .prop F Q t tb
  | .meas m H R cfg v, t, x, ω => .priv H R (Mat.ofM (H.toM m n * x ω + v ω)) t cfg

/-- The noise of the step. -/
def noise : Stp Ω n → (j : ℕ) × (Ω → Vec j)
  | .move _ _ _ w => ⟨n, w⟩
  | .meas m _ _ _ v => ⟨m, v⟩

/-- The numbers the filter gets to see in the step. -/
def data : Stp Ω n → (Ω → Vec n) → Set (Ω → ℝ)
  | .move _ _ _ _, _ => ∅
  | .meas m H _ _ v, x => Set.range fun (i : Fin m) ω => (H.toM m n * x ω + v ω) i 0

/-- The matrices have the right sizes, the outlier gate is off, and the noise is at most what the filter is told. -/
def Valid (P : Measure Ω) : Stp Ω n → Prop
  | .move F Q _ w => (F.rows = n ∧ F.cols = n) ∧ (Q.rows = n ∧ Q.cols = n) ∧ L2 P w ∧ (Q.toM n n - mom P w w).PosSemidef
  | .meas m H R cfg v => (H.rows = m ∧ H.cols = n) ∧ (R.rows = m ∧ R.cols = m) ∧ cfg.outlier = false ∧ 0 ≤ cfg.eps ∧
      (R.toM m m + cfg.eps • 1).PosDef ∧ L2 P v ∧ (R.toM m m - mom P v v).PosSemidef

/-- The noise is exactly what the filter is told, has mean zero, and nothing is added for numerical stability. -/
def Exact (P : Measure Ω) : Stp Ω n → Prop
  | .move _ Q _ w => Q.toM n n = mom P w w ∧ ∀ i, ∫ ω, w ω i 0 ∂P = 0
  | .meas m _ R cfg v => cfg.eps = 0 ∧ R.toM m m = mom P v v ∧ ∀ i, ∫ ω, v ω i 0 ∂P = 0

end Stp

/-- The true state at the end. -/
noncomputable def truth : List (Stp Ω n) → (Ω → Vec n) → Ω → Vec n
  | [], x => x
  | s :: r, x => truth r (s.truth x)

/-- The time at the end. -/
def time : List (Stp Ω n) → Int → Int
  | [], t => t
  | s :: r, t => time r (s.time t)

/-- The calls the filter gets if chance is `ω`. -/
noncomputable def script : List (Stp Ω n) → Int → (Ω → Vec n) → Ω → List KCall
  | [], _, _, _ => []
  | s :: r, t, x, ω => s.call t x ω :: script r (s.time t) (s.truth x) ω

/-- All numbers the filter gets to see, and the number 1. -/
noncomputable def data : List (Stp Ω n) → (Ω → Vec n) → Set (Ω → ℝ)
  | [], _ => {fun _ => 1}
  | s :: r, x => s.data x ∪ data r (s.truth x)

/-- The noises are uncorrelated with each other and with the error of the first estimate. -/
def Uncorrelated (P : Measure Ω) (e : Ω → Vec n) (l : List (Stp Ω n)) : Prop :=
  (⟨n, e⟩ :: l.map Stp.noise : List ((j : ℕ) × (Ω → Vec j))).Pairwise fun a b => mom P a.2 b.2 = 0

end Honest
end Ikf
