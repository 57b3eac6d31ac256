import Verif.Model.StandaloneMath
import Mathlib.LinearAlgebra.Matrix.PosDef
import Mathlib.LinearAlgebra.Matrix.NonsingularInverse

/-!
# Specification: the textbook Kalman filter with a history
-/

namespace Ikf
open Matrix

/-- A Gaussian over `n` states. -/
@[ext] structure Gauss (n : ℕ) where
  mean : Matrix (Fin n) (Fin 1) ℝ
  cov : Matrix (Fin n) (Fin n) ℝ

namespace Gauss
variable {n m : ℕ}

/-- Prediction with transition matrix `F` and process noise `Q`. -/
def predict (g : Gauss n) (F Q : Matrix (Fin n) (Fin n) ℝ) : Gauss n := ⟨F * g.mean, F * g.cov * Fᵀ + Q⟩

/-- Kalman gain for measurement matrix `H` and measurement noise `R`. -/
noncomputable def gain (g : Gauss n) (H : Matrix (Fin m) (Fin n) ℝ) (R : Matrix (Fin m) (Fin m) ℝ) : Matrix (Fin n) (Fin m) ℝ :=
  g.cov * Hᵀ * (H * g.cov * Hᵀ + R)⁻¹

/-- Update with the residual `r`. -/
noncomputable def updateR (g : Gauss n) (H : Matrix (Fin m) (Fin n) ℝ) (R : Matrix (Fin m) (Fin m) ℝ)
    (r : Matrix (Fin m) (Fin 1) ℝ) : Gauss n :=
  ⟨g.mean + g.gain H R * r, (1 - g.gain H R * H) * g.cov⟩

/-- Update with the measurement `z`. -/
noncomputable def update (g : Gauss n) (H : Matrix (Fin m) (Fin n) ℝ) (R : Matrix (Fin m) (Fin m) ℝ)
    (z : Matrix (Fin m) (Fin 1) ℝ) : Gauss n := g.updateR H R (z - H * g.mean)

/-- The regularised update: the measurement noise is `R + ε I`; the Joseph form subtracts `ε K Kᵀ` (it counts the noise
as `R`), stabilisation adds `ε I`. For `ε = 0` it is the textbook update. -/
noncomputable def updateReg (g : Gauss n) (H : Matrix (Fin m) (Fin n) ℝ) (R : Matrix (Fin m) (Fin m) ℝ)
    (r : Matrix (Fin m) (Fin 1) ℝ) (ε : ℝ) (joseph stab : Bool) : Gauss n :=
  let u := g.updateR H (R + ε • 1) r
  let K := g.gain H (R + ε • 1)
  ⟨u.mean, u.cov - (if joseph then ε • (K * Kᵀ) else 0) + (if stab then ε • 1 else 0)⟩

end Gauss

/-- The calls a filter makes on its base class. -/
inductive KCall where
  /-- `apply_propagation(Phi, Q, t_a, t_b)` -/
  | prop (Phi Q : Mat) (ta tb : Int)
  /-- `apply_propagation(bel_a, mean_b, Phi, Q, t_a, t_b)` with the belief stored at `t_a` -/
  | propEKF (mb Phi Q : Mat) (ta tb : Int)
  /-- `apply_propagation(bel_b, Phi, t_a, t_b)` -/
  | propBel (bb : Belief) (Phi : Mat) (ta tb : Int)
  /-- `apply_private_observation(H, R, z, t, cfg)` -/
  | priv (H R z : Mat) (t : Int) (cfg : Cfg)
  /-- `apply_private_observation(bel, H, R, r, cfg)` with the belief stored at `t` -/
  | privEKF (H R r : Mat) (t : Int) (cfg : Cfg)
  /-- `correct_belief_at_t(dx, Sigma, t)` -/
  | correct (dx S : Mat) (t : Int)

namespace SKF

/-- A call on the belief history. -/
noncomputable def call (h : Buf Belief) : KCall → Res (Buf Belief × Bool)
  | .prop Phi Q ta tb => propKF h Phi Q ta tb
  | .propEKF mb Phi Q ta tb => do
    let b ← deref (beliefAt h ta)
    propEKF h b mb Phi Q tb
  | .propBel bb Phi _ tb => propBel h bb Phi tb
  | .priv H R z t cfg => privKF h H R z t cfg
  | .privEKF H R r t cfg => do
    let b ← deref (beliefAt h t)
    privEKF h b t H R r cfg
  | .correct dx S t => correctBeliefAt h dx S t

/-- A sequence of calls: final history and the answers. -/
noncomputable def calls (h : Buf Belief) : List KCall → Res (Buf Belief × List Bool)
  | [] => .ok (h, [])
  | c :: cs => do
    let x ← call h c
    let y ← calls x.1 cs
    .ok (y.1, x.2 :: y.2)

end SKF

/-- What an accepted call does to the estimates `f : time ↦ Gaussian`. -/
inductive TextStep {n : ℕ} (f : Int → Option (Gauss n)) : KCall → (Int → Option (Gauss n)) → Prop
  | prop (Phi Q ta tb g) (h : f ta = some g) :
      TextStep f (.prop Phi Q ta tb) (Function.update f tb (some (g.predict (Phi.toM n n) (Q.toM n n))))
  | propEKF (mb Phi Q ta tb g) (h : f ta = some g) :
      TextStep f (.propEKF mb Phi Q ta tb)
        (Function.update f tb (some ⟨mb.toM n 1, (g.predict (Phi.toM n n) (Q.toM n n)).cov⟩))
  | propBel (bb : Belief) (Phi : Mat) (ta tb : Int) :
      TextStep f (.propBel bb Phi ta tb) (Function.update f tb (some ⟨bb.mean.toM n 1, bb.Sigma.toM n n⟩))
  | priv (H R z t) (cfg : Cfg) (g) (h : f t = some g) :
      TextStep f (.priv H R z t cfg) (Function.update f t (some
        (g.updateReg (H.toM z.rows n) (R.toM z.rows z.rows) (z.toM z.rows 1 - H.toM z.rows n * g.mean) cfg.eps cfg.joseph cfg.stab)))
  | privEKF (H R r t) (cfg : Cfg) (g) (h : f t = some g) :
      TextStep f (.privEKF H R r t cfg) (Function.update f t (some
        (g.updateReg (H.toM r.rows n) (R.toM r.rows r.rows) (r.toM r.rows 1) cfg.eps cfg.joseph cfg.stab)))
  | correct (dx S t g) (h : f t = some g) :
      TextStep f (.correct dx S t) (Function.update f t (some ⟨g.mean + dx.toM n 1, S.toM n n⟩))

/-- A sequence of calls with their answers: refused ones change nothing. -/
inductive TextRun {n : ℕ} : (Int → Option (Gauss n)) → List KCall → List Bool → (Int → Option (Gauss n)) → Prop
  | nil (f) : TextRun f [] [] f
  | accept {f f1 f2 c cs as} (h : TextStep f c f1) (r : TextRun f1 cs as f2) : TextRun f (c :: cs) (true :: as) f2
  | refuse {f f2 c cs as} (r : TextRun f cs as f2) : TextRun f (c :: cs) (false :: as) f2

/-- The calls a user of an `n`-state filter is meant to make: covariances and noises symmetric positive semidefinite
(the regularised measurement noise definite); stored and corrected beliefs with `n` states. Transition and
measurement matrices are arbitrary: misfits are refused. -/
def KCall.Fits (n : ℕ) : KCall → Prop
  | .prop _ Q _ _ => (Q.toM n n).PosSemidef
  | .propEKF _ _ Q _ _ => (Q.toM n n).PosSemidef
  | .propBel bb _ _ _ => (bb.mean.rows = n ∧ bb.mean.cols = 1) ∧ (bb.Sigma.rows = n ∧ bb.Sigma.cols = n) ∧ (bb.Sigma.toM n n).PosSemidef
  | .priv _ R z _ cfg => 0 ≤ cfg.eps ∧ (R.toM z.rows z.rows).PosSemidef ∧ (R.toM z.rows z.rows + cfg.eps • 1).PosDef
  | .privEKF _ R r _ cfg => 0 ≤ cfg.eps ∧ (R.toM r.rows r.rows).PosSemidef ∧ (R.toM r.rows r.rows + cfg.eps • 1).PosDef
  | .correct dx S _ => (dx.rows = n ∧ dx.cols = 1) ∧ (S.rows = n ∧ S.cols = n) ∧ (S.toM n n).PosSemidef

/-- The estimates stored in a history. -/
def SKF.estimates (n : ℕ) (h : Buf Belief) (t : Int) : Option (Gauss n) :=
  (SKF.beliefAt h t).map (fun b => ⟨b.mean.toM n 1, b.Sigma.toM n n⟩)

end Ikf
