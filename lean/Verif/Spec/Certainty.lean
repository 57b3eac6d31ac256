import Verif.Spec.StandaloneMath

/-!
# Specification: comparing what two filters know (C117)
-/

namespace Ikf
namespace Certainty
open Matrix

/-- The first covariance is at most the second: the variance of every linear combination of the states is. -/
def AtMost {n : ℕ} (A B : Matrix (Fin n) (Fin n) ℝ) : Prop := (B - A).PosSemidef

/-- Wherever the second filter has an estimate, the first has one whose covariance is at most that of the second. -/
def NoWorse {n : ℕ} (f f' : Int → Option (Gauss n)) : Prop :=
  ∀ t g', f' t = some g' → ∃ g, f t = some g ∧ AtMost g.cov g'.cov

/-- The call is an observation. -/
def IsObs : KCall → Prop
  | .priv _ _ _ _ _ => True
  | .privEKF _ _ _ _ _ => True
  | _ => False

/-- Nothing is added to covariances for numerical stability. -/
def Unstabilised : KCall → Prop
  | .priv _ _ _ _ cfg => cfg.eps = 0 ∨ cfg.stab = false
  | .privEKF _ _ _ _ cfg => cfg.eps = 0 ∨ cfg.stab = false
  | _ => True

/-- The covariance is computed for the measurement noise the gain is computed for. -/
def Consistent (cfg : Cfg) : Prop := cfg.eps = 0 ∨ cfg.joseph = false

/-- A call tells an `n`-state filter at least as much as another: they agree except that noise covariances of the second may be larger and that the
measured and predicted values may differ. -/
inductive Tells (n : ℕ) : KCall → KCall → Prop
  | prop (Phi Q Q' : Mat) (ta tb : Int) (h : AtMost (Q.toM n n) (Q'.toM n n)) : Tells n (.prop Phi Q ta tb) (.prop Phi Q' ta tb)
  | propEKF (mb mb' Phi Q Q' : Mat) (ta tb : Int) (h : AtMost (Q.toM n n) (Q'.toM n n)) :
      Tells n (.propEKF mb Phi Q ta tb) (.propEKF mb' Phi Q' ta tb)
  | propBel (b b' : Belief) (Phi : Mat) (ta tb : Int) (h : AtMost (b.Sigma.toM n n) (b'.Sigma.toM n n)) :
      Tells n (.propBel b Phi ta tb) (.propBel b' Phi ta tb)
  | priv (H R R' z z' : Mat) (t : Int) (cfg : Cfg) (hz : z.rows = z'.rows) (h : AtMost (R.toM z.rows z.rows) (R'.toM z.rows z.rows))
      (hc : Consistent cfg) : Tells n (.priv H R z t cfg) (.priv H R' z' t cfg)
  | privEKF (H R R' r r' : Mat) (t : Int) (cfg : Cfg) (hz : r.rows = r'.rows) (h : AtMost (R.toM r.rows r.rows) (R'.toM r.rows r.rows))
      (hc : Consistent cfg) : Tells n (.privEKF H R r t cfg) (.privEKF H R' r' t cfg)

/-- A sequence of calls tells at least as much as another: call by call, and it may contain further observations. -/
inductive TellsAll (n : ℕ) : List KCall → List KCall → Prop
  | nil : TellsAll n [] []
  | cons {c c' cs cs'} (h : Tells n c c') (r : TellsAll n cs cs') : TellsAll n (c :: cs) (c' :: cs')
  | extra {c cs cs'} (h : IsObs c) (r : TellsAll n cs cs') : TellsAll n (c :: cs) cs'

/-! With regularisation -/

/-- Wherever the second filter has an estimate, the first has one whose covariance is at most `κ` times that of the second. -/
def NoWorseBy {n : ℕ} (κ : ℝ) (f f' : Int → Option (Gauss n)) : Prop :=
  ∀ t g', f' t = some g' → ∃ g, f t = some g ∧ AtMost g.cov (κ • g'.cov)

/-- As `Tells`, for any configuration: the `ε` added for numerical stability is at most the fraction `δ` of the measurement noise. -/
inductive TellsReg (n : ℕ) (δ : ℝ) : KCall → KCall → Prop
  | prop (Phi Q Q' : Mat) (ta tb : Int) (h : AtMost (Q.toM n n) (Q'.toM n n)) : TellsReg n δ (.prop Phi Q ta tb) (.prop Phi Q' ta tb)
  | propEKF (mb mb' Phi Q Q' : Mat) (ta tb : Int) (h : AtMost (Q.toM n n) (Q'.toM n n)) :
      TellsReg n δ (.propEKF mb Phi Q ta tb) (.propEKF mb' Phi Q' ta tb)
  | propBel (b b' : Belief) (Phi : Mat) (ta tb : Int) (h : AtMost (b.Sigma.toM n n) (b'.Sigma.toM n n)) :
      TellsReg n δ (.propBel b Phi ta tb) (.propBel b' Phi ta tb)
  | priv (H R R' z z' : Mat) (t : Int) (cfg : Cfg) (hz : z.rows = z'.rows) (h : AtMost (R.toM z.rows z.rows) (R'.toM z.rows z.rows))
      (hc : AtMost (cfg.eps • 1) (δ • R'.toM z.rows z.rows)) : TellsReg n δ (.priv H R z t cfg) (.priv H R' z' t cfg)
  | privEKF (H R R' r r' : Mat) (t : Int) (cfg : Cfg) (hz : r.rows = r'.rows) (h : AtMost (R.toM r.rows r.rows) (R'.toM r.rows r.rows))
      (hc : AtMost (cfg.eps • 1) (δ • R'.toM r.rows r.rows)) : TellsReg n δ (.privEKF H R r t cfg) (.privEKF H R' r' t cfg)

/-- The number of observations among the calls. -/
def observations : List KCall → ℕ
  | [] => 0
  | .priv _ _ _ _ _ :: r => observations r + 1
  | .privEKF _ _ _ _ _ :: r => observations r + 1
  | _ :: r => observations r

end Certainty
end Ikf
