import Verif.Model.Decoupled
import Verif.Model.DciHandler
import Verif.Spec.Central
import Verif.Spec.Std

/-!
# What a covariance is, and the calls of a user who may come at any time and in any order (C104)
-/

namespace Ikf

/-- A covariance matrix: square, symmetric, and no linear combination of the states has a negative variance. -/
def IsCovMat (P : Mat) : Prop :=
  P.rows = P.cols ∧ (∀ i j, P.e i j = P.e j i) ∧
    ∀ x : ℕ → ℝ, 0 ≤ ∑ i ∈ Finset.range P.rows, ∑ j ∈ Finset.range P.rows, x i * P.e i j * x j

/-- All beliefs an instance stores have a covariance matrix. -/
def Inst.Covs (i : Inst) : Prop := ∀ e ∈ i.bel, IsCovMat e.2.Sigma

/-- ... in all instances of a handler. -/
def Hdl.Covs (h : Hdl) : Prop := ∀ x ∈ h, x.2.Covs

/-- A measurement noise covariance for which the innovation covariance is invertible whatever the prior is. -/
def NoiseOk (R : Mat) (cfg : Cfg) : Prop :=
  IsCovMat R ∧ 0 ≤ cfg.eps ∧ ∀ x : ℕ → ℝ, (∃ i < R.rows, x i ≠ 0) →
    0 < (∑ i ∈ Finset.range R.rows, ∑ j ∈ Finset.range R.rows, x i * R.e i j * x j) + cfg.eps * ∑ i ∈ Finset.range R.rows, x i * x i

/-- One call of the API of a handler, its instances, or of one of the two derived handlers. -/
inductive Call where
  | add (id : ℕ) (hor : ℚ)
  | del (id : ℕ)
  | init (id : ℕ) (b : Belief) (t : Int)
  | setBel (id : ℕ) (b : Belief) (t : Int)
  | remAfter (t : Int)
  | remFrom (t : Int)
  | ev (e : Ev)
  | jointI (hf : SMap Belief → List ℕ → Mat → SMap Mat × Mat) (R z : Mat) (t : Int) (ids : List ℕ) (cfg : Cfg)
  | decR (dH : SMap Mat) (R r : Mat) (t : Int) (cfg : Cfg)
  | decZ (dH : SMap Mat) (z R : Mat) (t : Int) (cfg : Cfg)
  | decI (hf : SMap Belief → List ℕ → Mat → SMap Mat × Mat) (R z : Mat) (t : Int) (ids : List ℕ) (cfg : Cfg)
  | schR (dH : SMap Mat) (R r : Mat) (t : Int) (cfg : Cfg)
  | schZ (dH : SMap Mat) (z R : Mat) (t : Int) (cfg : Cfg)
  | schH (hf : SMap Belief → List ℕ → Mat → SMap Mat × Mat) (R z : Mat) (t : Int) (ids : List ℕ) (cfg : Cfg)

/-- What the user has to give: covariances where the interface asks for one. Nothing is assumed about times, sizes,
Jacobians, transition matrices, measurements, cross-covariances, or the noise of linear joint observations. -/
def Call.Ok : Call → Prop
  | .init _ b _ => IsCovMat b.Sigma
  | .setBel _ b _ => IsCovMat b.Sigma
  | .ev (.propKF _ _ Q _ _) => IsCovMat Q
  | .ev (.propEKF _ _ _ Q _ _) => IsCovMat Q
  | .ev (.propBel _ bb _ _ _) => IsCovMat bb.Sigma
  | .ev (.privKF _ _ R _ _ cfg) => NoiseOk R cfg
  | .ev (.privEKF _ _ R _ _ cfg) => NoiseOk R cfg
  | .jointI _ R _ _ _ _ => R.rows = R.cols ∧ ∀ i j, R.e i j = R.e j i
  | .decI _ R _ _ _ _ => R.rows = R.cols ∧ ∀ i j, R.e i j = R.e j i
  | _ => True

/-- `nearest_covariance` gives a covariance of the same size for a symmetric matrix (C60). -/
def NearCov (near : Mat → Mat) : Prop :=
  ∀ P : Mat, P.rows = P.cols → (∀ i j, P.e i j = P.e j i) → (near P).rows = P.rows ∧ IsCovMat (near P)

/-- The user's `predict_to` stores covariances. -/
def PredCov (pred : ℕ → Inst → Int → Inst × Bool) : Prop := ∀ id i t, i.Covs → (pred id i t).1.Covs

/-- One call in a team: a call of agent `a` on its own handler, or one of the observations of the collaborative handlers (C_IKF
in three forms, C_DCI in one), where `lk` says what the messages carry. -/
inductive TeamCall where
  | own (a : ℕ) (c : Call)
  | obsR (a : ℕ) (lk : Link) (dH : SMap Mat) (R r : Mat) (t : Int) (cfg : Cfg)
  | obsZ (a : ℕ) (dH : SMap Mat) (z R : Mat) (t : Int) (cfg : Cfg)
  | obsH (a : ℕ) (lk : Link) (hf : SMap Belief → List ℕ → Mat → SMap Mat × Mat) (R z : Mat) (t : Int) (ids : List ℕ) (cfg : Cfg)
  | dci (a : ℕ) (lk : Link) (hf : SMap Belief → List ℕ → Mat → SMap Mat × Mat) (R z : Mat) (t : Int) (ids : List ℕ) (cfg : Cfg)

/-- As `Call.Ok`. -/
def TeamCall.Ok : TeamCall → Prop
  | .own _ c => c.Ok
  | .obsH _ _ _ R _ _ _ _ => R.rows = R.cols ∧ ∀ i j, R.e i j = R.e j i
  | .dci _ _ _ R _ _ _ _ => R.rows = R.cols ∧ ∀ i j, R.e i j = R.e j i
  | _ => True

/-- A filter without buffers has a covariance matrix (or no belief yet). -/
def StdHdl.Covs (h : StdHdl) : Prop := ∀ x ∈ h, ∀ b, x.2.bel = some b → IsCovMat b.Sigma

/-- Calls on filters without buffers: register one with a belief, or one of the four calls of `StdEv`. -/
inductive StdCall where
  | add (id : ℕ) (b : Option Belief)
  | setBel (id : ℕ) (b : Belief)
  | ev (e : StdEv)

/-- As `Call.Ok`. The noise of a joint update can be anything: the posterior covariance is checked by the code. -/
def StdCall.Ok : StdCall → Prop
  | .add _ b => ∀ x, b = some x → IsCovMat x.Sigma
  | .setBel _ b => IsCovMat b.Sigma
  | .ev (.prop _ _ Q _) => IsCovMat Q
  | .ev (.propU _ _ Q _ _ _ var) => IsCovMat Q ∧ var.cols = 1 ∧ ∀ i, 0 ≤ var.e i 0
  | .ev (.priv _ _ R _) => IsCovMat R
  | .ev (.joint ..) => True

end Ikf
