import Verif.Props.Progress

/-!
# Specification: the same filters under other instance IDs (C130)
-/

namespace Ikf
open Mat

namespace Rename

/-- The same Jacobians for the renamed participants, in the order of the new IDs. -/
def SameDict (σ : ℕ → ℕ) (dH dH' : SMap Mat) : Prop := dH'.Sorted ∧ dH'.Perm (dH.map fun e => (σ e.1, e.2))

/-- The second call is the first one, made under the new IDs. -/
inductive Renamed (σ : ℕ → ℕ) : Ev → Ev → Prop
  | propKF (id Phi Q ta tb) : Renamed σ (.propKF id Phi Q ta tb) (.propKF (σ id) Phi Q ta tb)
  | propEKF (id mb Phi Q ta tb) : Renamed σ (.propEKF id mb Phi Q ta tb) (.propEKF (σ id) mb Phi Q ta tb)
  | propBel (id bb Phi ta tb) : Renamed σ (.propBel id bb Phi ta tb) (.propBel (σ id) bb Phi ta tb)
  | privKF (id H R z t cfg) : Renamed σ (.privKF id H R z t cfg) (.privKF (σ id) H R z t cfg)
  | privEKF (id H R r t cfg) : Renamed σ (.privEKF id H R r t cfg) (.privEKF (σ id) H R r t cfg)
  | setCov (a b S t) : Renamed σ (.setCov a b S t) (.setCov (σ a) (σ b) S t)
  | jointR (dH dH' R r t cfg) (h : SameDict σ dH dH') : Renamed σ (.jointR dH R r t cfg) (.jointR dH' R r t cfg)
  | jointZ (dH dH' z R t cfg) (h : SameDict σ dH dH') : Renamed σ (.jointZ dH z R t cfg) (.jointZ dH' z R t cfg)

/-- In-order calls with fitting matrices, one after the other, with their answers. -/
inductive Used (fp : FP) (near : Mat → Mat) (pred : ℕ → Inst → Int → Inst × Bool) (dim : ℕ → ℕ) : Hdl → List Ev → List Bool → Hdl → Prop
  | nil (h) : Used fp near pred dim h [] [] h
  | step {h h1 h2 ev a evs as} (hw : Hdl.Wf dim h ev) (hf : Hdl.Fits dim h ev) (hs : Hdl.run fp near pred h ev = .ok (h1, a))
      (r : Used fp near pred dim h1 evs as h2) : Used fp near pred dim h (ev :: evs) (a :: as) h2

/-- What can be read of `p` in the first handler can be read of `σ p` in the second: time, mean and covariance of the newest
belief, whether it is fixed, and the covariance with every instance whose newest belief is of the same time. -/
structure SameEstimates (σ : ℕ → ℕ) (dim dim' : ℕ → ℕ) (h h' : Hdl) : Prop where
  belief : ∀ p t, Hdl.Newest h p t → Hdl.Newest h' (σ p) t ∧ ∃ b b', Hdl.belief h p t = some b ∧ Hdl.belief h' (σ p) t = some b' ∧
    b'.mean = b.mean ∧ b'.Sigma = b.Sigma ∧ b'.fixed = b.fixed
  cov : ∀ p q t, Hdl.Newest h p t → Hdl.Newest h q t → ∃ C, Hdl.IsCov dim h p q t C ∧ Hdl.IsCov dim' h' (σ p) (σ q) t C

/-- The repair of a covariance does not depend on the order of the states. -/
def AnyOrder (near : Mat → Mat) : Prop :=
  ∀ (n : ℕ) (P P' : Mat) (e : Fin n ≃ Fin n), P.rows = n → P.cols = n → P'.rows = n → P'.cols = n → P.tr = P → P'.tr = P' →
    (∀ i j : Fin n, P'.e (e i) (e j) = P.e i j) → ∀ i j : Fin n, (near P').e (e i) (e j) = (near P).e i j

end Rename
end Ikf
