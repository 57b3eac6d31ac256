import Verif.Spec.Rename

/-!
# Specification: superposition of runs (C131)
-/

namespace Ikf
open Mat

namespace Linear

/-- The weighted mean `l A + (1 - l) B`. -/
noncomputable def mix (l : ℝ) (A B : Mat) : Mat := smul l A + smul (1 - l) B

/-- Three calls that differ in the measured (or given) values only; the values of the third are the weighted means of the others. -/
inductive Mixed (l : ℝ) : Ev → Ev → Ev → Prop
  | propKF (id Phi Q ta tb) : Mixed l (.propKF id Phi Q ta tb) (.propKF id Phi Q ta tb) (.propKF id Phi Q ta tb)
  | propEKF (id ma mb Phi Q ta tb) : Mixed l (.propEKF id ma Phi Q ta tb) (.propEKF id mb Phi Q ta tb) (.propEKF id (mix l ma mb) Phi Q ta tb)
  | propBel (id ba bb bc Phi ta tb) (h1 : bb.Sigma = ba.Sigma ∧ bb.fixed = ba.fixed) (h2 : bc.Sigma = ba.Sigma ∧ bc.fixed = ba.fixed)
      (h3 : bc.mean = mix l ba.mean bb.mean) : Mixed l (.propBel id ba Phi ta tb) (.propBel id bb Phi ta tb) (.propBel id bc Phi ta tb)
  | privKF (id H R za zb t cfg) : Mixed l (.privKF id H R za t cfg) (.privKF id H R zb t cfg) (.privKF id H R (mix l za zb) t cfg)
  | privEKF (id H R ra rb t cfg) : Mixed l (.privEKF id H R ra t cfg) (.privEKF id H R rb t cfg) (.privEKF id H R (mix l ra rb) t cfg)
  | setCov (a b S t) : Mixed l (.setCov a b S t) (.setCov a b S t) (.setCov a b S t)
  | jointR (dH R ra rb t cfg) : Mixed l (.jointR dH R ra t cfg) (.jointR dH R rb t cfg) (.jointR dH R (mix l ra rb) t cfg)
  | jointZ (dH za zb R t cfg) : Mixed l (.jointZ dH za R t cfg) (.jointZ dH zb R t cfg) (.jointZ dH (mix l za zb) R t cfg)

/-- The three sequences of calls. -/
inductive MixedAll (l : ℝ) : List Ev → List Ev → List Ev → Prop
  | nil : MixedAll l [] [] []
  | cons {a b c as bs cs} (h : Mixed l a b c) (hs : MixedAll l as bs cs) : MixedAll l (a :: as) (b :: bs) (c :: cs)

/-- The newest estimates are of the same times, with the same covariances and cross-covariances in all three handlers; the means of the
third are the weighted means of those of the others. -/
structure MixedEstimates (l : ℝ) (dim : ℕ → ℕ) (h1 h2 h3 : Hdl) : Prop where
  belief : ∀ p t, Hdl.Newest h1 p t → Hdl.Newest h2 p t ∧ Hdl.Newest h3 p t ∧ ∃ b1 b2 b3, Hdl.belief h1 p t = some b1 ∧ Hdl.belief h2 p t = some b2 ∧
    Hdl.belief h3 p t = some b3 ∧ b3.mean = mix l b1.mean b2.mean ∧ (b2.Sigma = b1.Sigma ∧ b3.Sigma = b1.Sigma) ∧ (b2.fixed = b1.fixed ∧ b3.fixed = b1.fixed)
  cov : ∀ p q t, Hdl.Newest h1 p t → Hdl.Newest h1 q t → ∃ C, Hdl.IsCov dim h1 p q t C ∧ Hdl.IsCov dim h2 p q t C ∧ Hdl.IsCov dim h3 p q t C

end Linear
end Ikf
