import Verif.Spec.StandaloneMath

/-!
# Specification: the same filtering problem in other units, coordinates, or without superfluous states (C120)
-/

namespace Ikf
namespace Units
open Matrix

variable {n k : ℕ}

/-- The estimate of `T x`, given that of `x`. -/
def image (T : Matrix (Fin k) (Fin n) ℝ) (g : Gauss n) : Gauss k := ⟨T * g.mean, T * g.cov * Tᵀ⟩

/-- At every time the second filter holds the estimate of `T x`, where the first holds that of `x`. -/
def SameAs (T : Matrix (Fin k) (Fin n) ℝ) (f : Int → Option (Gauss n)) (f' : Int → Option (Gauss k)) : Prop := ∀ t, f' t = (f t).map (image T)

/-- A matrix of that size. -/
def Sized (r c : ℕ) (M : Mat) : Prop := M.rows = r ∧ M.cols = c

/-- The second measurement is the first one in other units `U` and of the state `T x`. -/
def Measures (T : Matrix (Fin k) (Fin n) ℝ) (m : ℕ) (H R H' R' : Mat) (U : Matrix (Fin m) (Fin m) ℝ) : Prop :=
  IsUnit U.det ∧ Sized m n H ∧ Sized m m R ∧ Sized m k H' ∧ Sized m m R' ∧
    H'.toM m k * T = U * H.toM m n ∧ R'.toM m m = U * R.toM m m * Uᵀ

/-- The second call says about `T x` what the first says about `x`. Measurements are converted to other units `U`. -/
inductive Converted (T : Matrix (Fin k) (Fin n) ℝ) : KCall → KCall → Prop
  | prop (Phi Q Phi' Q' : Mat) (ta tb : Int) (hP : Sized n n Phi) (hQ : Sized n n Q) (hP' : Sized k k Phi') (hQ' : Sized k k Q')
      (e1 : Phi'.toM k k * T = T * Phi.toM n n) (e2 : Q'.toM k k = T * Q.toM n n * Tᵀ) : Converted T (.prop Phi Q ta tb) (.prop Phi' Q' ta tb)
  | propEKF (mb Phi Q mb' Phi' Q' : Mat) (ta tb : Int) (hm : Sized n 1 mb) (hP : Sized n n Phi) (hQ : Sized n n Q) (hm' : Sized k 1 mb')
      (hP' : Sized k k Phi') (hQ' : Sized k k Q') (e0 : mb'.toM k 1 = T * mb.toM n 1)
      (e1 : Phi'.toM k k * T = T * Phi.toM n n) (e2 : Q'.toM k k = T * Q.toM n n * Tᵀ) :
      Converted T (.propEKF mb Phi Q ta tb) (.propEKF mb' Phi' Q' ta tb)
  | propBel (b b' : Belief) (Phi Phi' : Mat) (ta tb : Int) (hP : Sized n n Phi) (hP' : Sized k k Phi') (hb : Sized n n b.Sigma)
      (hm' : Sized k 1 b'.mean) (hb' : Sized k k b'.Sigma) (e1 : b'.mean.toM k 1 = T * b.mean.toM n 1) (e2 : b'.Sigma.toM k k = T * b.Sigma.toM n n * Tᵀ) :
      Converted T (.propBel b Phi ta tb) (.propBel b' Phi' ta tb)
  | priv (m : ℕ) (H R z H' R' z' : Mat) (U : Matrix (Fin m) (Fin m) ℝ) (t : Int) (cfg : Cfg) (h : Measures T m H R H' R' U)
      (hz : Sized m 1 z) (hz' : Sized m 1 z') (e : z'.toM m 1 = U * z.toM m 1) : Converted T (.priv H R z t cfg) (.priv H' R' z' t cfg)
  | privEKF (m : ℕ) (H R r H' R' r' : Mat) (U : Matrix (Fin m) (Fin m) ℝ) (t : Int) (cfg : Cfg) (h : Measures T m H R H' R' U)
      (hr : Sized m 1 r) (hr' : Sized m 1 r') (e : r'.toM m 1 = U * r.toM m 1) : Converted T (.privEKF H R r t cfg) (.privEKF H' R' r' t cfg)
  | correct (dx S dx' S' : Mat) (t : Int) (hd : Sized n 1 dx) (hS : Sized n n S) (hd' : Sized k 1 dx') (hS' : Sized k k S')
      (e1 : dx'.toM k 1 = T * dx.toM n 1) (e2 : S'.toM k k = T * S.toM n n * Tᵀ) : Converted T (.correct dx S t) (.correct dx' S' t)

/-- Nothing is added to covariances. -/
def Unregularised : KCall → Prop
  | .priv _ _ _ _ cfg => cfg.eps = 0
  | .privEKF _ _ _ _ cfg => cfg.eps = 0
  | _ => True

end Units
end Ikf
