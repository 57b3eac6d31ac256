import Verif.Model.Isolated
import Verif.Lemmas.Kalman

/-!
# Specification: the centralised filter

One filter that keeps, for all instances together, the mean of every instance and the covariance of every
pair of them. The isolated filters are meant to agree with it. No factors, no buffers, no handlers here.
-/

namespace Ikf
open Mat

/-- First row of the block of `p` in a stack of the blocks `(ID, size)`. -/
def off : List (ℕ × ℕ) → ℕ → ℕ
  | [], _ => 0
  | b :: r, p => if b.1 = p then 0 else b.2 + off r p

/-- Rows of the whole stack. -/
def tot : List (ℕ × ℕ) → ℕ
  | [] => 0
  | b :: r => b.2 + tot r

/-- `S` is the covariance of the stacked states: its (p, q) block is `cov p q`. -/
def StackedCov (bs : List (ℕ × ℕ)) (cov : ℕ → ℕ → Mat) (S : Mat) : Prop :=
  S.Shape (tot bs) (tot bs) ∧
    ∀ p ∈ bs, ∀ q ∈ bs, ∀ i < p.2, ∀ j < q.2, S.e (off bs p.1 + i) (off bs q.1 + j) = (cov p.1 q.1).e i j

/-- `m` is the stacked mean. -/
def StackedMean (bs : List (ℕ × ℕ)) (mu : ℕ → Mat) (m : Mat) : Prop :=
  m.Shape (tot bs) 1 ∧ ∀ p ∈ bs, ∀ i < p.2, m.e (off bs p.1 + i) 0 = (mu p.1).e i 0

/-- `H` is the Jacobians of the participants side by side. -/
def SideBySide (dH : SMap Mat) (H : Mat) : Prop :=
  H.cols = tot (dH.map fun e => (e.1, e.2.cols)) ∧
    ∀ e ∈ dH, e.2.rows = H.rows ∧
      ∀ i, ∀ j < e.2.cols, H.e i (off (dH.map fun e => (e.1, e.2.cols)) e.1 + j) = e.2.e i j

/-- State of the centralised filter: time of the estimate of each instance, means, covariances, and which
estimates are fixed (never corrected). -/
structure Central where
  tm : ℕ → Int
  mu : ℕ → Mat
  cov : ℕ → ℕ → Mat
  fix : ℕ → Bool

namespace Central

/-- The state error of `id` is multiplied by `F`: new mean `m`, new own covariance `P`, cross-covariances
`F * cov` (and the transpose). Nothing else changes. -/
def transform (c : Central) (id : ℕ) (F m P : Mat) (t : Int) (fx : Bool) : Central where
  tm a := if a = id then t else c.tm a
  mu a := if a = id then m else c.mu a
  fix a := if a = id then fx else c.fix a
  cov a b :=
    if a = id ∧ b = id then P
    else if a = id then F * c.cov a b
    else if b = id then c.cov a b * F.tr
    else c.cov a b

/-- The cross-covariance of `a` and `b` is set to `S`. -/
def setCov (c : Central) (a b : ℕ) (S : Mat) : Central :=
  { c with cov := fun x y => if x = a ∧ y = b then S else if x = b ∧ y = a then S.tr else c.cov x y }

/-- Joint correction of the stacked participants `bs` with a posteriori covariance `P` and correction
`dx`. Cross-covariances with the others are multiplied by `P_pp * (cov p p)⁻¹`. -/
noncomputable def joint (c : Central) (bs : List (ℕ × ℕ)) (P dx : Mat) : Central :=
  let isIn := fun p => p ∈ bs.map (·.1)
  let dim := fun p => ((bs.lookup p).getD 0)
  let blk := fun p q => P.block (off bs p) (off bs q) (dim p) (dim q)
  let L := fun p => blk p p * (c.cov p p).inv
  open Classical in
  { c with
    mu := fun p => if isIn p then c.mu p + dx.block (off bs p) 0 (dim p) 1 else c.mu p
    cov := fun p q =>
      if isIn p ∧ isIn q then blk p q
      else if isIn p then L p * c.cov p q
      else if isIn q then c.cov p q * (L q).tr
      else c.cov p q }

end Central

/-- Calls of the user. -/
inductive Ev where
  /-- instance `id`: `apply_propagation(Phi, Q, t_a, t_b)` -/
  | propKF (id : ℕ) (Phi Q : Mat) (ta tb : Int)
  /-- instance `id`: `apply_propagation(bel_a, mean_b, Phi, Q, t_a, t_b)` with the stored `bel_a` -/
  | propEKF (id : ℕ) (mb Phi Q : Mat) (ta tb : Int)
  /-- instance `id`: `apply_propagation(bel_b, Phi, t_a, t_b)` -/
  | propBel (id : ℕ) (bb : Belief) (Phi : Mat) (ta tb : Int)
  /-- instance `id`: `apply_private_observation(H, R, z, t, cfg)` -/
  | privKF (id : ℕ) (H R z : Mat) (t : Int) (cfg : Cfg)
  /-- instance `id`: `apply_private_observation(bel, H, R, r, cfg)` with the stored belief of `t` -/
  | privEKF (id : ℕ) (H R r : Mat) (t : Int) (cfg : Cfg)
  /-- handler: `set_Sigma_IJ_at_t(a, b, S, t)` -/
  | setCov (a b : ℕ) (S : Mat) (t : Int)
  /-- handler: `apply_observation(dict_H, R, r, t, cfg)` -/
  | jointR (dH : SMap Mat) (R r : Mat) (t : Int) (cfg : Cfg)
  /-- handler: `apply_observation(dict_H, z, R, t, cfg)` -/
  | jointZ (dH : SMap Mat) (z R : Mat) (t : Int) (cfg : Cfg)

/-- The participants with their sizes: the fixed ones do not take part. -/
def participants (dim : ℕ → ℕ) (c : Central) (dH : SMap Mat) : List (ℕ × ℕ) :=
  (dH.keys.filter (fun p => !c.fix p)).map (fun p => (p, dim p))

/-- What an accepted call does to the centralised filter. `near` is `nearest_covariance`. -/
inductive SpecStep (dim : ℕ → ℕ) (near : Mat → Mat) (c : Central) : Ev → Central → Prop
  | propKF (id Phi Q ta tb) :
      SpecStep dim near c (.propKF id Phi Q ta tb)
        (c.transform id Phi (Phi * c.mu id) (Phi * c.cov id id * Phi.tr + Q) tb (c.fix id))
  | propEKF (id mb Phi Q ta tb) :
      SpecStep dim near c (.propEKF id mb Phi Q ta tb)
        (c.transform id Phi mb (Phi * c.cov id id * Phi.tr + Q) tb (c.fix id))
  | propBel (id bb Phi ta tb) :
      SpecStep dim near c (.propBel id bb Phi ta tb) (c.transform id Phi bb.mean bb.Sigma tb bb.fixed)
  | privKF (id H R z t cfg res) (h : correctionStep H R (z - H * c.mu id) (c.cov id id) cfg = .ok res)
      (hr : res.rejected = false) :
      SpecStep dim near c (.privKF id H R z t cfg)
        (c.transform id (one (dim id) - gainM H R (c.cov id id) cfg.eps * H) (c.mu id + res.dx) res.Sapos t (c.fix id))
  | privEKF (id H R r t cfg res) (h : correctionStep H R r (c.cov id id) cfg = .ok res)
      (hr : res.rejected = false) :
      SpecStep dim near c (.privEKF id H R r t cfg)
        (c.transform id (one (dim id) - gainM H R (c.cov id id) cfg.eps * H) (c.mu id + res.dx) res.Sapos t (c.fix id))
  | setCov (a b S t) : SpecStep dim near c (.setCov a b S t) (c.setCov a b S)
  | jointR (dH R r t cfg H S res) (hH : SideBySide dH H) (hS : StackedCov (participants dim c dH) c.cov S)
      (h : correctionStep H R r (stabM S (1 / 10^12)) cfg = .ok res) (hr : res.rejected = false) :
      SpecStep dim near c (.jointR dH R r t cfg)
        (c.joint (participants dim c dH) (Hdl.fixPsd near res.Sapos) res.dx)
  | jointZ (dH z R t cfg H S m res) (hH : SideBySide dH H) (hS : StackedCov (participants dim c dH) c.cov S)
      (hm : StackedMean (participants dim c dH) c.mu m)
      (h : correctionStep H R (z - H * m) (stabM S (1 / 10^12)) cfg = .ok res) (hr : res.rejected = false) :
      SpecStep dim near c (.jointZ dH z R t cfg)
        (c.joint (participants dim c dH) (Hdl.fixPsd near res.Sapos) res.dx)

/-- A sequence of calls with their answers: rejected ones change nothing. -/
inductive SpecRun (dim : ℕ → ℕ) (near : Mat → Mat) : Central → List (Ev × Bool) → Central → Prop
  | nil (c) : SpecRun dim near c [] c
  | accept {c c1 c2 ev l} (h : SpecStep dim near c ev c1) (r : SpecRun dim near c1 l c2) :
      SpecRun dim near c ((ev, true) :: l) c2
  | reject {c c2 ev l} (r : SpecRun dim near c l c2) : SpecRun dim near c ((ev, false) :: l) c2

end Ikf
