import Verif.Model.StdFilters
import Verif.Spec.Central

/-!
# Specification: what the calls of the filters without buffers do to the centralised filter
-/

namespace Ikf
open Mat

/-- Calls of the user. -/
inductive StdEv where
  /-- filter `id`: `propagate(Phi, Q, t)` -/
  | prop (id : ℕ) (Phi Q : Mat) (t : Int)
  /-- filter `id`: `propagate(Phi, Q, t, G, u, var_u)` -/
  | propU (id : ℕ) (Phi Q : Mat) (t : Int) (G u var : Mat)
  /-- filter `id`: `private_update(H, R, z)` -/
  | priv (id : ℕ) (H R z : Mat)
  /-- filter `me`: `joint_update(I, J, H_I, H_J, R, z)` -/
  | joint (me I J : ℕ) (HI HJ R z : Mat)

/-- What an accepted call does. The private and the joint update multiply the cross-covariances with the filters that
do not take part by a posteriori times inverse a priori covariance. -/
inductive StdStep (dim : ℕ → ℕ) (c : Central) : StdEv → Central → Prop
  | prop (id Phi Q t) :
      StdStep dim c (.prop id Phi Q t)
        (c.transform id Phi (Phi * c.mu id) (Phi * c.cov id id * Phi.tr + Q) t (c.fix id))
  | propU (id Phi Q t G u var) :
      StdStep dim c (.propU id Phi Q t G u var)
        (c.transform id Phi (Phi * c.mu id + G * u) (Phi * c.cov id id * Phi.tr + (G * var * G.tr + Q)) t (c.fix id))
  | priv (id H R z res) (h : correctionStep H R (z - H * c.mu id) (c.cov id id) {} = .ok res) (hr : res.rejected = false) :
      StdStep dim c (.priv id H R z)
        (c.transform id (res.Sapos * (c.cov id id).inv) (c.mu id + res.dx) res.Sapos (c.tm id) (c.fix id))
  | joint (I J HI HJ R z H S m res) (ht : c.tm I = c.tm J) (hH : SideBySide [(I, HI), (J, HJ)] H)
      (hS : StackedCov [(I, dim I), (J, dim J)] c.cov S) (hm : StackedMean [(I, dim I), (J, dim J)] c.mu m)
      (h : correctionStep H R (z - H * m) (stabM S (1 / 10^12)) {} = .ok res) (hr : res.rejected = false) :
      StdStep dim c (.joint I I J HI HJ R z) (c.joint [(I, dim I), (J, dim J)] res.Sapos res.dx)

/-- A sequence of calls with their answers: rejected ones change nothing. -/
inductive StdSpecRun (dim : ℕ → ℕ) : Central → List (StdEv × Bool) → Central → Prop
  | nil (c) : StdSpecRun dim c [] c
  | accept {c c1 c2 ev l} (h : StdStep dim c ev c1) (r : StdSpecRun dim c1 l c2) : StdSpecRun dim c ((ev, true) :: l) c2
  | reject {c c2 ev l} (r : StdSpecRun dim c l c2) : StdSpecRun dim c ((ev, false) :: l) c2

end Ikf
