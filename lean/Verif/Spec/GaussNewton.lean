import Verif.Spec.Central

/-!
# Specification: the iterated extended Kalman filter

The measurement update of several estimates by relinearisation at the current iterate, on the stacked vector of all of them:
no dictionaries, no loops over participants. `x0`, `S` are the a priori mean and covariance, `x_k` the iterates, `e_k = x_k - x0`.
-/

namespace Ikf
open Mat

/-- The rows of participant `p = (ID, size)` in a stacked vector. -/
def rowsOf (bs : List (ℕ × ℕ)) (x : Mat) (p : ℕ × ℕ) : Mat := x.block (off bs p.1) 0 p.2 1

/-- `J` is block diagonal with the block `B p` for participant `p`. -/
def BlockDiag (bs : List (ℕ × ℕ)) (B : ℕ × ℕ → Mat) (J : Mat) : Prop :=
  J.Shape (tot bs) (tot bs) ∧
    ∀ p ∈ bs, ∀ q ∈ bs, ∀ i < p.2, ∀ j < q.2, J.e (off bs p.1 + i) (off bs q.1 + j) = if p = q then (B p).e i j else 0

/-- A measurement update. -/
structure GN where
  /-- participants and their sizes -/
  bs : List (ℕ × ℕ)
  /-- a priori mean -/
  x0 : Mat
  /-- a priori covariance -/
  S : Mat
  /-- covariance of the measurement -/
  R : Mat
  /-- `lin x H r`: linearised at the states `x` the measurement has Jacobian `H` and residual `r` -/
  lin : Mat → Mat → Mat → Prop
  /-- `jac p m v`: Jacobian of `m ⊞ v` with respect to `v`, for the state `m` of participant `p` -/
  jac : ℕ → Mat → Mat → Mat

namespace GN

/-- The quantities of one iteration: iterate, Jacobian, residual, Jacobian of the state error, covariance, gain, correction. -/
structure Pt where
  x : Mat
  H : Mat
  r : Mat
  J : Mat
  P : Mat
  K : Mat
  dx : Mat

variable (g : GN) (cfg : Cfg)

/-- Innovation covariance of an iteration (the code adds `eps` on the diagonal). -/
noncomputable def inn (q : Pt) : Mat := stabM (q.H * q.P * q.H.tr + g.R) cfg.eps

/-- `J` is the Jacobian of the state error at `x`. -/
def ErrJac (x J : Mat) : Prop := BlockDiag g.bs (fun p => g.jac p.1 (rowsOf g.bs x p) (smul (-1) (rowsOf g.bs (x - g.x0) p))) J

/-- The equations of iteration `k`. -/
structure Step (k : ℕ) (q : Pt) : Prop where
  /-- in the first iteration there is no error yet -/
  J0 : k = 0 → q.J = one (tot g.bs)
  J1 : 0 < k → g.ErrJac q.x q.J
  res : ∃ r0, g.lin q.x q.H r0 ∧ ObsShape q.H g.R r0 g.S (tot g.bs) q.H.rows ∧ q.r = r0 + q.H * (q.J * (q.x - g.x0))
  P : q.P = q.J * g.S * q.J.tr
  K : q.K = q.P * q.H.tr * (g.inn cfg q).inv
  dx : q.dx = q.K * q.r - q.J * (q.x - g.x0)

/-- The gate lets the residual pass. -/
def Passes (q : Pt) : Prop := cfg.outlier = true → checkNIS (g.inn cfg q) q.r cfg.conf = .ok true

/-- The correction is within the tolerance, in every component. -/
def Small (q : Pt) : Prop := ∀ i < q.dx.rows, |q.dx.e i 0| ≤ cfg.tolEps

/-- `N` iterations were done and the loop has not ended: each passed the gate and, except the first, moved the states by more than
the tolerance; each iterate is the one before plus its correction. -/
structure Run (N : ℕ) (q : ℕ → Pt) : Prop where
  start : (q 0).x = g.x0
  step : ∀ k < N, g.Step cfg k (q k)
  pass : ∀ k < N, g.Passes cfg (q k)
  big : ∀ k < N, 0 < k → ¬ Small cfg (q k)
  next : ∀ k < N, (q (k + 1)).x = (q k).x + (q k).dx

/-- Covariance after iteration `q`. -/
noncomputable def cov (q : Pt) : Mat :=
  if cfg.joseph then (one (tot g.bs) - q.K * q.H) * q.P * (one (tot g.bs) - q.K * q.H).tr + q.K * g.R * q.K.tr
  else (one (tot g.bs) - q.K * q.H) * q.P

/-- The end: the iteration `N` (counted from 0) was the last one allowed, or, not being the first, within the tolerance.
`xf` are the corrected states and `P` their covariance. The covariance is carried over to the new states after three or more
iterations, after two of them only if the second was not within the tolerance. -/
structure Ends (N : ℕ) (q : ℕ → Pt) (xf P : Mat) : Prop where
  run : g.Run cfg N q
  step : g.Step cfg N (q N)
  pass : g.Passes cfg (q N)
  stop : N + 1 = cfg.numIter ∨ (N + 1 < cfg.numIter ∧ 0 < N ∧ Small cfg (q N))
  fin : xf = (q N).x + (q N).dx
  cov : ∃ Q, ((2 ≤ N ∨ (N = 1 ∧ ¬ Small cfg (q N))) → ∃ L, g.ErrJac xf L ∧ Q = L * g.cov cfg (q N) * L.tr) ∧
    (¬ (2 ≤ N ∨ (N = 1 ∧ ¬ Small cfg (q N))) → Q = g.cov cfg (q N)) ∧ P = if cfg.stab then stabM Q cfg.eps else Q

/-- The gate rejects iteration `N`. -/
structure Rejects (N : ℕ) (q : ℕ → Pt) : Prop where
  run : g.Run cfg N q
  count : N < cfg.numIter
  step : g.Step cfg N (q N)
  gate : cfg.outlier = true ∧ checkNIS (g.inn cfg (q N)) (q N).r cfg.conf = .ok false

/-- In iteration `N` Jacobian, residual, noise and states do not fit. -/
structure Misfits (N : ℕ) (q : ℕ → Pt) : Prop where
  run : g.Run cfg N q
  count : N < cfg.numIter
  fit : ∃ H r, g.lin (q N).x H r ∧ ¬ ObsShape H g.R r g.S (tot g.bs) H.rows

end GN
end Ikf

namespace Ikf
open Mat

/-- The beliefs of the participants moved to the stacked states `x`: unfixed means replaced, everything else kept. -/
def moved (d : SMap Belief) (x : Mat) : SMap Belief :=
  d.map fun e =>
    if e.2.fixed then e
    else (e.1, { e.2 with mean := rowsOf ((d.filter fun e => !e.2.fixed).map fun e => (e.1, e.2.dim)) x (e.1, e.2.dim) })

/-- The measurement update of `apply_observation(R, z, t, h, IDs, cfg)` for the beliefs `d` of the participants: `hf` is the user's
function `h`, `pj` the `plus_jacobian` of the beliefs. Fixed participants are seen by the function but not estimated. -/
noncomputable def userProblem (pj : Belief → Mat → Mat) (hf : SMap Belief → List ℕ → Mat → SMap Mat × Mat) (ids : List ℕ) (z : Mat)
    (d : SMap Belief) (x0 S R : Mat) : GN where
  bs := (d.filter fun e => !e.2.fixed).map fun e => (e.1, e.2.dim)
  x0 := x0
  S := S
  R := R
  lin x H r := ∃ dH, hf (moved d x) ids z = (dH, r) ∧ SideBySide (dH.filter fun e => !d.any fun b => b.1 == e.1 && b.2.fixed) H
  jac p m v := match d.find p with
    | some b => pj { b with mean := m } v
    | none => Mat.empty

end Ikf

namespace Ikf
open Mat

/-- The beliefs a participant with the state of `c` shows to the user's function (their `essential` option is not part of the state). -/
def Shows (dim : ℕ → ℕ) (c : Central) (ids : List ℕ) (d : SMap Belief) : Prop :=
  d.map (·.1) = ids ∧ ∀ e ∈ d, e.2.mean = c.mu e.1 ∧ e.2.Sigma = c.cov e.1 e.1 ∧ e.2.stamp = c.tm e.1 ∧ e.2.fixed = c.fix e.1 ∧ e.2.dim = dim e.1

/-- Answers of the iterated observation. -/
inductive IterAns where
  | processed
  | rejected
  | misfit

/-- `apply_observation(R, z, t, h, IDs, cfg)` on the centralised filter: the iterated extended Kalman filter on the stacked estimates of
the unfixed participants; the others keep their estimates, their cross-covariances follow as in every joint correction. `r` is the
residual reported to the caller. -/
inductive SpecIter (dim : ℕ → ℕ) (near : Mat → Mat) (pj : Belief → Mat → Mat) (c : Central)
    (hf : SMap Belief → List ℕ → Mat → SMap Mat × Mat) (R z : Mat) (ids : List ℕ) (cfg : Cfg) : IterAns → Mat → Central → Prop
  | ends (d x0 S N q xf P) (hd : Shows dim c ids d)
      (hm : StackedMean ((d.filter fun e => !e.2.fixed).map fun e => (e.1, e.2.dim)) c.mu x0)
      (hS : StackedCov ((d.filter fun e => !e.2.fixed).map fun e => (e.1, e.2.dim)) c.cov S)
      (he : (userProblem pj hf ids z d x0 (stabM S (1 / 10^12)) R).Ends cfg N q xf P) :
      SpecIter dim near pj c hf R z ids cfg .processed (q N).r
        (c.joint ((d.filter fun e => !e.2.fixed).map fun e => (e.1, e.2.dim)) (Hdl.fixPsd near P) (xf - x0))
  | rejects (d x0 S N q) (hd : Shows dim c ids d)
      (hm : StackedMean ((d.filter fun e => !e.2.fixed).map fun e => (e.1, e.2.dim)) c.mu x0)
      (hS : StackedCov ((d.filter fun e => !e.2.fixed).map fun e => (e.1, e.2.dim)) c.cov S)
      (he : (userProblem pj hf ids z d x0 (stabM S (1 / 10^12)) R).Rejects cfg N q) :
      SpecIter dim near pj c hf R z ids cfg .rejected (q N).r c
  | misfits (d x0 S N q) (hd : Shows dim c ids d)
      (hm : StackedMean ((d.filter fun e => !e.2.fixed).map fun e => (e.1, e.2.dim)) c.mu x0)
      (hS : StackedCov ((d.filter fun e => !e.2.fixed).map fun e => (e.1, e.2.dim)) c.cov S)
      (he : (userProblem pj hf ids z d x0 (stabM S (1 / 10^12)) R).Misfits cfg N q) :
      SpecIter dim near pj c hf R z ids cfg .misfit (Mat.zero 0 1) c

end Ikf
