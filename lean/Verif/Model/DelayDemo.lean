import Verif.Model.UserFilter

/-!
# The example program `ikf_delay_cmd`

Model of source/examples/ikf_delay_cmd/main.cpp (`DM`), include/SimInstanceDelay.hpp (`SD`) and include/Trajectory.hpp (`TR`): instances of
the filter class of Model/UserFilter.lean, one handler, propagations in every step, private and cyclic joint observations delayed by
whole steps.

`setLinSpaced` is Eigen's (not in the repository); `lin` is its scalar implementation.
Simplifications: the true trajectories and the random numbers are arbitrary arrays (`Draws`); the option
`centalized_equvivalent` is left at its default (DM:66, 120); log output, plots and `compute_error` are left out; an `int` option
passed on as `size_t` (SD:31-32) is a natural number here (a negative delay becomes a huge one: no observations at all).
-/

namespace Ikf
open Mat

namespace DelayDemo

/-- The options DM:26-72. -/
structure Args where
  N : Int
  duration : Int
  freq : Int
  firstPrivateOnly : Bool
  jointUpdates : Bool
  delayPrivate : ℕ
  delayJoint : ℕ
  stdP : ℝ
  stdA : ℝ
  stdRel : ℝ

/-- The random arrays: initial means (SD:46-53), noisy positions and accelerations (SD:58-59), noisy relative positions (SD:92-94), by
instance and index. -/
structure Draws where
  mean0 : ℕ → Mat
  pos : ℕ → ℕ → ℝ
  acc : ℕ → ℕ → ℝ
  rel : ℕ → ℕ → ℝ

variable (fp : FP) (a : Args) (d : Draws)

/-- DM:77. -/
def num : ℕ := (max a.N 1).toNat

/-- DM:124 `D` (an `int` times 1.0, exact). -/
def dur : ℚ := a.duration

/-- DM:123 `dt`. -/
def step : ℚ := fp.rnd (1 / ((max 1 a.freq : Int) : ℚ))

/-- TR:117: the number of samples. -/
def size : ℕ := ⌊fp.rnd (fp.rnd (dur a / step fp a) + 1)⌋.toNat

/-- TR:118 `setLinSpaced(N, 0, D)`: Eigen computes `i * ((high - low) / (N - 1))` and puts `high` at the end. -/
def lin (k : ℕ) : ℚ :=
  if k = max (size fp a - 1) 1 then dur a else fp.rnd (k * fp.rnd (dur a / ((size fp a - 1 : ℕ) : ℚ)))

/-- SD:97, 116, 120, 145, 172 `Timestamp(traj.t_arr(idx))`, as the buffers' key (ns). -/
def time (k : ℕ) : Int := (fp.fromSec (lin fp a k)).ns

/-- A 1×1 matrix. -/
def scalar (x : ℝ) : Mat := of 1 1 fun _ _ => x

/-- SD:97-107: the measurement of `propagate_idx`. -/
def propagateIdx (idx i : ℕ) : Meas Linear1D.Data :=
  ⟨i, time fp a idx, .propagation, ⟨scalar (d.acc i idx), scalar (a.stdA * a.stdA), 0⟩⟩

/-- SD:117-130, with DM:145-147. -/
def privateIdx (idx i : ℕ) : List (Meas Linear1D.Data) :=
  if ¬ (a.firstPrivateOnly = true ∧ 0 < i) ∧ a.delayPrivate < idx then
    [⟨i, time fp a (idx - a.delayPrivate), .priv, ⟨scalar (d.pos i (idx - a.delayPrivate)), scalar (a.stdP * a.stdP), 0⟩⟩]
  else []

/-- SD:141-158, with DM:150-156: the only entry of `dict_p_rel_noisy_arr` is the next instance. -/
def jointIdx (idx i : ℕ) : List (Meas Linear1D.Data) :=
  if (a.jointUpdates = true ∧ 1 < num a) ∧ a.delayJoint < idx then
    [⟨i, time fp a (idx - a.delayJoint), .joint,
      ⟨scalar (d.rel i (idx - a.delayJoint)), scalar (a.stdRel * a.stdRel), (i + 1) % num a⟩⟩]
  else []

/-- SD:115-168: the measurements of `update_idx`. -/
def updateIdx (idx i : ℕ) : List (Meas Linear1D.Data) := privateIdx fp a d idx i ++ jointIdx fp a d idx i

/-- SD:110: the answer is not used. -/
noncomputable def propCall (S : Insts (Res Hdl) Linear1D.Data) (h : HState (Res Hdl) Linear1D.Data) (m : Meas Linear1D.Data) :
    HState (Res Hdl) Linear1D.Data := (Handler.process fp S h m).1

/-- SD:132-138, 160-164: the first element of the answer is read. -/
noncomputable def updCall (S : Insts (Res Hdl) Linear1D.Data) (h : HState (Res Hdl) Linear1D.Data) (m : Meas Linear1D.Data) :
    HState (Res Hdl) Linear1D.Data :=
  let r := Handler.process fp S h m
  if r.2 = [] then { r.1 with w := .ub } else r.1

/-- DM:159-166: one step of the main loop. -/
noncomputable def stepIdx (S : Insts (Res Hdl) Linear1D.Data) (h : HState (Res Hdl) Linear1D.Data) (idx : ℕ) : HState (Res Hdl) Linear1D.Data :=
  ((List.range (num a)).flatMap (updateIdx fp a d idx)).foldl (updCall fp S)
    (((List.range (num a)).map (propagateIdx fp a d idx)).foldl (propCall fp S) h)

/-- SD:42-55: the initial estimate. -/
noncomputable def bel0 (i : ℕ) : Belief := { mean := d.mean0 i, Sigma := Mat.smul (1 / 2) (one 2), stamp := 0 }

/-- DM:140-148 with SD:32-56: the instances, initialised at time 0 and registered. -/
noncomputable def team (k : ℕ) : Hdl :=
  (List.range k).foldl (fun h i => Hdl.addTo (dur a) h i (Inst.doInit ⟨[], [], |dur a|⟩ (bel0 d i) 0)) []

/-- DM:116-127: the handler before the main loop (the default horizon, 1 s, is IsolatedKalmanFilterHandler.hpp:30). -/
noncomputable def handler : HState (Res Hdl) Linear1D.Data := Handler.setHorizon (Handler.init (.ok (team a d (num a))) 1) (dur a)

/-- DM:158-167. -/
noncomputable def run (near : Mat → Mat) (g : ℕ → ℕ → ℝ) : HState (Res Hdl) Linear1D.Data :=
  (List.range' 1 (size fp a - 1)).foldl (stepIdx fp a d (Hdl.userInsts fp near (Linear1D.user fp g))) (handler a d)

/-- SD:62-63, 169-184 `calc_est_traj`: position and velocity of instance `i` at index `idx`; where no belief is stored the array keeps
its value, the initial mean at index 0 and zero elsewhere (TR:34-41). -/
noncomputable def est (h : Hdl) (i idx : ℕ) : ℝ × ℝ :=
  match (h.find i).bind fun x => x.beliefAt (time fp a idx) with
  | some b => (b.mean.e 0 0, b.mean.e 1 0)
  | none => if idx = 0 then ((d.mean0 i).e 0 0, (d.mean0 i).e 1 0) else (0, 0)

end DelayDemo
end Ikf
