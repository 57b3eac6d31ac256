import Verif.Model.StdFilters
import Verif.Model.Timestamp

/-!
# The example program `ikf_simple_cmd`

Model of source/examples/ikf_simple_cmd: main.cpp (`MN`), include/SimInstance.hpp (`SI`), include/LinearIKF.hpp (`LI`) and
include/Trajectory.hpp (`TR`): N one-dimensional bodies, each with an isolated filter without buffers (position, velocity).

Simplifications: times are doubles (`FP`), matrices exact reals; what the noise generators yield is a parameter (`Draws`): the
sampled initial means, noisy positions, accelerations and relative positions; the map of an instance from the other ID to its
relative positions has at most one entry (MN:145-151) and is written as a conditional; the four arrays of a trajectory have
the same length for all instances (same D and dt), so the two checks of TR:126-128 pass; console output, plots, the copy of
the estimates in `HistBelief` (only printed) and the error statistics are left out.
-/

namespace Ikf
open Mat
namespace SimpleCmd

/-- MN:27-61, the options that the program reads after parsing them (`--seed` and `--first_private_only` are only parsed and
printed; see `Cmd`). -/
structure Opts where
  num : ℤ
  duration : ℤ
  joint : Bool
  freq : ℤ
  stdP : ℝ
  stdA : ℝ
  stdRel : ℝ

/-- What the noise generators yield for the instances: SI:50-52 initial mean, SI:58-59 noisy positions and accelerations
(instance, index), SI:92-94 noisy relative positions to the next instance. -/
structure Draws where
  m0 : ℕ → ℝ × ℝ
  pos : ℕ → ℕ → ℝ
  acc : ℕ → ℕ → ℝ
  rel : ℕ → ℕ → ℝ

/-- MN:65 `max(N, 1)`. -/
def Opts.n (o : Opts) : ℕ := (max o.num 1).toNat

/-- MN:91 `1.0 / max(1, freq)`, a double. -/
def Opts.dt (fp : FP) (o : Opts) : ℚ := fp.rnd (1 / (max 1 o.freq : ℤ))

/-- TR:117 `size_t const N = D/dt + 1` (conversion of a double; a negative value is undefined, and with no samples SI:45 reads
outside of the array). -/
def Opts.samples (fp : FP) (o : Opts) : Res ℕ :=
  let x := fp.rnd (fp.rnd ((o.duration : ℚ) / o.dt fp) + 1)
  if x < 1 then .ub else .ok ⌊x⌋.toNat

/-- TR:118 `t_arr.setLinSpaced(N, 0, D)` at index `k` (the last one is `D`). -/
def Opts.tArr (fp : FP) (o : Opts) (n k : ℕ) : ℚ :=
  if k + 1 = n then o.duration else fp.rnd (fp.rnd (k * fp.rnd ((o.duration : ℚ) / ((n - 1 : ℕ) : ℚ))))

/-- MN:107 and MN:110. -/
noncomputable def matF (dt : ℝ) : Mat := Mat.of 2 2 (fun i j => if i = j then 1 else if j = 1 then dt else 0)
noncomputable def matG (dt : ℝ) : Mat := Mat.of 2 1 (fun i _ => if i = 0 then dt * dt / 2 else dt)
/-- MN:113. -/
noncomputable def matQ : Mat := Mat.of 2 2 (fun i j => if i = j then 1 / 10^6 else 0)
/-- MN:108, SI:140-141. -/
noncomputable def rowP (s : ℝ) : Mat := Mat.of 1 2 (fun _ j => if j = 0 then s else 0)
/-- 1 × 1 matrices: MN:114-116, SI:101-102, SI:120, SI:139, SI:143. -/
noncomputable def one1 (x : ℝ) : Mat := Mat.of 1 1 (fun _ _ => x)

/-- SI:44-56: the initial estimate. -/
noncomputable def bel0 (d : Draws) (i : ℕ) : Belief where
  mean := Mat.of 2 1 (fun r _ => if r = 0 then (d.m0 i).1 else (d.m0 i).2)
  Sigma := Mat.of 2 2 (fun r c => if r = c then 1 / 2 else 0)
  stamp := 0

/-- MN:136-143: instances 0, …, N-1 in the handler. -/
noncomputable def hdl0 (o : Opts) (d : Draws) : StdHdl := (List.range o.n).map (fun i => (i, ⟨some (bel0 d i), []⟩))

/-- The handler with the filters, and the arrays `traj_est` of the instances: instance, index, time, mean. -/
structure St where
  h : StdHdl
  est : ℕ → ℕ → Option (Timestamp × Mat)

/-- `for (i : l) body(i)`. -/
def forL {σ : Type} (body : σ → ℕ → Res σ) : List ℕ → σ → Res σ
  | [], s => .ok s
  | i :: l, s => do
    let s' ← body s i
    forL body l s'

/-- LI:46-52: the target time of `predict(u, var_u)` for an estimate at `t`. -/
def next (fp : FP) (dt : ℚ) (t : Int) : Int := (fp.fromSec (fp.rnd (fp.toSec (Timestamp.ofStampNs t) + dt))).ns

section
variable (g1 g2 g3 : ℕ → ℕ → ℝ) (fp : FP) (o : Opts) (d : Draws)

/-- SI:96-109 `propagate_idx(idx)` of instance `i` (the result of `predict` only decides on printing). -/
noncomputable def propIdx (idx : ℕ) (s : St) (i : ℕ) : Res St := do
  let f ← StdHdl.get s.h i
  let b ← f.deref
  let r ← StdHdl.onInst s.h i (fun f => f.propU (matF (o.dt fp : ℝ)) matQ (next fp (o.dt fp) b.stamp) (matG (o.dt fp : ℝ)) (one1 (d.acc i idx)) (one1 (o.stdA * o.stdA)))
  .ok { s with h := r.1 }

/-- SI:118-129 with MN:140-142: only instance 0 keeps `perform_private`. -/
noncomputable def privIdx (idx : ℕ) (s : St) (i : ℕ) : Res St :=
  if i = 0 then do
    let r ← StdHdl.onInst s.h i (fun f => f.priv (rowP 1) (one1 (o.stdP * o.stdP)) (one1 (d.pos i idx)))
    .ok { s with h := r.1 }
  else .ok s

/-- SI:131-153 with MN:145-151. -/
noncomputable def jointIdx (idx : ℕ) (s : St) (i : ℕ) : Res St :=
  if o.joint = true ∧ 1 < o.n then do
    let r ← StdHdl.joint g1 g2 g3 s.h i i ((i + 1) % o.n) (rowP (-1)) (rowP 1) (one1 (o.stdRel * o.stdRel)) (one1 (d.rel i idx))
    .ok { s with h := r.1 }
  else .ok s

/-- SI:155-162: the estimate of instance `i` is recorded under the time of the trajectory. -/
noncomputable def recordIdx (n idx : ℕ) (s : St) (i : ℕ) : Res St := do
  let f ← StdHdl.get s.h i
  let b ← f.deref
  .ok { s with est := fun j k => if j = i ∧ k = idx then some (fp.fromSec (o.tArr fp n idx), b.mean) else s.est j k }

/-- SI:111-165 `update_idx(idx)`. -/
noncomputable def updIdx (n idx : ℕ) (s : St) (i : ℕ) : Res St := do
  let s1 ← privIdx o d idx s i
  let s2 ← jointIdx g1 g2 g3 o d idx s1 i
  recordIdx fp o n idx s2 i

/-- MN:153-162: one pass of the outer loop. -/
noncomputable def stepIdx (n : ℕ) (s : St) (idx : ℕ) : Res St := do
  let s1 ← forL (propIdx fp o d idx) (List.range o.n) s
  forL (updIdx g1 g2 g3 fp o d n idx) (List.range o.n) s1

/-- MN:65-162. -/
noncomputable def main : Res St := do
  let n ← o.samples fp
  let s0 : St := ⟨hdl0 o d, fun i k => if i < o.n ∧ k = 0 then some (fp.fromSec (o.tArr fp n 0), (bel0 d i).mean) else none⟩
  forL (stepIdx g1 g2 g3 fp o d n) (List.range' 1 (n - 1)) s0

end

/-- MN:27-61: the command line. -/
structure Cmd extends Opts where
  firstPrivateOnly : Bool
  seed : ℤ
  omega : ℝ

/-- MN:65-162 with the generator of the noise: MN:84-85 seeds it with a constant. -/
noncomputable def program (g1 g2 g3 : ℕ → ℕ → ℝ) (fp : FP) (noise : ℤ → Opts → ℝ → Draws) (c : Cmd) : Res St :=
  main g1 g2 g3 fp c.toOpts (noise 123123 c.toOpts c.omega)

end SimpleCmd
end Ikf
