import Verif.Model.SimpleCmd
import Verif.Spec.Std

/-!
# The calls of `ikf_simple_cmd`, in the terms of the model

The sequence of calls of the filters 0, …, N-1 with the matrices of the model; `Spec/SimpleCmd` states it independently. All
filters have two states (position, velocity).
-/

namespace Ikf
open Mat
namespace SimpleCmd

/-- Two states per filter. -/
def dim2 : ℕ → ℕ := fun _ => 2

/-- The centralised filter at the start: the sampled means, independent, covariance 0.5 I, time 0. -/
noncomputable def central0 (d : Draws) : Central where
  tm _ := 0
  mu i := (bel0 d i).mean
  cov i j := if i = j then (bel0 d i).Sigma else Mat.zero 2 2
  fix _ := false

/-- Time of all estimates after `k` steps, nanoseconds: each step adds dt, unless the sum is not later. -/
def clock (fp : FP) (dt : ℚ) : ℕ → Int
  | 0 => 0
  | k + 1 => max (clock fp dt k) (next fp dt (clock fp dt k))

section
variable (fp : FP) (o : Opts) (d : Draws)

/-- Step `k + 1`, instance `i`: propagation with the noisy acceleration of that step. -/
noncomputable def evProp (k i : ℕ) : StdEv :=
  .propU i (matF (o.dt fp : ℝ)) matQ (next fp (o.dt fp) (clock fp (o.dt fp) k)) (matG (o.dt fp : ℝ)) (one1 (d.acc i (k + 1))) (one1 (o.stdA * o.stdA))

/-- Step `k + 1`, instance `i`: the position of instance 0, and the position of the next instance relative to `i`. -/
noncomputable def evObs (k i : ℕ) : List StdEv :=
  (if i = 0 then [.priv i (rowP 1) (one1 (o.stdP * o.stdP)) (one1 (d.pos i (k + 1)))] else []) ++
  (if o.joint = true ∧ 1 < o.n then
    [.joint i i ((i + 1) % o.n) (rowP (-1)) (rowP 1) (one1 (o.stdRel * o.stdRel)) (one1 (d.rel i (k + 1)))] else [])

/-- Step `k + 1` up to the observations of the first `j` instances. -/
noncomputable def evStep (k j : ℕ) : List StdEv := (List.range o.n).map (evProp fp o d k) ++ (List.range j).flatMap (evObs o d k)

/-- The first `k` steps. -/
noncomputable def script (k : ℕ) : List StdEv := (List.range k).flatMap fun j => evStep fp o d j o.n

end
end SimpleCmd
end Ikf
