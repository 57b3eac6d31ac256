import Verif.Model.SimpleCmd
import Verif.Spec.Std

/-!
# Specification: what `ikf_simple_cmd` is meant to compute

The sequence of calls of the filters 0, …, N-1 that the program stands for, the centralised filter it starts from, and the
times. Each body has a position and a velocity. Only the options (`Opts`), the yields of the noise generators (`Draws`) and
the arithmetic of doubles (`FP`) are taken from the model.
-/

namespace Ikf
namespace SimpleCmd
namespace Spec

/-- Matrices written out. -/
noncomputable def m22 (a b c d : ℝ) : Mat := Mat.of 2 2 fun i j => if i = 0 then (if j = 0 then a else b) else (if j = 0 then c else d)
noncomputable def m21 (a b : ℝ) : Mat := Mat.of 2 1 fun i _ => if i = 0 then a else b
noncomputable def m12 (a b : ℝ) : Mat := Mat.of 1 2 fun _ j => if j = 0 then a else b
noncomputable def m11 (a : ℝ) : Mat := Mat.of 1 1 fun _ _ => a

/-- The state has two entries. -/
def two : ℕ → ℕ := fun _ => 2

/-- The centralised filter at the start: the sampled means, independent, variances one half, time 0. -/
noncomputable def start (d : Draws) : Central where
  tm _ := 0
  mu i := m21 (d.m0 i).1 (d.m0 i).2
  cov i j := if i = j then m22 (1 / 2) 0 0 (1 / 2) else m22 0 0 0 0
  fix _ := false

section
variable (fp : FP) (o : Opts) (d : Draws)

/-- Number of bodies: at least one. -/
def bodies : ℕ := if o.num ≤ 1 then 1 else o.num.toNat

/-- Step, in seconds: the period of the rate, which is at least 1 Hz. -/
def period : ℚ := if o.freq ≤ 1 then fp.rnd 1 else fp.rnd (1 / (o.freq : ℚ))

/-- Number of samples of the trajectories: rate times duration, and one. -/
def samples : ℤ := ⌊fp.rnd (fp.rnd ((o.duration : ℚ) / period fp o) + 1)⌋

/-- Time of sample `k` of `n`: equidistant from 0 to the duration. -/
def sampleTime (n k : ℕ) : Timestamp :=
  fp.fromSec (if k + 1 = n then (o.duration : ℚ) else fp.rnd (fp.rnd ((k : ℚ) * fp.rnd ((o.duration : ℚ) / ((n - 1 : ℕ) : ℚ)))))

/-- Time one step after `t` nanoseconds, computed in seconds. -/
def after (t : Int) : Int := (fp.fromSec (fp.rnd (fp.toSec (Timestamp.ofStampNs t) + period fp o))).ns

/-- Time of all estimates after `k` steps, nanoseconds: each step adds the period, unless the sum is not later. -/
def time : ℕ → Int
  | 0 => 0
  | k + 1 => max (time k) (after fp o (time k))

/-- Step `k + 1`, body `i`: constant acceleration over the period, driven by the noisy acceleration of that step. -/
noncomputable def propagation (k i : ℕ) : StdEv :=
  let T : ℝ := (period fp o : ℝ)
  .propU i (m22 1 T 0 1) (m22 (1 / 10^6) 0 0 (1 / 10^6)) (after fp o (time fp o k)) (m21 (T^2 / 2) T) (m11 (d.acc i (k + 1))) (m11 (o.stdA^2))

/-- Step `k + 1`, body `i`: the position of body 0; the position of the next body relative to `i`. -/
noncomputable def observations (k i : ℕ) : List StdEv :=
  (if i = 0 then [.priv 0 (m12 1 0) (m11 (o.stdP^2)) (m11 (d.pos 0 (k + 1)))] else []) ++
  (if o.joint ∧ 2 ≤ bodies o then
    let next := if i + 1 < bodies o then i + 1 else 0
    [.joint i i next (m12 (-1) 0) (m12 1 0) (m11 (o.stdRel^2)) (m11 (d.rel i (k + 1)))] else [])

/-- Step `k + 1` up to the observations of the first `j` bodies: first all propagations, then the observations. -/
noncomputable def step (k j : ℕ) : List StdEv :=
  (List.range (bodies o)).map (propagation fp o d k) ++ (List.range j).flatMap (observations o d k)

/-- The first `k` steps. -/
noncomputable def script (k : ℕ) : List StdEv := (List.range k).flatMap fun j => step fp o d j (bodies o)

end
end Spec
end SimpleCmd
end Ikf
