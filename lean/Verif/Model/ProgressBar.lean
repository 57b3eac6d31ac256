import Mathlib.Data.Rat.Floor
import Verif.Model.Mat
import Verif.Model.Timestamp

/-!
# The progress bar

Model of `ikf::utils::ProgressBar` (source/ikf/source/utils/ProgressBar.cpp, `PB`). A call prints nothing or one line; a line is kept as
its parts instead of as text. The time `Profiler::elapsedSec` reads is an input. `size_t` arithmetic is modulo 2^64, doubles are rounded by
an arbitrary `FP`.

Simplifications: the symbols, the messages and `createNewLine` are left out (they change the looks only). `startMsg` and `showBar` are
stored and never read by the code.
-/

namespace Ikf
namespace PBar

/-- Arithmetic in `size_t`. -/
abbrev u64 (v : ℕ) : ℕ := v % 18446744073709551616

/-- The members set by the constructor. -/
structure Cfg where
  numSteps : ℕ
  barLen : ℕ
  increment : ℕ
  remTime : Bool
  percentage : Bool
  actualNum : Bool
  finalTime : Bool

/-- The members that change. -/
structure St where
  tick : ℕ
  next : ℕ
  final : ℚ

/-- Hours, minutes and seconds as printed by `sec_to_HHMMSS`. -/
structure Hms where
  h : Int
  m : Int
  s : Int
deriving DecidableEq

/-- A printed line. -/
inductive Line where
  /-- PB:50-59: the end message, with the time it took -/
  | done (after : Option Hms)
  /-- PB:61-79: so many symbols and blanks, then what is switched on -/
  | bar (full blank : ℕ) (num : Option (ℕ × ℕ)) (percent : Option ℚ) (time : Option (Hms × Hms))
deriving DecidableEq

/-- PB:25-26: the number of steps from one line to the next. The quotient of two `size_t` is a whole number (division by 0 is undefined
behaviour), converted to double; `ceil` does nothing to it; the result is truncated on its way back to `size_t`. -/
def increment (fp : FP) (numSteps updStepPerc : ℕ) : Res ℕ :=
  let upd := min 100 (max updStepPerc 0)
  if upd = 0 then .ub
  else .ok ⌊fp.rnd ((⌈fp.rnd ((u64 (numSteps * 100) / upd : ℕ) : ℚ)⌉ : ℚ) / 100)⌋.toNat

/-- PB:16-30: the constructor. -/
def make (fp : FP) (numSteps barLen updStepPerc : ℕ) (remTime percentage actualNum finalTime : Bool) : Res (Cfg × St) :=
  (increment fp numSteps updStepPerc).bind fun inc =>
  .ok (⟨numSteps, barLen, inc, remTime, percentage, actualNum, finalTime⟩, ⟨0, inc, 0⟩)

/-- PB:84-90 `sec_to_HHMMSS`. Converting to `int` a number that does not fit is undefined behaviour. -/
def hms (s : ℚ) : Res Hms :=
  let sec := ⌊s⌋
  if -2147483648 ≤ sec ∧ sec ≤ 2147483647 then .ok ⟨sec.tdiv 3600, (sec.tmod 3600).tdiv 60, sec.tmod 60⟩ else .ub

/-- PB:70: the percentage. -/
def percentOf (fp : FP) (i n : ℕ) : ℚ := fp.rnd (fp.rnd (fp.rnd i * 100) / fp.rnd n)

/-- PB:74-78: the elapsed time and the time left. Division by a percentage of 0 gives infinity or NaN, whose conversion to `int` is
undefined. -/
def times (fp : FP) (percent now : ℚ) : Res (Hms × Hms) :=
  if percent = 0 then .ub
  else (hms now).bind fun a =>
    (hms (fp.rnd (fp.rnd (now * fp.rnd (100 - percent)) / percent))).bind fun b => .ok (a, b)

/-- PB:61-80: the line of a step that is not the last. (`floor` takes the quotient through a double, which is exact below 2^53; left out.) A bar with more symbols than fit asks for a string of about 2^64 blanks, which
throws. -/
def barLine (fp : FP) (c : Cfg) (i : ℕ) (now : ℚ) : Res Line :=
  let bars := u64 (i * c.barLen) / c.numSteps
  if c.barLen < bars then .throws
  else
    let p := percentOf fp i c.numSteps
    (if c.remTime then (times fp p now).bind fun x => .ok (some x) else .ok none).bind fun t =>
    .ok (.bar bars (c.barLen - bars) (if c.actualNum then some (i, c.numSteps) else none)
      (if c.percentage then some p else none) t)

/-- PB:37-82 `update`. -/
def update (fp : FP) (c : Cfg) (s : St) (i : ℕ) (now : ℚ) : Res (St × Option Line) :=
  if i < s.next then .ok (s, none)
  else
    let s := { s with next := min (u64 (s.next + c.increment)) c.numSteps }
    if c.numSteps ≤ i then
      if c.finalTime then
        let s := if s.final = 0 then { s with final := now } else s
        (hms s.final).bind fun t => .ok (s, some (.done (some t)))
      else .ok (s, some (.done none))
    else (barLine fp c i now).bind fun l => .ok (s, some l)

/-- PB:32-35 `progress`. -/
def progress (fp : FP) (c : Cfg) (s : St) (now : ℚ) : Res (St × Option Line) :=
  let s := { s with tick := min (u64 (s.tick + 1)) c.numSteps }
  update fp c s s.tick now

/-- A program that calls `progress` at the given times: what each call prints. -/
def runs (fp : FP) (c : Cfg) : St → List ℚ → Res (List (Option Line))
  | _, [] => .ok []
  | s, t :: ts => (progress fp c s t).bind fun r => (runs fp c r.1 ts).bind fun ls => .ok (r.2 :: ls)

end PBar
end Ikf
