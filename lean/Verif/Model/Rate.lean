import Verif.Model.CyclicThread
import Verif.Model.Timestamp

/-!
# Rate

Model of `ikf::utils::Rate` (source/ikf/source/utils/Rate.cpp, `RT`). Times of `Clock::now()` are nanoseconds.
Simplification: the argument of `setRate` is a finite number.
-/

namespace Ikf
namespace Rate

/-- RT:44-47 `setRate`: the period in ms. `static_cast<std::uint32_t>` of a double drops the fraction; a value that does not fit is
undefined behaviour. -/
def setRate (fp : FP) (hz : ℚ) : Res ℕ :=
  if hz = 0 then .ok 0
  else
    let x := fp.rnd (1000 / hz)
    if -1 < x ∧ x < 4294967296 then .ok ⌊max x 0⌋.toNat else .ub

/-- RT:27-29: the time to sleep in ms, from the period, the start of the cycle and the time now. `duration_cast` drops the fraction;
the difference is an int64, the variable an int32. -/
def sleepMs (period : ℕ) (start now : Int) : Int := Cyc.toI32 (period - (now - start).tdiv 1000000)

/-- RT:25-37 `sleep`: the start of the next cycle. `late` is how much later than asked for the thread goes on (and the time between the two
readings of the clock). -/
def sleep (period : ℕ) (start now late : Int) : Int :=
  if 0 < sleepMs period start now then now + sleepMs period start now * 1000000 + late else now + late

/-- A loop that works `p.1` ns and then calls `sleep()`, which goes on `p.2` ns late: the start of the cycle after the last. -/
def loop (period : ℕ) (start : Int) (L : List (Int × Int)) : Int := L.foldl (fun s p => sleep period s (s + p.1) p.2) start

end Rate
end Ikf
