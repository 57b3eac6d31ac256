import Verif.Model.UserFilter

/-!
# Starting over with the same handler

Model of EstimatorHandler/IDICOHandler.cpp:440-451 `reset` and of the calls a user makes to start a new run with the same
objects. Simplifications: the lock is acquired; no instance buffers measurements while it belongs to a handler.
-/

namespace Ikf
namespace Hdl

/-- IDICOHandler.cpp:440-451 `reset`: every instance is reset (IIsolatedKalmanFilter.cpp:40-43). -/
def resetAll (h : Hdl) : Hdl := h.mapV Inst.reset

/-- A user initialises every instance `p` with the belief and the time `L p` (IKalmanFilter.cpp:54-57). -/
def initAll (L : ℕ → Belief × Int) (h : Hdl) : Hdl := h.map fun e => (e.1, e.2.doInit (L e.1).1 (L e.1).2)

end Hdl

namespace Handler
variable {P : Type _}

/-- `reset()` of the handler (DH:440-451): the instances are reset, the buffers of the handler stay. -/
def reset (s : HState (Res Hdl) P) : HState (Res Hdl) P :=
  { s with w := match s.w with
    | .ok h => .ok h.resetAll
    | w => w }

/-- The user's calls of `initialize`. -/
def restart (L : ℕ → Belief × Int) (s : HState (Res Hdl) P) : HState (Res Hdl) P :=
  { s with w := match s.w with
    | .ok h => .ok (h.initAll L)
    | w => w }

end Handler
end Ikf
