import Verif.Model.Isolated

/-!
# Instances joining and leaving a handler

`source/ikf/source/EstimatorHandler/IDICOHandler.cpp` (DH) on the instances themselves (`Model/Registry` has the same functions on
pointers).
-/

namespace Ikf
namespace Hdl

/-- KF:251-255, IK:149-154 `set_horizon` of an instance: nothing is trimmed. -/
def withHorizon (i : Inst) (hor : ℚ) : Inst := { i with hor := hor }

/-- DH:28-42 `add` of the instance `i` with the ID `p` to a handler with the horizon `hor` (the flag for delayed measurements of
instances is not part of this model; locks are taken for granted). -/
def addInst (hor : ℚ) (h : Hdl) (p : ℕ) (i : Inst) : Hdl × Bool :=
  if !(h.find p).isSome then (h.emplace p (withHorizon i hor), true) else (h, false)

/-- DH:44-56 `remove`. -/
def removeInst (h : Hdl) (p : ℕ) : Hdl × Bool :=
  match h.find p with
  | some _ => (h.erase p, true)
  | none => (h, false)

end Hdl
end Ikf
