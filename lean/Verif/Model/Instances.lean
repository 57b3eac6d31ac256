import Verif.Model.Handler

/-!
# Instances as the handler sees them

The belief and cross-covariance-factor histories of all isolated filter instances of one handler,
with the two removal functions. Simplification: a missing factor history (`HistCrossCovFactors` has no
entry) and an empty one are the same here; they differ in `get_correlated_IDs()` only.
-/

namespace Ikf

/-- IDICOHandler.hpp:107 `id_dict`, IKalmanFilter.hpp:133-137 `HistBelief`, `m_enabled`,
IIsolatedKalmanFilter.hpp:194 `HistCrossCovFactors`. -/
structure World (B C : Type _) where
  ids : List Nat
  on : Nat → Bool
  bel : Nat → Buf B
  ccf : Nat → Nat → Buf C

namespace World
variable {B C P : Type _}

/-- IDICOHandler.cpp:418-425 `remove_beliefs_from_t` calling IIsolatedKalmanFilter.cpp:140-147
`remove_from_t`. -/
def removeFrom (w : World B C) (t : Int) : World B C :=
  { w with
    bel := fun i => if w.ids.contains i && (w.bel i).existBefore t
      then ((w.bel i).removeAfter t).removeAt t else w.bel i
    ccf := fun i j => if w.ids.contains i && (w.bel i).existBefore t
      then ((w.ccf i j).removeAfter t).removeAt t else w.ccf i j }

/-- IDICOHandler.cpp:404-416 `remove_beliefs_after_t` calling IIsolatedKalmanFilter.cpp:133-138
`remove_after_t`. -/
def removeAfter (w : World B C) (t : Int) : World B C :=
  { w with
    bel := fun i => if w.ids.contains i && ((w.bel i).existAt t || (w.bel i).existBefore t)
      then (w.bel i).removeAfter t else w.bel i
    ccf := fun i j => if w.ids.contains i && ((w.bel i).existAt t || (w.bel i).existBefore t)
      then (w.ccf i j).removeAfter t else w.ccf i j }

/-- The handler's view (Model/Handler.lean) of these instances; `step` is
`id_dict[m.id]->delegate_measurement(m)`, user code on top of IIsolatedKalmanFilter. -/
def insts (step : World B C → Meas P → World B C × Status) : Insts (World B C) P where
  known w id := w.ids.contains id
  enabled w id := w.on id
  inst := step
  removeFrom := removeFrom
  removeAfter := removeAfter

end World
end Ikf
