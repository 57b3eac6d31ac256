import Verif.Model.Ldlt

/-!
# The repair of a covariance with the modelled test

source/ikf/source/EstimatorHandler/IsolatedKalmanFilterHandler.cpp (cited IH). Model/Isolated (`fixPsd`) uses the exact test instead;
Props/LdltRepair shows where the two agree.
-/

namespace Ikf
namespace Ldlt

/-- IH:260-264 `if (!is_positive_semidefinite(P)) P = nearest_covariance(P, 1e-6)`. -/
noncomputable def repair (near : Mat → Mat) (P : Mat) : Res Mat := do
  let ok ← isPsd P
  if !ok then .ok (near P) else .ok P

end Ldlt
end Ikf
