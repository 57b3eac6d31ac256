import Verif.Model.UserFilter
import Verif.Spec.Central
import Verif.Lemmas.HandlerSort
import Verif.Lemmas.SMap

/-!
# Specification: measurements processed in order by the centralised filter

One filter with the whole covariance is given the measurements one after the other. The filter class `U` supplies the
numbers, evaluated at the centralised filter's own estimate. No buffers, no delays, no factors.
-/

namespace Ikf
open Mat

namespace Central

/-- The innovation gate turns down the observation `H, R, r` of instance `id`. -/
def GatePriv (c : Central) (id : ℕ) (H R r : Mat) (cfg : Cfg) : Prop :=
  ∃ res, correctionStep H R r (c.cov id id) cfg = .ok res ∧ res.rejected = true

/-- The innovation gate turns down the joint observation `dH, R, r`. -/
def GateJoint (dim : ℕ → ℕ) (c : Central) (dH : SMap Mat) (R r : Mat) (cfg : Cfg) : Prop :=
  ∃ H S res, SideBySide dH H ∧ StackedCov (participants dim c dH) c.cov S ∧
    correctionStep H R r (stabM S (1 / 10^12)) cfg = .ok res ∧ res.rejected = true

end Central

section
variable {P : Type _}

/-- What one measurement does to the centralised filter. -/
inductive MeasSpec (dim : ℕ → ℕ) (near : Mat → Mat) (U : EkfUser P) (c : Central) (m : Meas P) : Central → Prop
  /-- dynamics: from the estimate of the instance to the time of the measurement -/
  | prop (mb Phi Q c') (hk : m.kind = .propagation) (hlt : c.tm m.id < m.t)
      (hU : U.prop m.id m.data (c.tm m.id) m.t (c.mu m.id) = .ok (mb, Phi, Q))
      (hs : SpecStep dim near c (.propEKF m.id mb Phi Q (c.tm m.id) m.t) c') : MeasSpec dim near U c m c'
  /-- a private observation of an instance whose estimate is of another time has no effect -/
  | privNone (hk : m.kind = .priv) (hne : c.tm m.id ≠ m.t) : MeasSpec dim near U c m c
  /-- private observation, by the instance itself -/
  | priv (H R r c') (hk : m.kind = .priv) (ht : c.tm m.id = m.t) (hv : U.viaHandler = false)
      (hU : U.priv m.id m.data m.t (c.mu m.id) = .ok (H, R, r))
      (hs : SpecStep dim near c (.privEKF m.id H R r m.t U.cfg) c') : MeasSpec dim near U c m c'
  | privGate (H R r) (hk : m.kind = .priv) (ht : c.tm m.id = m.t) (hv : U.viaHandler = false)
      (hU : U.priv m.id m.data m.t (c.mu m.id) = .ok (H, R, r)) (hg : c.GatePriv m.id H R r U.cfg) : MeasSpec dim near U c m c
  /-- private observation, as a joint observation with one participant -/
  | privH (H R r c') (hk : m.kind = .priv) (ht : c.tm m.id = m.t) (hv : U.viaHandler = true)
      (hU : U.priv m.id m.data m.t (c.mu m.id) = .ok (H, R, r))
      (hs : SpecStep dim near c (.jointR [(m.id, H)] R r m.t U.cfg) c') : MeasSpec dim near U c m c'
  | privHGate (H R r) (hk : m.kind = .priv) (ht : c.tm m.id = m.t) (hv : U.viaHandler = true)
      (hU : U.priv m.id m.data m.t (c.mu m.id) = .ok (H, R, r)) (hg : c.GateJoint dim [(m.id, H)] R r U.cfg) :
      MeasSpec dim near U c m c
  /-- joint observation: all participants have estimates of that time -/
  | joint (dH R r c') (hk : m.kind = .joint) (ht : ∀ p ∈ U.parts m.id m.data, c.tm p = m.t)
      (hU : U.joint m.id m.data m.t ((U.parts m.id m.data).map c.mu) = .ok (dH, R, r))
      (hs : SpecStep dim near c (.jointR dH R r m.t U.cfg) c') : MeasSpec dim near U c m c'
  | jointGate (dH R r) (hk : m.kind = .joint) (ht : ∀ p ∈ U.parts m.id m.data, c.tm p = m.t)
      (hU : U.joint m.id m.data m.t ((U.parts m.id m.data).map c.mu) = .ok (dH, R, r))
      (hg : c.GateJoint dim dH R r U.cfg) : MeasSpec dim near U c m c

/-- The measurements of the list, in its order. -/
inductive CentralRun (dim : ℕ → ℕ) (near : Mat → Mat) (U : EkfUser P) (c0 : Central) : List (Meas P) → Central → Prop
  | nil : CentralRun dim near U c0 [] c0
  | snoc {L c m c'} (r : CentralRun dim near U c0 L c) (h : MeasSpec dim near U c m c') : CentralRun dim near U c0 (L ++ [m]) c'

/-- The numbers of the filter class have the sizes of the state `dim`; `ok` are the measurements they are computed from. -/
structure Proper (dim : ℕ → ℕ) (U : EkfUser P) (ok : Meas P → Prop) : Prop where
  prop : ∀ m ta x, ok m → m.kind = .propagation → x.Shape (dim m.id) 1 →
    ∃ mb Phi Q, U.prop m.id m.data ta m.t x = .ok (mb, Phi, Q) ∧ Phi.Shape (dim m.id) (dim m.id) ∧
      Q.Shape (dim m.id) (dim m.id) ∧ Q.tr = Q ∧ mb.Shape (dim m.id) 1
  priv : ∀ m x, ok m → m.kind = .priv → x.Shape (dim m.id) 1 →
    ∃ H R r, U.priv m.id m.data m.t x = .ok (H, R, r) ∧ H.cols = dim m.id ∧ R.Shape H.rows H.rows ∧ r.Shape H.rows 1
  joint : ∀ m mu, ok m → m.kind = .joint → (∀ p ∈ U.parts m.id m.data, (mu p : Mat).Shape (dim p) 1) →
    ∃ dH R r, U.joint m.id m.data m.t ((U.parts m.id m.data).map mu) = .ok (dH, R, r) ∧ dH.Sorted ∧ dH ≠ [] ∧
      (∀ p ∈ dH.keys, p ∈ U.parts m.id m.data) ∧
      ∃ k, (∀ e ∈ dH, e.2.Shape k (dim e.1)) ∧ R.Shape k k ∧ r.Shape k 1

/-- A set of measurements (in any order) the filters can process. `reg` are the registered instances, `start p` is the time of
the initial estimate of `p`, `keep p` (ns) is how far back the history of `p` reaches and `span` (ns) how far back the handler
goes for a delayed measurement.
- registered instances, after the initial time `t0` and not after `hi`, not two propagations of one instance to one time;
- every participant of a joint observation is propagated to the time of the observation;
- when an instance is propagated to the time of `x`, its history still has an estimate that is not newer than `o`, for every
  measurement `o` the handler can go back to. -/
structure Served (U : EkfUser P) (reg : ℕ → Bool) (ok : Meas P → Prop) (start keep : ℕ → Int) (span t0 hi : Int) (L : List (Meas P)) : Prop where
  known : ∀ m ∈ L, reg m.id = true ∧ m.kind ≠ .unknown ∧ ok m
  time : ∀ m ∈ L, t0 < m.t ∧ m.t ≤ hi
  once : L.Pairwise fun a b => a.kind = .propagation → b.kind = .propagation → a.id = b.id → a.t ≠ b.t
  reached : ∀ m ∈ L, m.kind = .joint → ∀ p ∈ U.parts m.id m.data, reg p = true ∧
    ∃ x ∈ L, x.kind = .propagation ∧ x.id = p ∧ x.t = m.t
  fresh : ∀ o ∈ L, ∀ x ∈ L, x.kind = .propagation → o.t < x.t → x.t - o.t ≤ span →
    ∃ s, (s = start x.id ∨ ∃ y ∈ L, y.kind = .propagation ∧ y.id = x.id ∧ y.t = s) ∧ s ≤ o.t ∧ x.t - s ≤ keep x.id

end

/-- The filters agree with the centralised filter: every instance has its time, mean and covariance, and the cross-covariances of
instances at the same time are its cross-covariances (an empty matrix is the answer for uncorrelated instances). -/
def Agrees (dim : ℕ → ℕ) (h : Hdl) (c : Central) : Prop :=
  (∀ p i, h.find p = some i → ∃ b, i.bel.getLast? = some (c.tm p, b) ∧ b.mean = c.mu p ∧ b.Sigma = c.cov p p) ∧
  ∀ p q, p ≠ q → (h.find p).isSome → (h.find q).isSome → c.tm p = c.tm q →
    Hdl.getSigma h p q (c.tm p) = .ok (c.cov p q) ∨
      (Hdl.getSigma h p q (c.tm p) = .ok Mat.empty ∧ c.cov p q = Mat.zero (dim p) (dim q))

/-- The filters' histories agree at time `s` with the centralised filter (whose estimates are not newer than `s`): the newest estimate each
instance stores up to `s` has its time, mean and covariance, and so have the cross-covariances of instances at the same time. -/
def AgreesAt (dim : ℕ → ℕ) (h : Hdl) (c : Central) (s : Int) : Prop :=
  (∀ p i, h.find p = some i → ∃ b, (i.bel.filter fun e => decide (e.1 ≤ s)).getLast? = some (c.tm p, b) ∧ b.mean = c.mu p ∧ b.Sigma = c.cov p p) ∧
  ∀ p q, p ≠ q → (h.find p).isSome → (h.find q).isSome → c.tm p = c.tm q →
    Hdl.getSigma h p q (c.tm p) = .ok (c.cov p q) ∨
      (Hdl.getSigma h p q (c.tm p) = .ok Mat.empty ∧ c.cov p q = Mat.zero (dim p) (dim q))

end Ikf
