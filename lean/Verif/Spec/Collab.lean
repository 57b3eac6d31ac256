import Verif.Spec.Central

/-!
# Specification: calls of several agents on one centralised filter

`own p` is the agent that holds instance `p`. The calls of all agents act on one centralised filter (`Central`); a
joint observation that involves another agent repairs the a priori covariance too (`fixPsd`), and the answers of the
agents are part of the specification.
-/

namespace Ikf
open Mat

/-- Every participant is held by agent `a`. -/
def AllAt (own : ℕ → ℕ) (a : ℕ) (dH : SMap Mat) : Prop := ∀ p ∈ dH.keys, own p = a

/-- The instances `ids` not held by `a` are all held by one other agent (and there is one). -/
def OneOtherL (own : ℕ → ℕ) (a : ℕ) (ids : List ℕ) : Prop := ∃ b, b ≠ a ∧ (∃ p ∈ ids, own p = b) ∧ ∀ p ∈ ids, own p = a ∨ own p = b

/-- The same for the participants. -/
def OneOther (own : ℕ → ℕ) (a : ℕ) (dH : SMap Mat) : Prop := OneOtherL own a dH.keys

/-- What the call `ev` of agent `a` with answer `ans` does to the centralised filter. -/
inductive CStep (own : ℕ → ℕ) (dim : ℕ → ℕ) (near : Mat → Mat) (c : Central) (a : ℕ) : Ev → Bool → Central → Prop
  /-- propagation, private observation, or joint observation of own instances, cross-covariance of any two -/
  | accept {ev c'} (hl : ∀ dH R r t cfg, (ev = .jointR dH R r t cfg ∨ ev = .jointZ dH r R t cfg) → AllAt own a dH)
      (h : SpecStep dim near c ev c') : CStep own dim near c a ev true c'
  | refuse {ev} (hl : ∀ dH R r t cfg, (ev = .jointR dH R r t cfg ∨ ev = .jointZ dH r R t cfg) → AllAt own a dH) :
      CStep own dim near c a ev false c
  /-- joint observation with residual: accepted -/
  | obsR (dH R r t cfg H S res) (ho : ¬ AllAt own a dH) (hh : OneOther own a dH → ∃ p ∈ dH.keys, own p = a) (hH : SideBySide dH H)
      (hS : StackedCov (participants dim c dH) c.cov S)
      (h : correctionStep H R r (Hdl.fixPsd near (stabM S (1 / 10^12))) cfg = .ok res) (hr : res.rejected = false) :
      CStep own dim near c a (.jointR dH R r t cfg) true
        (c.joint (participants dim c dH) (Hdl.fixPsd near res.Sapos) res.dx)
  /-- joint observation with residual: rejected as outlier; with one other agent the call still answers `true` -/
  | rejR (dH R r t cfg H S res ans) (ho : ¬ AllAt own a dH) (hH : SideBySide dH H)
      (hS : StackedCov (participants dim c dH) c.cov S)
      (h : correctionStep H R r (Hdl.fixPsd near (stabM S (1 / 10^12))) cfg = .ok res) (hr : res.rejected = true)
      (ha : ans = true ↔ OneOther own a dH) :
      CStep own dim near c a (.jointR dH R r t cfg) ans c
  /-- joint observation with residual of participants that are all held by one other agent: not performed -/
  | noneR (dH R r t cfg) (ho : OneOther own a dH) (hh : ∀ p ∈ dH.keys, own p ≠ a) : CStep own dim near c a (.jointR dH R r t cfg) false c
  /-- joint observation with measurement: accepted -/
  | obsZ (dH z R t cfg H S m res) (ho : ¬ AllAt own a dH) (hH : SideBySide dH H)
      (hS : StackedCov (participants dim c dH) c.cov S) (hm : StackedMean (participants dim c dH) c.mu m)
      (h : correctionStep H R (z - H * m) (Hdl.fixPsd near (stabM S (1 / 10^12))) cfg = .ok res) (hr : res.rejected = false) :
      CStep own dim near c a (.jointZ dH z R t cfg) true
        (c.joint (participants dim c dH) (Hdl.fixPsd near res.Sapos) res.dx)
  /-- joint observation with measurement: rejected as outlier -/
  | rejZ (dH z R t cfg H S m res) (ho : ¬ AllAt own a dH) (hH : SideBySide dH H)
      (hS : StackedCov (participants dim c dH) c.cov S) (hm : StackedMean (participants dim c dH) c.mu m)
      (h : correctionStep H R (z - H * m) (Hdl.fixPsd near (stabM S (1 / 10^12))) cfg = .ok res) (hr : res.rejected = true) :
      CStep own dim near c a (.jointZ dH z R t cfg) false c

/-- Calls (agent, call, answer) one after the other. -/
inductive CSpecRun (own : ℕ → ℕ) (dim : ℕ → ℕ) (near : Mat → Mat) : Central → List (ℕ × Ev × Bool) → Central → Prop
  | nil (c) : CSpecRun own dim near c [] c
  | cons {c c1 c2 a ev ans l} (h : CStep own dim near c a ev ans c1) (r : CSpecRun own dim near c1 l c2) :
      CSpecRun own dim near c ((a, ev, ans) :: l) c2

end Ikf
