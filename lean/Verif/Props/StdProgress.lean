import Verif.Props.StdExamples

/-!
# The filters without buffers: no call with fitting matrices is undefined (C55)
-/

namespace Ikf
open Mat
namespace StdHdl

/-- The matrices of a call fit the sizes of the filters: a propagation with an input has one input (C63 for the others; a
transition of the wrong size is answered with false), a joint update is between two filters and has at least one row. -/
def Fits (dim : ℕ → ℕ) : StdEv → Prop
  | .prop _ _ _ _ => True
  | .propU id _ _ _ G u var => G.Shape (dim id) 1 ∧ u.Shape 1 1 ∧ var.Shape 1 1
  | .priv id H R z => H.cols = dim id ∧ R.Shape H.rows H.rows ∧ z.Shape H.rows 1
  | .joint _ I J HI HJ R z => I ≠ J ∧ ∃ m, 0 < m ∧ HI.Shape m (dim I) ∧ HJ.Shape m (dim J) ∧ R.Shape m m ∧ z.Shape m 1

/-- The call is one of a registered filter (a joint update checks this itself). -/
def Known (h : StdHdl) : StdEv → Prop
  | .prop id _ _ _ => (h.find id).isSome
  | .propU id _ _ _ _ _ _ => (h.find id).isSome
  | .priv id _ _ _ => (h.find id).isSome
  | .joint _ _ _ _ _ _ _ => True

/-- Propagations and private updates. -/
def Own : StdEv → Prop
  | .joint _ _ _ _ _ _ _ => False
  | _ => True

variable {g1 g2 g3 : ℕ → ℕ → ℝ} {dim : ℕ → ℕ} {h h' : StdHdl} {c : Central}

theorem own_returns (hr : StdView.Rel dim (view h) c) (hs : Srt h) (ev : StdEv) (hk : Known h ev) (hf : Fits dim ev) (ho : Own ev) :
    ∃ h' ans, run g1 g2 g3 h ev = .ok (h', ans) := by
  cases ev with
  | joint me I J HI HJ R z => exact ho.elim
  | prop id Phi Q t =>
    obtain ⟨i, hi⟩ := Option.isSome_iff_exists.mp hk
    obtain ⟨b, hb, -, -, -, b4, b5, -⟩ := Rel.stored hr hi
    have hd : StdInst.Holds i b (dim id) := ⟨hb, b4, b5, Rel.rows hr hs hi⟩
    have key : ∃ j a, i.prop Phi Q t = .ok (j, a) := by
      by_cases hc : Phi.Shape (dim id) (dim id) ∧ Q.Shape (dim id) (dim id) ∧ b.stamp < t
      · exact ⟨_, _, ((StdInst.c54_propagate hd Phi Q t).1 hc).2⟩
      · exact ⟨_, _, ((StdInst.c54_propagate hd Phi Q t).2 hc).2⟩
    obtain ⟨j, a, e⟩ := key
    refine ⟨h.set id j, a, ?_⟩
    simp only [run, onInst, get_ok hi, Res.bind_ok, e]
  | propU id Phi Q t G u var =>
    obtain ⟨i, hi⟩ := Option.isSome_iff_exists.mp hk
    obtain ⟨b, hb, -, -, -, b4, b5, -⟩ := Rel.stored hr hi
    have hd : StdInst.Holds i b (dim id) := ⟨hb, b4, b5, Rel.rows hr hs hi⟩
    obtain ⟨f1, f2, f3⟩ := hf
    have key : ∃ j a, i.propU Phi Q t G u var = .ok (j, a) := by
      by_cases hc : Phi.Shape (dim id) (dim id) ∧ Q.Shape (dim id) (dim id) ∧ b.stamp < t
      · exact ⟨_, _, ((StdInst.c54_propagate_input hd Phi Q t f1 f2 f3).1 hc).2⟩
      · exact ⟨_, _, ((StdInst.c54_propagate_input hd Phi Q t f1 f2 f3).2 hc).2⟩
    obtain ⟨j, a, e⟩ := key
    refine ⟨h.set id j, a, ?_⟩
    simp only [run, onInst, get_ok hi, Res.bind_ok, e]
  | priv id H R z =>
    obtain ⟨i, hi⟩ := Option.isSome_iff_exists.mp hk
    obtain ⟨b, hb, -, -, -, b4, b5, -⟩ := Rel.stored hr hi
    obtain ⟨f1, f2, f3⟩ := hf
    have hrows : ∀ e ∈ i.ccf, e.2.rows = dim id := Rel.rows hr hs hi
    have sH : H.Shape H.rows (dim id) := ⟨rfl, f1⟩
    have hO : ObsShape H R (z - H * b.mean) b.Sigma (dim id) H.rows := ⟨sH, f2, f3.sub, b5⟩
    obtain ⟨rej, ec, -⟩ := correctionStep_progress hO GateOk.default
    have key : ∃ j a, i.priv H R z = .ok (j, a) := by
      unfold StdInst.priv StdInst.basePriv
      simp only [StdInst.deref_ok hb, Res.bind_ok, sH.mulC b4, f3.subC (sH.mul b4), ec]
      cases rej with
      | true => exact ⟨i, false, rfl⟩
      | false =>
        simp only [Bool.not_false, if_true, Belief.correct, b4.addC ((gainM_shape hO _).mul hO.r), Res.bind_ok]
        unfold StdInst.thenCorrect
        rw [if_pos rfl, StdInst.deref_ok rfl, Res.bind_ok,
          StdInst.applyCorrection_ok (i := ⟨some _, i.ccf⟩) b5 (postM_shape hO {}) hrows, Res.bind_ok]
        exact ⟨_, true, rfl⟩
    obtain ⟨j, a, e⟩ := key
    refine ⟨h.set id j, a, ?_⟩
    simp only [run, onInst, get_ok hi, Res.bind_ok, e]

theorem joint_defined (hr : StdView.Rel dim (view h) c) (hs : Srt h) {me I J : ℕ} {HI HJ R z : Mat} (hf : Fits dim (.joint me I J HI HJ R z)) :
    joint g1 g2 g3 h me I J HI HJ R z ≠ .ub := by
  obtain ⟨hIJ, m, hm, sI, sJ, hR, hz⟩ := hf
  by_cases hreg : (h.find I).isSome = true ∧ (h.find J).isSome = true
  swap
  · unfold joint expect; rw [if_neg hreg]; exact fun e => by simp [Bind.bind, Res.bind] at e
  obtain ⟨hI, hJ⟩ := hreg
  obtain ⟨i, hi⟩ := Option.isSome_iff_exists.mp hI
  obtain ⟨j, hj⟩ := Option.isSome_iff_exists.mp hJ
  obtain ⟨bI, hbI, a1, a2, a3, a4, a5, a6⟩ := Rel.stored hr hi
  obtain ⟨bJ, hbJ, b1, b2, b3, b4, b5, b6⟩ := Rel.stored hr hj
  by_cases hme : me = I ∧ bI.stamp = bJ.stamp
  swap
  · rw [c55_throws (Or.inr ⟨hi, hj, hbI, hbJ, by tauto⟩)]; simp
  obtain ⟨rfl, hst⟩ := hme
  obtain ⟨H, eH, hH, sH⟩ := horcat_side hIJ g1 sI sJ hm (hr.pos me hI) (hr.pos J hJ)
  obtain ⟨x, ex, hx, sx⟩ := vertcat_mean hIJ g2 a4 b4 (hr.pos me hI) (hr.pos J hJ) a1 b1
  obtain ⟨S, eS, hS, sS⟩ := stackPrior_cov hIJ hr g3 hI hJ
  rw [← a2, ← b2] at eS
  have hO : ObsShape H R (z - H * x) (stabM S (1 / 10^12)) (dim me + dim J) m := ⟨sH, hR, hz.sub, sS.stabM _⟩
  obtain ⟨rej, ec, -⟩ := correctionStep_progress hO GateOk.default
  unfold joint
  have x1 : expect ((h.find me).isSome = true ∧ (h.find J).isSome = true) = .ok () := by unfold expect; rw [if_pos ⟨hI, hJ⟩]
  have x2 : expect (me = me) = .ok () := by unfold expect; rw [if_pos rfl]
  have x3 : expect (bI.stamp = bJ.stamp) = .ok () := by unfold expect; rw [if_pos hst]
  rw [x1, Res.bind_ok, x2, Res.bind_ok, get_ok hi, Res.bind_ok, get_ok hj, Res.bind_ok, StdInst.deref_ok hbI, Res.bind_ok, StdInst.deref_ok hbJ,
    Res.bind_ok, x3, Res.bind_ok, eH, Res.bind_ok, ex, Res.bind_ok, sH.mulC sx, Res.bind_ok, hz.subC (sH.mul sx), Res.bind_ok, eS, Res.bind_ok,
    stabilize_ok sS, Res.bind_ok, ec, Res.bind_ok]
  cases rej with
  | true => simp
  | false =>
    simp only [Bool.not_false, if_true]
    by_cases hp : Psd (postM H R (stabM S (1 / 10^12)) {})
    · obtain ⟨h1, A, B, e1, -⟩ := commit_spec (res := ⟨postM H R (stabM S (1 / 10^12)) {}, gainM H R (stabM S (1 / 10^12)) ({} : Cfg).eps * (z - H * x),
        updM H R (stabM S (1 / 10^12)) ({} : Cfg).eps, false⟩) hIJ hs hi hj hbI hbJ (hr.pos me hI) (hr.pos J hJ) a4 b4 a5 b5
        (Rel.rows hr hs hi) (Rel.rows hr hs hj) (postM_shape hO {}) ((gainM_shape hO _).mul hO.r) hp
      rw [e1, Res.bind_ok]; simp
    · rw [commit_throws (res := ⟨postM H R (stabM S (1 / 10^12)) {}, gainM H R (stabM S (1 / 10^12)) ({} : Cfg).eps * (z - H * x),
        updM H R (stabM S (1 / 10^12)) ({} : Cfg).eps, false⟩) hp]
      exact fun e => by simp [Bind.bind, Res.bind] at e

/-- C55: in every reachable state, no call with fitting matrices is undefined, and a propagation or private update of a
registered filter returns (only a joint update may throw). -/
theorem c55_no_ub (hreach : Reach g1 g2 g3 dim h) (ev : StdEv) (hk : Known h ev) (hf : Fits dim ev) :
    run g1 g2 g3 h ev ≠ .ub ∧ (Own ev → ∃ h' ans, run g1 g2 g3 h ev = .ok (h', ans)) := by
  obtain ⟨c, hr, hs⟩ := hreach.rel
  refine ⟨?_, fun ho => own_returns hr hs ev hk hf ho⟩
  by_cases ho : Own ev
  · obtain ⟨h', a, e⟩ := own_returns (g1 := g1) (g2 := g2) (g3 := g3) hr hs ev hk hf ho
    rw [e]; simp
  · cases ev with
    | joint me I J HI HJ R z => exact joint_defined hr hs hf
    | _ => exact (ho trivial).elim

/-- The premises are met: a joint update of the two filters of the example. -/
example : run Example.g0 Example.g0 Example.g0 Example.h0 (.joint 1 1 2 (Hdl.Example.s 1) (Hdl.Example.s (-1)) (Hdl.Example.s 1) (Hdl.Example.s 7)) ≠ .ub :=
  (c55_no_ub Example.reach0 (.joint 1 1 2 (Hdl.Example.s 1) (Hdl.Example.s (-1)) (Hdl.Example.s 1) (Hdl.Example.s 7)) trivial ⟨by decide, 1, Nat.one_pos, ⟨rfl, rfl⟩, ⟨rfl, rfl⟩, ⟨rfl, rfl⟩, ⟨rfl, rfl⟩⟩).1

end StdHdl
end Ikf
