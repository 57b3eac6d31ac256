import Verif.Lemmas.Restart
import Verif.Props.EndToEndExamples

/-! # C111: starting over with the same handler -/

namespace Ikf
open Handler Hdl
variable {P : Type _}

/-- C111, with `reset_buffer`. After any history of measurements and redo requests that did not end in a crash: `reset` and `reset_buffer` of
the handler (in either order) followed by `initialize` of every instance make it, in every respect, a newly constructed handler of that horizon
whose instances have been initialised that way. -/
theorem Hdl.c111_restart_partial (fp : FP) (near : Mat → Mat) (U : EkfUser P) {h0 h : Hdl} (ho : Ordered h0) (horizon : ℚ) (ops : List (HOp P))
    (hw : (ops.foldl (hStep fp (userInsts fp near U)) (init (.ok h0) horizon)).w = .ok h) (L : ℕ → Belief × Int) :
    let s := ops.foldl (hStep fp (userInsts fp near U)) (init (.ok h0) horizon)
    Handler.restart L (resetBuffer (Handler.reset s)) = init (.ok (initAll L h0)) horizon ∧
    Handler.restart L (Handler.reset (resetBuffer s)) = init (.ok (initAll L h0)) horizon := by
  obtain ⟨a, b, c⟩ := run_horizons fp (userInsts fp near U) ops (init (.ok h0) horizon)
  have hf : Frame h0 h := (keeps_frame (fp := fp) (near := near) (U := U) h0).run fp ops (init (.ok h0) horizon)
    (fun g hg => by rw [← Res.ok.inj hg]; exact .refl ho) h hw
  have e : initAll L (resetAll h) = initAll L h0 := by rw [hf.resetAll ho.sorted, initAll_resetAll]
  simp only
  unfold Handler.restart Handler.reset resetBuffer
  simp only [hw, e, a, b, c]
  exact ⟨rfl, rfl⟩

/-- C111. A run never adds or removes an instance, nor changes how long its histories are: after `reset` every instance is an empty one of the
horizon it had in the beginning. -/
theorem Hdl.c111_instances (fp : FP) (near : Mat → Mat) (U : EkfUser P) {h0 h : Hdl} (ho : Ordered h0) (horizon : ℚ) (ops : List (HOp P))
    (hw : (ops.foldl (hStep fp (userInsts fp near U)) (init (.ok h0) horizon)).w = .ok h) :
    ∃ g, (Handler.reset (ops.foldl (hStep fp (userInsts fp near U)) (init (.ok h0) horizon))).w = .ok g ∧
      ∀ p, SMap.find g p = (h0.find p).map fun i => ⟨[], [], i.hor⟩ := by
  have hf : Frame h0 h := (keeps_frame (fp := fp) (near := near) (U := U) h0).run fp ops (init (.ok h0) horizon)
    (fun g hg => by rw [← Res.ok.inj hg]; exact .refl ho) h hw
  refine ⟨resetAll h, by unfold Handler.reset; rw [hw], fun p => ?_⟩
  rw [hf.resetAll ho.sorted]
  exact SMap.find_mapV _ _ _

namespace Hdl.EndExample

noncomputable def S0 : Insts (Res Hdl) Linear1D.Data := userInsts FP.exact Example.near (Linear1D.user FP.exact fun _ _ => 0)

/-- Both instances are initialised at time 0. -/
def start : ℕ → Belief × Int := fun _ => (bel0, 0)

/-- A run up to 10 s. -/
def longRun : List (HOp Linear1D.Data) := [ms .propagation 1 10000000000 1 0]

/-- A run of three seconds. -/
def shortRun : List (HOp Linear1D.Data) :=
  [ms .propagation 1 1000000000 1 0, ms .propagation 1 2000000000 1 0, ms .propagation 1 3000000000 1 0]

/-- Instance 1 has an estimate at `t`. -/
def hasBelief (w : Res Hdl) (t : Int) : Bool :=
  match w with
  | .ok h => match SMap.find h 1 with
    | some i => i.bel.existAt t
    | none => false
  | _ => false

/-- The new run after `reset` and `initialize` in place of a new handler: one propagation. -/
noncomputable def afterReset (old : List (HOp Linear1D.Data)) (t : Int) : HState (Res Hdl) Linear1D.Data × List Status :=
  process FP.exact S0 (Handler.restart start (Handler.reset (old.foldl (hStep FP.exact S0) (Handler.init (.ok (team 20)) 20)))) ⟨1, t, .propagation, dat 1 0⟩

noncomputable def afterNew (t : Int) : HState (Res Hdl) Linear1D.Data × List Status :=
  process FP.exact S0 (Handler.init (.ok (initAll start (team 20))) 20) ⟨1, t, .propagation, dat 1 0⟩

theorem new_ok (t : Int) (h : t = 5000000000 ∨ t = 2500000000) : (afterNew t).2 = [.processed] ∧ hasBelief (afterNew t).1.w t = true ∧
    hasBelief (afterNew t).1.w 3000000000 = false := by
  rcases h with rfl | rfl <;> refine ⟨?_, ?_, ?_⟩ <;> decide +kernel

theorem long_lost : (afterReset longRun 5000000000).2 = [.discarded] ∧ hasBelief (afterReset longRun 5000000000).1.w 5000000000 = false := by
  refine ⟨?_, ?_⟩ <;> decide +kernel

theorem short_redone : (afterReset shortRun 2500000000).2 = [.processed, .processed] ∧ hasBelief (afterReset shortRun 2500000000).1.w 3000000000 = true := by
  refine ⟨?_, ?_⟩ <;> decide +kernel

theorem team_ordered (hor : ℚ) : Ordered (team hor) := by
  refine ⟨by simp [team, SMap.Sorted], fun p i hi => ?_⟩
  rw [find_team hi]
  exact ⟨by simp [Inst.doInit, Inst.reset, Buf.StrictKeys, Buf.insertMap], by simp [Inst.doInit, Inst.reset, SMap.Sorted],
    by simp [Inst.doInit, Inst.reset]⟩

/-- The premises of `c111_restart_partial` hold for both runs. -/
example : Ordered (team 20) ∧ isUb (longRun.foldl (hStep FP.exact S0) (Handler.init (.ok (team 20)) 20)).w = false ∧
    hasBelief (longRun.foldl (hStep FP.exact S0) (Handler.init (.ok (team 20)) 20)).w 10000000000 = true ∧
    hasBelief (shortRun.foldl (hStep FP.exact S0) (Handler.init (.ok (team 20)) 20)).w 3000000000 = true :=
  ⟨team_ordered 20, by decide +kernel, by decide +kernel, by decide +kernel⟩

end Hdl.EndExample

open Hdl.EndExample in
/-- C111 fails with `reset` alone: it keeps the measurements of the run before. (a) After a run that ended at 10 s the measurements of the new
run are discarded as too old. (b) After a run of 3 s a measurement of the new run at 2.5 s is taken for a delayed one, and the measurement
the old run had at 3 s is applied to the estimates of the new run. -/
theorem Hdl.c111_reset_fails : ¬ ∀ (old : List (HOp Linear1D.Data)) (t : Int), 0 < t → (∃ h, (old.foldl (hStep FP.exact S0) (Handler.init (.ok (team 20)) 20)).w = .ok h) →
    (afterReset old t).2 = (afterNew t).2 ∧ (∀ s, hasBelief (afterReset old t).1.w s = hasBelief (afterNew t).1.w s) := by
  intro hall
  have ok : ∀ (w : Res Hdl) t, hasBelief w t = true → ∃ h, w = .ok h := by
    intro w t h
    cases w with
    | ok g => exact ⟨g, rfl⟩
    | throws => simp [hasBelief] at h
    | ub => simp [hasBelief] at h
  have := (hall longRun 5000000000 (by decide) (ok _ 10000000000 (by decide +kernel))).1
  rw [long_lost.1, (new_ok _ (Or.inl rfl)).1] at this
  exact absurd this (by decide)

open Hdl.EndExample in
/-- (b) of `c111_reset_fails`: the old run's measurement reaches the new run's estimates. -/
theorem Hdl.c111_mixed_fails : ∃ (old : List (HOp Linear1D.Data)) (t s : Int), 0 < t ∧ t < s ∧
    (∃ h, (old.foldl (hStep FP.exact S0) (Handler.init (.ok (team 20)) 20)).w = .ok h) ∧
    hasBelief (afterNew t).1.w s = false ∧ hasBelief (afterReset old t).1.w s = true := by
  refine ⟨shortRun, 2500000000, 3000000000, by decide, by decide, ?_, (new_ok _ (Or.inr rfl)).2.2, short_redone.2⟩
  have h : hasBelief (shortRun.foldl (hStep FP.exact S0) (Handler.init (.ok (team 20)) 20)).w 3000000000 = true := by decide +kernel
  cases hw : (shortRun.foldl (hStep FP.exact S0) (Handler.init (.ok (team 20)) 20)).w with
  | ok g => exact ⟨g, rfl⟩
  | throws => rw [hw] at h; simp [hasBelief] at h
  | ub => rw [hw] at h; simp [hasBelief] at h

end Ikf
