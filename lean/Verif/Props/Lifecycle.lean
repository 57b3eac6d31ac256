import Verif.Props.Handler
import Verif.Props.StandaloneKF

/-! # More of C30, C32, C34 and property C68: who gets a measurement; reset and horizon of the handler -/

namespace Ikf
open Handler
variable {W P : Type _}

/-! ## C34: disabled instances, missed lock -/

/-- `S` and `S'` are the same estimators except for what `delegate_measurement` does on instances that are unknown or
disabled. -/
structure SameEnabled (S S' : Insts W P) : Prop where
  known : S.known = S'.known
  enabled : S.enabled = S'.enabled
  removeFrom : S.removeFrom = S'.removeFrom
  removeAfter : S.removeAfter = S'.removeAfter
  inst : ∀ w m, S.known w m.id = true → S.enabled w m.id = true → S.inst w m = S'.inst w m

theorem SameEnabled.delegate {S S' : Insts W P} (h : SameEnabled S S') : delegate S = delegate S' := by
  funext w m
  unfold Handler.delegate
  rw [← h.known, ← h.enabled]
  split
  · split
    · exact h.inst w m ‹_› ‹_›
    · rfl
  · rfl

theorem SameEnabled.process {S S' : Insts W P} (h : SameEnabled S S') (fp : FP) : process fp S = process fp S' := by
  have hst : redoStep S = redoStep S' := by funext a m; unfold redoStep; rw [h.delegate]
  have hrf : redoFrom S = redoFrom S' := by funext s t; unfold redoFrom; rw [hst, h.removeFrom]
  have hra : redoAfter S = redoAfter S' := by funext s t; unfold redoAfter; rw [hst, h.removeAfter]
  have hsr : serveRequests fp S = serveRequests fp S' := by funext s; unfold serveRequests; rw [hrf, hra]
  have hpt : processTail fp S = processTail fp S' := by funext s m; unfold processTail; rw [hrf, h.delegate]
  funext s m
  unfold Handler.process
  rw [hsr, hpt, h.known]

/-- C34. No measurement is ever passed on to an instance that is unknown or disabled at that moment: whatever such an
instance would do, every call returns the same results and every event leaves the handler in the same state, also when
stored measurements are re-processed. -/
theorem c34_disabled_untouched (fp : FP) {S S' : Insts W P} (hS : SameEnabled S S') (h : HState W P) (ops : List (HOp P)) (m : Meas P) :
    ops.foldl (hStep fp S) h = ops.foldl (hStep fp S') h ∧
    process fp S (ops.foldl (hStep fp S) h) m = process fp S' (ops.foldl (hStep fp S') h) m := by
  have hs : hStep fp S = hStep fp S' := by
    funext h o
    cases o with
    | meas m => unfold hStep; rw [hS.process]
    | request t a => rfl
  rw [hs, hS.process]
  exact ⟨rfl, rfl⟩

/-- C34. A measurement of a disabled instance in order (nothing newer or of lower priority stored, no out-of-order flag
set, no redo requested): exactly one DISCARED, nothing stored, estimates unchanged. -/
theorem c34_disabled (fp : FP) (S : Insts W P) (h : HState W P) (m : Meas P) (hd : S.enabled h.w m.id = false)
    (ho : h.ooo = []) (hr : h.redo = []) (hv : isOrderViolated h.meas m = false) : process fp S h m = (h, [.discarded]) := by
  have hsr : serveRequests fp S h = h := by
    unfold serveRequests
    have : Buf.checkHorizonFrom fp h.hRedo h.redo (match h.meas.latest with
      | some l => fp.secOfKey l.1
      | none => fp.toSec ⟨0, 0⟩) = [] := by rw [hr]; unfold Buf.checkHorizonFrom Buf.removeBefore; rfl
    simp only [this]
    cases h; simp only at hr; subst hr; rfl
  have hdel : delegate S h.w m = (h.w, .discarded) := by
    unfold delegate; rw [hd]; split <;> rfl
  unfold process
  split
  · rfl
  split
  · rfl
  rw [hsr]
  have hdm : discardMeasurement h m = false := rfl
  simp only [hdm, Bool.false_eq_true, if_false]
  unfold processTail
  have hck : Buf.checkHorizonFrom fp h.hOoo h.ooo (fp.secOfKey m.t) = [] := by
    rw [ho]; unfold Buf.checkHorizonFrom Buf.removeBefore; rfl
  have e1 : Buf.existBefore ([] : Buf Bool) m.t = false := rfl
  have e2 : Buf.existAt ([] : Buf Bool) m.t = false := rfl
  simp only [hv, hck, e1, e2, Bool.or_self, Bool.false_eq_true, if_false, hdel]
  cases h; simp only at ho; subst ho; simp

/-- C34. A call that does not get the lock in time: exactly one OUTOFORDER, no effect. With the lock it is the call
itself. -/
theorem c34_lock_timeout (fp : FP) (S : Insts W P) (h : HState W P) (m : Meas P) :
    processTimed fp S h m false = (h, [.outOfOrder]) ∧ processTimed fp S h m true = process fp S h m := ⟨rfl, rfl⟩

/-- Two estimators that differ on a disabled instance only; its measurement. -/
example : ∃ (S S' : Insts ℕ Unit) (h : HState ℕ Unit) (m : Meas Unit), SameEnabled S S' ∧ S.inst ≠ S'.inst ∧
    S.known h.w m.id = true ∧ S.enabled h.w m.id = false ∧ h.ooo = [] ∧ h.redo = [] ∧ h.meas ≠ [] ∧
    isOrderViolated h.meas m = false := by
  refine ⟨⟨fun _ _ => true, fun _ i => i == 1, fun w _ => (w + 1, .processed), fun w _ => w, fun w _ => w⟩,
    ⟨fun _ _ => true, fun _ i => i == 1, fun w m => if m.id = 1 then (w + 1, .processed) else (w, .rejected), fun w _ => w, fun w _ => w⟩,
    ⟨0, [(5, ⟨1, 5, .propagation, ()⟩)], [], [], 1, 1, 1⟩, ⟨2, 7, .priv, ()⟩,
    ⟨rfl, rfl, rfl, rfl, ?_⟩, ?_, rfl, rfl, rfl, rfl, by simp, by decide⟩
  · intro w m _ he
    have : m.id = 1 := by simpa using he
    simp [this]
  · intro h
    have := congrFun (congrFun h 0) (⟨2, 0, .priv, ()⟩ : Meas Unit)
    simp at this

/-! ## C68 -/

theorem process_horizons (fp : FP) (S : Insts W P) (h : HState W P) (m : Meas P) :
    (process fp S h m).1.hMeas = h.hMeas ∧ (process fp S h m).1.hOoo = h.hOoo ∧ (process fp S h m).1.hRedo = h.hRedo := by
  obtain ⟨-, f2, f3, f4, -⟩ := serveRequests_frame fp S h
  unfold process
  split
  · exact ⟨rfl, rfl, rfl⟩
  split
  · exact ⟨rfl, rfl, rfl⟩
  have hdm : discardMeasurement (serveRequests fp S h) m = false := rfl
  simp only [hdm, Bool.false_eq_true, if_false]
  unfold processTail
  simp only
  split
  · refine ⟨(redoFrom_frame S _ _).2.1.trans ?_, (redoFrom_frame S _ _).2.2.1.trans ?_, (redoFrom_frame S _ _).2.2.2.1.trans ?_⟩ <;>
      (simp only; split <;> simp [trim, insertMeas, f2, f3, f4])
  · split <;> split <;> simp [trim, insertMeas, f2, f3, f4]

theorem run_horizons (fp : FP) (S : Insts W P) (ops : List (HOp P)) : ∀ h : HState W P,
    (ops.foldl (hStep fp S) h).hMeas = h.hMeas ∧ (ops.foldl (hStep fp S) h).hOoo = h.hOoo ∧
    (ops.foldl (hStep fp S) h).hRedo = h.hRedo := by
  induction ops with
  | nil => intro h; exact ⟨rfl, rfl, rfl⟩
  | cons o r ih =>
    intro h
    obtain ⟨a, b, c⟩ := ih (hStep fp S h o)
    rw [List.foldl_cons, a, b, c]
    cases o with
    | meas m => exact process_horizons fp S h m
    | request t af => exact ⟨rfl, rfl, rfl⟩

/-- C68. `reset_buffer` after any history makes the handler a freshly constructed one of its horizon (the estimates of
the instances stay), so nothing that arrived or was scheduled before has any effect on later calls. -/
theorem c68_reset (fp : FP) (S : Insts W P) (w0 : W) (horizon : ℚ) (ops : List (HOp P)) :
    resetBuffer (ops.foldl (hStep fp S) (init w0 horizon)) = init (ops.foldl (hStep fp S) (init w0 horizon)).w horizon := by
  obtain ⟨a, b, c⟩ := run_horizons fp S ops (init w0 horizon : HState W P)
  unfold resetBuffer
  rw [a, b, c]
  rfl

/-- C68, `set_horizon` as far as it does what the constructor does: measurements and redo requests are kept as long as
by a handler constructed with that horizon, nothing stored is touched. -/
theorem c68_set_horizon_partial (h : HState W P) (w0 : W) (x : ℚ) :
    let c : HState W P := init w0 x
    setHorizon h x = { h with hMeas := c.hMeas, hOoo := 2 * c.hOoo, hRedo := c.hRedo } := by
  unfold setHorizon init
  have : |x * (1/2)| = 2 * |x * (1/4)| := by
    rw [abs_mul, abs_mul, abs_of_pos (by norm_num : (0:ℚ) < 1/2), abs_of_pos (by norm_num : (0:ℚ) < 1/4)]; ring
  simp only [this]

/-- C68 fails for out-of-order flags: calling `set_horizon` with the value given to the constructor doubles the time they
are kept. -/
theorem c68_set_horizon_fails (w0 : W) (x : ℚ) (hx : x ≠ 0) :
    setHorizon (init w0 x : HState W P) x ≠ init w0 x ∧ (init w0 x : HState W P).hOoo < (setHorizon (init w0 x : HState W P) x).hOoo := by
  have h : (init w0 x : HState W P).hOoo < (setHorizon (init w0 x : HState W P) x).hOoo := by
    rw [c68_set_horizon_partial _ w0]
    show |x * (1/4)| < 2 * |x * (1/4)|
    have : 0 < |x * (1/4)| := abs_pos.mpr (by simpa using hx)
    linarith
  exact ⟨fun e => by rw [e] at h; exact lt_irrefl _ h, h⟩

/-- A history with a stored measurement, a flag and a request, gone after the reset. -/
example : ∃ (S : Insts ℕ Unit) (ops : List (HOp Unit)), (ops.foldl (hStep FP.exact S) (init 0 100)).meas ≠ [] ∧
    (ops.foldl (hStep FP.exact S) (init 0 100)).ooo ≠ [] ∧ (ops.foldl (hStep FP.exact S) (init 0 100)).redo ≠ [] := by
  refine ⟨⟨fun _ _ => true, fun _ _ => true, fun w _ => (w, .outOfOrder), fun w _ => w, fun w _ => w⟩,
    [.meas ⟨1, 5, .priv, ()⟩, .request 7 true], ?_, ?_, ?_⟩ <;> with_unfolding_all decide

/-! ## C30: PREDICT; C32: who gets a measurement -/
variable {B : Type _}

/-- C30. PREDICT with no belief stored at `t` uses the filter's `predict_to`: its failure is the lookup's failure, its
success returns what is then stored at `t`. With a belief stored at `t` that belief is returned. -/
theorem c30_predict (U : KFUser B P) (s : KFState B P) (h : s.bel.StrictKeys) (t : Int) :
    (∀ b, (t, b) ∈ s.bel → SKF.getBelief U s t .predict = (s, some b)) ∧
    ((∀ e ∈ s.bel, e.1 ≠ t) →
      (SKF.getBelief U s t .predict).1 = { s with bel := (U.predictTo s.bel t).1 } ∧
      ((U.predictTo s.bel t).2 = false → (SKF.getBelief U s t .predict).2 = none) ∧
      ((U.predictTo s.bel t).2 = true → (U.predictTo s.bel t).1.StrictKeys →
        ∀ b, (SKF.getBelief U s t .predict).2 = some b ↔ (t, b) ∈ (U.predictTo s.bel t).1)) := by
  constructor
  · intro b hb
    have hex : s.bel.existAt t = true := (Buf.existAt_iff _ _).mpr ⟨(t, b), hb, rfl⟩
    unfold SKF.getBelief
    rw [hex, if_neg (by simp)]
    have : (SKF.getBelief U s t .exact).2 = some b := (c30_exact U s h t b).mpr hb
    unfold SKF.getBelief at this
    rw [hex, if_neg (by simp)] at this
    exact Prod.ext rfl this
  · intro hno
    have hex : s.bel.existAt t = false := by
      rw [Bool.eq_false_iff]; intro hc
      obtain ⟨e, he, h1⟩ := (Buf.existAt_iff _ _).mp hc
      exact hno e he h1
    unfold SKF.getBelief
    rw [hex, if_pos (by rfl)]
    refine ⟨rfl, fun hf => ?_, fun ht hk b => ?_⟩
    · simp only [hf]; rfl
    · simp only [ht, if_true]
      have := c30_exact U { s with bel := (U.predictTo s.bel t).1 } hk t b
      unfold SKF.getBelief at this
      simp only at this
      rw [← this]
      split <;> rfl

/-- C32. A propagation measurement goes to the propagation function, a private one to the private one (nothing else
about the filter matters for the call), any other kind is answered by one DISCARED and has no effect. -/
theorem c32_routing (fp : FP) (U U' : KFUser B P) (s : KFState B P)
    (hp : ∀ b m, m.kind = .propagation → U.prop b m = U'.prop b m) (hq : ∀ b m, m.kind = .priv → U.priv b m = U'.priv b m)
    (ms : List (Meas P)) (m : Meas P) :
    SKF.process fp U (ms.foldl (fun s m => (SKF.process fp U s m).1) s) m =
      SKF.process fp U' (ms.foldl (fun s m => (SKF.process fp U' s m).1) s) m ∧
    (m.kind = .joint ∨ m.kind = .unknown → SKF.process fp U s m = (s, [.discarded])) := by
  have hd : SKF.delegate U = SKF.delegate U' := by
    funext b m
    unfold SKF.delegate
    split
    · exact hp b m ‹_›
    · exact hq b m ‹_›
    · rfl
    · rfl
  have hst : SKF.redoStep U = SKF.redoStep U' := by funext a m; unfold SKF.redoStep; rw [hd]
  have hra : SKF.redoAfter U = SKF.redoAfter U' := by funext s t; unfold SKF.redoAfter; rw [hst]
  have hpr : SKF.process fp U = SKF.process fp U' := by funext s m; unfold SKF.process; rw [hra, hd]
  refine ⟨by rw [hpr], fun hk => ?_⟩
  have : SKF.delegate U s.bel m = (s.bel, .discarded) := by
    unfold SKF.delegate; rcases hk with h | h <;> rw [h]
  unfold SKF.process
  rw [this]
  cases s with | mk b ms x y d => cases d <;> simp

example : ∃ (U U' : KFUser ℕ Unit), U ≠ U' ∧ (∀ b m, m.kind = .propagation → U.prop b m = U'.prop b m) ∧
    (∀ b m, m.kind = .priv → U.priv b m = U'.priv b m) := by
  refine ⟨⟨fun b _ => (b, .processed), fun b _ => (b, .processed), fun b _ => (b, false)⟩,
    ⟨fun b m => if m.kind = .propagation then (b, .processed) else (b, .rejected), fun b _ => (b, .processed), fun b _ => (b, false)⟩,
    ?_, fun b m h => by simp [h], fun b m h => rfl⟩
  intro h
  have := congrFun (congrFun (congrArg KFUser.prop h) []) (⟨2, 0, .priv, ()⟩ : Meas Unit)
  simp at this

end Ikf
