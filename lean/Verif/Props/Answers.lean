import Verif.Props.Handler

/-! # Property C88: the answer to a measurement -/

namespace Ikf
open Handler
variable {W P : Type _}

theorem redoStep_grows (S : Insts W P) (ms : List (Meas P)) (a : W × Buf Bool × List Status) (ha : a.2.2 ≠ []) :
    (ms.foldl (redoStep S) a).2.2 ≠ [] := by
  induction ms generalizing a with
  | nil => exact ha
  | cons m ms ih =>
    simp only [List.foldl_cons]
    apply ih
    unfold redoStep
    split
    · simp
    · exact ha

theorem redo_answers (S : Insts W P) (ms : List (Meas P)) (hms : ms ≠ []) (w : W) : (ms.foldl (redoStep S) (w, [], [])).2.2 ≠ [] := by
  cases ms with
  | nil => exact absurd rfl hms
  | cons m ms =>
    simp only [List.foldl_cons]
    apply redoStep_grows
    unfold redoStep
    simp

/-- One arrival is answered, if the stored history is one that can have come about. -/
theorem process_answers (fp : FP) (S : Insts W P) (h : HState W P) (hmax : 0 ≤ h.hMeas) (m : Meas P)
    (hm : MeasOk m) (A : List (Meas P)) (D : Buf (Meas P)) (hI : MInv fp h.hMeas A D h.meas) : (process fp S h m).2 ≠ [] := by
  by_cases hk : S.known h.w m.id = true
  swap
  · unfold process; rw [if_pos (by simpa using hk)]; simp
  by_cases ho : tooOld fp h m = true
  · unfold process; rw [if_neg (by simp [hk]), if_pos ho]; simp
  have ho' : tooOld fp h m = false := by simpa using ho
  have hold : ∀ o, h.meas.head? = some o → o.1 < m.t := by
    intro o hoo
    exact accept_lt fp h.meas h.w h.hMeas h.hOoo h.hRedo h.ooo h.redo m hm.2.1 (fun e he => (hI.range e (by simp [he])).2) ho' o hoo
  have hserve : (serveRequests fp S h).meas = h.meas ∧ (serveRequests fp S h).hMeas = h.hMeas := by
    have hfrom : ∀ (g : HState W P) t, (redoFrom S g t).1.meas = g.meas ∧ (redoFrom S g t).1.hMeas = g.hMeas := by
      intro g t; unfold redoFrom; simp only; split <;> exact ⟨rfl, rfl⟩
    have hafter : ∀ (g : HState W P) t, (redoAfter S g t).1.meas = g.meas ∧ (redoAfter S g t).1.hMeas = g.hMeas := by
      intro g t; unfold redoAfter; simp only; split <;> exact ⟨rfl, rfl⟩
    unfold serveRequests
    simp only
    split
    · exact ⟨rfl, rfl⟩
    · split
      · split
        · split
          · exact hafter _ _
          · exact hfrom _ _
        · exact ⟨rfl, rfl⟩
      · exact ⟨rfl, rfl⟩
  unfold process
  rw [if_neg (by simp [hk]), if_neg (by simp [ho'])]
  simp only [discardMeasurement, Bool.false_eq_true, if_false]
  set g := serveRequests fp S h
  rw [← hserve.1, ← hserve.2] at hI
  rw [← hserve.1] at hold
  rw [← hserve.2] at hmax
  clear_value g
  have kb : Keyed g.meas := fun e he => hI.keyed e (by simp [he])
  have nb : Known g.meas := fun e he => hI.known e (by simp [he])
  have sb : g.meas.SortedKeys :=
    List.Pairwise.sublist (List.sublist_append_right D g.meas) (hI.pord.sorted hI.keyed)
  have key : ∀ (h4 : HState W P) ts, ts ≤ m.t → h4.meas = sortFrom (Buf.checkHorizon fp g.hMeas (Buf.insertMulti g.meas m.t m)) ts →
      (redoFrom S h4 ts).2 ≠ [] := by
    intro h4 ts hts e4
    obtain ⟨X, h1, h2, hI'⟩ := hI.step hmax m hm.1 hm.2.1 hm.2.2 hold ts hts
    rw [← e4] at hI'
    have s4 : h4.meas.SortedKeys := List.Pairwise.sublist (List.sublist_append_right _ _) (hI'.pord.sorted hI'.keyed)
    have hmem : (m.t, m) ∈ h4.meas := by
      have hsi := Buf.sorted_insertMulti g.meas sb m.t m
      have hsub : (Buf.checkHorizon fp g.hMeas (Buf.insertMulti g.meas m.t m)).Sublist (Buf.insertMulti g.meas m.t m) := by
        conv_rhs => rw [h1]
        exact List.sublist_append_right _ _
      rw [e4, (c40_sort_permutes _ (List.Pairwise.sublist hsub hsi) (fun e he => keyed_insertMulti g.meas kb m e (hsub.subset he))
        (fun e he => known_insertMulti g.meas nb m hm.1 e (hsub.subset he)) ts).1.mem_iff]
      have : (m.t, m) ∈ Buf.insertMulti g.meas m.t m := (Buf.mem_insertMulti _ _ _ _).mpr (Or.inl rfl)
      rw [h1] at this
      rcases List.mem_append.mp this with hx | hx
      · have := h2 _ hx; simp at this
      · exact hx
    obtain ⟨_, l, _, hl⟩ := head_last_of_ne _ (List.ne_nil_of_mem hmem)
    have hlat : h4.meas.latest = some l := hl
    unfold redoFrom
    simp only [hlat]
    rw [redoFrom_list h4.meas s4 ts l hlat]
    apply redo_answers
    apply List.ne_nil_of_mem (a := m)
    exact List.mem_map.mpr ⟨(m.t, m), by simp [hmem, hts], rfl⟩
  unfold processTail
  simp only
  split
  · apply key
    · split
      · split
        · split
          · rename_i hlt; exact hlt.le
          · exact le_rfl
        · exact le_rfl
      · exact le_rfl
    · simp only [trim, insertMeas]
      split <;> rfl
  · simp

/-- C88. `process_measurement` always answers: after any events, whatever the filters do, the vector of results is not empty
(callers read its first element). -/
theorem c88_answered (fp : FP) (S : Insts W P) (w0 : W) (horizon : ℚ) (ops : List (HOp P)) (hops : ∀ m ∈ arrivals ops, MeasOk m)
    (m : Meas P) (hm : MeasOk m) : (process fp S (ops.foldl (hStep fp S) (Handler.init w0 horizon)) m).2 ≠ [] := by
  obtain ⟨A, D, -, i⟩ := inv_run fp S ops (Handler.init w0 horizon) (abs_nonneg _) hops [] [] (MInv.nil fp _)
  have hh : ∀ (ops : List (HOp P)) (h : HState W P), (ops.foldl (hStep fp S) h).hMeas = h.hMeas := by
    intro ops
    induction ops with
    | nil => intro h; rfl
    | cons op ops ih =>
      intro h
      simp only [List.foldl_cons]
      rw [ih]
      cases op with
      | request t a => rfl
      | meas m => exact (process_meas fp S h m).1
  have e := hh ops (Handler.init w0 horizon)
  exact process_answers fp S _ (by rw [e]; exact abs_nonneg _) m hm _ _ (by rw [e]; exact i)

/-- C88, for a measurement in order: nothing stored is newer or has to be processed after it, and nothing is flagged. Then the answer is the
status the filter gives to it, and nothing else.
Missing: delayed measurements (`c88_first_status_fails`). -/
theorem c88_in_order_partial (fp : FP) (S : Insts W P) (h : HState W P) (m : Meas P) (hk : S.known h.w m.id = true)
    (ho : tooOld fp h m = false) (hflag : h.ooo = []) (hredo : h.redo = []) (hord : isOrderViolated h.meas m = false) :
    (process fp S h m).2 = [if S.enabled h.w m.id then (S.inst h.w m).2 else .discarded] := by
  have hserve : serveRequests fp S h = h := by
    obtain ⟨w, meas, ooo, redo, a, b, c⟩ := h
    simp only at hredo hflag
    subst hredo
    unfold serveRequests
    simp [Buf.checkHorizonFrom, Buf.oldest]
  unfold process
  rw [if_neg (by simp [hk]), if_neg (by simp [ho])]
  simp only [discardMeasurement, Bool.false_eq_true, if_false]
  rw [hserve]
  unfold processTail
  have e : Buf.checkHorizonFrom fp h.hOoo h.ooo (fp.secOfKey m.t) = [] := by rw [hflag]; simp [Buf.checkHorizonFrom]
  simp only [hord, e, Buf.existBefore, Buf.existAt, Bool.false_or, List.isEmpty_nil]
  simp only [delegate, hk, if_true]
  cases he : S.enabled h.w m.id <;> simp

/-- What a caller who reads `res[0]` expects, as the example program does (SimInstanceDelay.hpp:137, 161): filters that always give the same
status to the same measurement; then the first status of the answer is that of the measurement handed in. -/
def FirstIsOwn : Prop :=
  ∀ (st : Meas Unit → Status) (horizon : ℚ) (ops : List (HOp Unit)) (m : Meas Unit), (∀ x ∈ arrivals ops, MeasOk x) → MeasOk m →
    (∀ x, st x = .processed ∨ st x = .rejected) →
    let S : Insts Unit Unit := ⟨fun _ _ => true, fun _ _ => true, fun _ x => ((), st x), fun _ _ => (), fun _ _ => ()⟩
    let h := ops.foldl (hStep FP.exact S) (Handler.init () horizon)
    tooOld FP.exact h m = false → (process FP.exact S h m).2.head? = some (st m)

/-- C88 fails for delayed measurements: a joint observation, rejected by the filter, that arrives one step late is answered by PROCESSED,
the status of the propagation of the same time, which is redone before it. -/
theorem c88_first_status_fails : ¬ FirstIsOwn := by
  intro hf
  have := hf (fun x => if x.kind = .propagation then .processed else .rejected) 10
    [.meas ⟨1, 1000000000, .propagation, ()⟩, .meas ⟨1, 2000000000, .propagation, ()⟩, .meas ⟨1, 3000000000, .propagation, ()⟩]
    ⟨1, 2000000000, .joint, ()⟩ (by
      intro x hx
      simp only [arrivals, List.filterMap_cons, List.filterMap_nil, List.mem_cons, List.not_mem_nil, or_false] at hx
      rcases hx with rfl | rfl | rfl <;> refine ⟨by simp, by norm_num, by norm_num⟩) ⟨by simp, by norm_num, by norm_num⟩ (by
      intro x; split <;> simp) (by decide +kernel)
  revert this
  decide +kernel

namespace AnswersExample

/-- Filters that process everything. -/
def S : Insts Unit Unit := ⟨fun _ _ => true, fun _ _ => true, fun _ _ => ((), .processed), fun _ _ => (), fun _ _ => ()⟩

/-- A handler with one propagation stored. -/
def h : HState Unit Unit := { (Handler.init () 10 : HState Unit Unit) with meas := [(1000000000, ⟨1, 1000000000, .propagation, ()⟩)] }

/-- A second, newer propagation. -/
def m : Meas Unit := ⟨1, 2000000000, .propagation, ()⟩

/-- The premises of `c88_in_order_partial` hold for a second propagation. -/
example : S.known h.w m.id = true ∧ tooOld FP.exact h m = false ∧ h.ooo = [] ∧ h.redo = [] ∧ isOrderViolated h.meas m = false := by
  refine ⟨rfl, by decide +kernel, rfl, rfl, by decide +kernel⟩

end AnswersExample

end Ikf
