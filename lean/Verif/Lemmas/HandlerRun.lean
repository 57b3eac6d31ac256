import Verif.Lemmas.HandlerInv

/-! Shape of `process_measurement` and of the redo loops. -/

namespace Ikf
namespace Handler
variable {W P : Type _}

theorem redoFrom_frame (S : Insts W P) (h : HState W P) (t : Int) :
    (redoFrom S h t).1.meas = h.meas ∧ (redoFrom S h t).1.hMeas = h.hMeas ∧
    (redoFrom S h t).1.hOoo = h.hOoo ∧ (redoFrom S h t).1.hRedo = h.hRedo ∧
    (redoFrom S h t).1.redo = h.redo := by
  unfold redoFrom
  split <;> simp

theorem redoAfter_frame (S : Insts W P) (h : HState W P) (t : Int) :
    (redoAfter S h t).1.meas = h.meas ∧ (redoAfter S h t).1.hMeas = h.hMeas ∧
    (redoAfter S h t).1.hOoo = h.hOoo ∧ (redoAfter S h t).1.hRedo = h.hRedo ∧
    (redoAfter S h t).1.redo = h.redo := by
  unfold redoAfter
  simp only
  split <;> simp

theorem serveRequests_frame (fp : FP) (S : Insts W P) (h : HState W P) :
    (serveRequests fp S h).meas = h.meas ∧ (serveRequests fp S h).hMeas = h.hMeas ∧
    (serveRequests fp S h).hOoo = h.hOoo ∧ (serveRequests fp S h).hRedo = h.hRedo ∧
    (serveRequests fp S h).redo = [] := by
  unfold serveRequests
  simp only
  split
  · rename_i heq
    simp
    unfold Buf.oldest at heq
    exact List.head?_eq_none_iff.mp heq
  · split
    · split
      · split
        · have := redoAfter_frame S { h with redo := [] } ‹Int × Bool›.1
          simpa using this
        · have := redoFrom_frame S { h with redo := [] } ‹Int × Bool›.1
          simpa using this
      · simp
    · simp

theorem ooo_tstart (b : Buf Bool) (t : Int) :
    (match b.oldest with
      | some o => if o.1 < t then o.1 else t
      | none => t) ≤ t := by
  cases b.oldest with
  | none => simp
  | some o => simp only; split <;> omega

/-- What one call does to the stored measurements. -/
theorem process_meas (fp : FP) (S : Insts W P) (h : HState W P) (m : Meas P) :
    (process fp S h m).1.hMeas = h.hMeas ∧
    (((process fp S h m).1.meas = h.meas ∧ (process fp S h m).2 = [.discarded]) ∨
     (tooOld fp h m = false ∧ S.known h.w m.id = true ∧
      ((∃ ts, ts ≤ m.t ∧ (process fp S h m).1.meas =
          sortFrom (Buf.checkHorizon fp h.hMeas (Buf.insertMulti h.meas m.t m)) ts) ∨
       (isOrderViolated h.meas m = false ∧ (process fp S h m).1.meas =
          Buf.checkHorizon fp h.hMeas (Buf.insertMulti h.meas m.t m))))) := by
  unfold process
  by_cases hk : S.known h.w m.id = true
  · rw [if_neg (by simp [hk])]
    by_cases ho : tooOld fp h m = true
    · rw [if_pos ho]; simp
    · rw [if_neg ho]
      have ho' : tooOld fp h m = false := by simpa using ho
      simp only [discardMeasurement, Bool.false_eq_true, if_false]
      obtain ⟨f1, f2, _, _, _⟩ := serveRequests_frame fp S h
      set g := serveRequests fp S h with hg
      unfold processTail
      simp only
      split
      · refine ⟨?_, Or.inr ⟨ho', hk, Or.inl ?_⟩⟩
        · rw [(redoFrom_frame S _ _).2.1]
          split <;> simp [trim, insertMeas, f2]
        · split
          · refine ⟨_, ooo_tstart (Buf.checkHorizonFrom fp g.hOoo g.ooo (fp.secOfKey m.t)) m.t, ?_⟩
            rw [(redoFrom_frame S _ _).1]
            simp only [trim, insertMeas, f1, f2]
            rfl
          · refine ⟨m.t, le_rfl, ?_⟩
            rw [(redoFrom_frame S _ _).1]
            simp [trim, insertMeas, f1, f2]
      · rename_i hnv
        have hv : isOrderViolated h.meas m = false := by
          rw [← f1]
          simp at hnv; exact hnv.1
        set r := delegate S g.w m with hr
        by_cases hd : r.2 = .discarded
        · simp [hd, f1, f2]
        · rw [if_pos hd]
          refine ⟨?_, Or.inr ⟨ho', hk, Or.inr ⟨hv, ?_⟩⟩⟩
          · simp only [trim, insertMeas]; split <;> exact f2
          · simp only [trim, insertMeas]
            split <;> simp only [f1, f2]
  · have : S.known h.w m.id = false := by simpa using hk
    rw [if_pos (by simp [this])]
    simp

/-- The measurements `redo_updates_from_t` goes through. -/
theorem redoFrom_list (b : Buf (Meas P)) (hs : b.SortedKeys) (t : Int) (l : Int × Meas P)
    (hl : b.latest = some l) :
    (if t == l.1 then b.getAllAt t else b.visitMulti t l.1) =
      (b.filter (fun e => decide (t ≤ e.1))).map (·.2) := by
  have hle := hs.le_getLast hl
  have hlm := List.mem_of_getLast? hl
  by_cases h : t = l.1
  · rw [if_pos (by simp [h])]
    unfold Buf.getAllAt
    rw [if_pos ((Buf.existAt_iff b t).mpr ⟨l, hlm, h.symm⟩)]
    unfold Buf.equalRange
    congr 1
    apply List.filter_congr
    intro e he
    have := hle e he
    rw [Bool.eq_iff_iff]; simp; omega
  · rw [if_neg (by simp [h])]
    by_cases htl : t ≤ l.1
    · rw [(c08_multi b hs t l.1 htl).2.1]
      congr 1
      apply List.filter_congr
      intro e he
      have := hle e he
      rw [Bool.eq_iff_iff]; simp; omega
    · unfold Buf.visitMulti
      rw [if_neg (fun hc => htl hc.1)]
      symm
      rw [List.map_eq_nil_iff, List.filter_eq_nil_iff]
      intro e he
      have := hle e he
      simp; omega

/-- Those of `redo_updates_after_t`. -/
theorem redoAfter_list (b : Buf (Meas P)) (hs : b.SortedKeys) (t : Int) (a l : Int × Meas P)
    (ha : b.getAfter t = some a) (hl : b.latest = some l) :
    (if a.1 == l.1 then b.getAllAt a.1 else b.visitMulti a.1 l.1) =
      (b.filter (fun e => decide (t < e.1))).map (·.2) := by
  rw [redoFrom_list b hs a.1 l hl]
  congr 1
  rw [Buf.getAfter_eq b hs] at ha
  have ham := List.mem_filter.mp (List.mem_of_head? ha)
  have hat : t < a.1 := by simpa using ham.2
  apply List.filter_congr
  intro e he
  rw [Bool.eq_iff_iff]; simp only [decide_eq_true_eq]
  constructor
  · intro h; omega
  · intro h
    exact Buf.SortedKeys.head_le (hs.filter _) ha e (List.mem_filter.mpr ⟨he, by simpa using h⟩)

end Handler
end Ikf
