import Verif.Props.Handler

/-! # Property C36: any arrival order gives the in-order estimate -/

namespace Ikf
open Handler
variable {W P : Type _}

/-- Plain in-order processing: give the measurements to the instances one after the other. -/
def runAll (S : Insts W P) (w : W) (L : List (Meas P)) : W := L.foldl (fun w m => (S.inst w m).1) w

/-- Causal, deterministic instances started in `w0`, for measurements satisfying `ok`: when fed in
an order that respects `R` they neither discard nor report out-of-order, and removing all beliefs from (after) a time
leaves exactly what processing the earlier measurements alone gives. Demanded of ordered feeding
only. -/
structure WellBehavedBy (R : Meas P → Meas P → Prop) (S : Insts W P) (w0 : W) (ok : Meas P → Prop) : Prop where
  known : ∀ L, L.Pairwise R → (∀ m ∈ L, ok m) →
    ∀ id, S.known (runAll S w0 L) id = S.known w0 id
  enabled : ∀ L m, (L ++ [m]).Pairwise R → (∀ x ∈ L ++ [m], ok x) →
    S.known w0 m.id = true ∧ S.enabled (runAll S w0 L) m.id = true
  status : ∀ L m, (L ++ [m]).Pairwise R → (∀ x ∈ L ++ [m], ok x) →
    (S.inst (runAll S w0 L) m).2 = .processed ∨ (S.inst (runAll S w0 L) m).2 = .rejected
  undoFrom : ∀ L1 L2 t, (L1 ++ L2).Pairwise R → (∀ m ∈ L1 ++ L2, ok m) → L1 ≠ [] →
    (∀ m ∈ L1, m.t < t) → (∀ m ∈ L2, t ≤ m.t) → S.removeFrom (runAll S w0 (L1 ++ L2)) t = runAll S w0 L1
  undoAfter : ∀ L1 L2 t, (L1 ++ L2).Pairwise R → (∀ m ∈ L1 ++ L2, ok m) → L1 ≠ [] →
    (∀ m ∈ L1, m.t ≤ t) → (∀ m ∈ L2, t < m.t) → S.removeAfter (runAll S w0 (L1 ++ L2)) t = runAll S w0 L1

/-- Fed in order of time and priority. -/
abbrev WellBehaved (S : Insts W P) (w0 : W) (ok : Meas P → Prop) : Prop := WellBehavedBy Meas.before S w0 ok

theorem runAll_append (S : Insts W P) (w : W) (L M : List (Meas P)) :
    runAll S w (L ++ M) = runAll S (runAll S w L) M := by unfold runAll; rw [List.foldl_append]

theorem redo_fold {R : Meas P → Meas P → Prop} {S : Insts W P} {w0 : W} {ok : Meas P → Prop} (hS : WellBehavedBy R S w0 ok)
    (L1 L2 : List (Meas P)) (hp : (L1 ++ L2).Pairwise R) (hok : ∀ m ∈ L1 ++ L2, ok m)
    (rs : List Status) :
    ∃ res, L2.foldl (redoStep S) (runAll S w0 L1, [], rs) = (runAll S w0 (L1 ++ L2), [], rs ++ res) ∧
      ∀ s ∈ res, s ≠ .discarded := by
  induction L2 generalizing L1 rs with
  | nil => exact ⟨[], by simp, by simp⟩
  | cons m L2 ih =>
    have e : L1 ++ m :: L2 = (L1 ++ [m]) ++ L2 := by simp
    rw [e] at hp hok
    have hp1 : (L1 ++ [m]).Pairwise R := (List.pairwise_append.mp hp).1
    have hok1 : ∀ x ∈ L1 ++ [m], ok x := fun x hx => hok x (List.mem_append_left _ hx)
    have hpL : L1.Pairwise R := (List.pairwise_append.mp hp1).1
    obtain ⟨hk0, hen⟩ := hS.enabled L1 m hp1 hok1
    have hk := hS.known L1 hpL (fun x hx => hok1 x (by simp [hx])) m.id
    have hst := hS.status L1 m hp1 hok1
    have hd : delegate S (runAll S w0 L1) m = S.inst (runAll S w0 L1) m := by
      unfold delegate; rw [hk, hk0, hen]; simp
    have hrun : (S.inst (runAll S w0 L1) m).1 = runAll S w0 (L1 ++ [m]) := by
      rw [runAll_append]; rfl
    simp only [List.foldl_cons]
    have hstep : redoStep S (runAll S w0 L1, [], rs) m =
        (runAll S w0 (L1 ++ [m]), [], rs ++ [(S.inst (runAll S w0 L1) m).2]) := by
      unfold redoStep
      simp only [List.isEmpty_nil, Bool.true_or, if_true, hd, hrun]
      rw [if_neg]
      rcases hst with h | h <;> rw [h] <;> simp
    rw [hstep, e]
    obtain ⟨res, h1, h2⟩ := ih (L1 ++ [m]) hp hok (rs ++ [(S.inst (runAll S w0 L1) m).2])
    refine ⟨(S.inst (runAll S w0 L1) m).2 :: res, by rw [h1]; simp, ?_⟩
    intro s hs
    rcases List.mem_cons.mp hs with rfl | hs
    · rcases hst with h | h <;> rw [h] <;> simp
    · exact h2 s hs

/-- The invariant behind convergence. -/
structure Conv (fp : FP) (S : Insts W P) (w0 : W) (ok : Meas P → Prop) (A : List (Meas P))
    (D : Buf (Meas P)) (h : HState W P) : Prop where
  ooo : h.ooo = []
  max : 0 ≤ h.hMeas
  inv : MInv fp h.hMeas A D h.meas
  w : h.w = runAll S w0 ((D ++ h.meas).map (·.2))
  ok : ∀ m ∈ A, ok m

section
variable {fp : FP} {S : Insts W P} {w0 : W} {ok : Meas P → Prop} {A : List (Meas P)} {D : Buf (Meas P)}
  {h : HState W P}

theorem Conv.okAll (c : Conv fp S w0 ok A D h) : ∀ m ∈ (D ++ h.meas).map (·.2), ok m := by
  intro m hm; exact c.ok m (c.inv.chronological.1.subset hm)

theorem Conv.known (c : Conv fp S w0 ok A D h) (hS : WellBehaved S w0 ok) (id : Nat) :
    S.known h.w id = S.known w0 id := by
  rw [c.w]; exact hS.known _ c.inv.chronological.2.1 c.okAll id

/-- Splitting a key-sorted list. -/
theorem split_lt (b : Buf (Meas P)) (hs : b.SortedKeys) (t : Int) :
    b = b.filter (fun e => decide (e.1 < t)) ++ b.filter (fun e => decide (t ≤ e.1)) := by
  have : b = b.belowLB t ++ b.lowerBound t := by
    unfold Buf.belowLB Buf.lowerBound; exact (List.takeWhile_append_dropWhile).symm
  rw [Buf.belowLB_eq b hs, Buf.lowerBound_eq b hs] at this
  exact this

theorem split_le (b : Buf (Meas P)) (hs : b.SortedKeys) (t : Int) :
    b = b.filter (fun e => decide (e.1 ≤ t)) ++ b.filter (fun e => decide (t < e.1)) := by
  have : b = b.belowUB t ++ b.upperBound t := by
    unfold Buf.belowUB Buf.upperBound; exact (List.takeWhile_append_dropWhile).symm
  rw [Buf.belowUB_eq b hs, Buf.upperBound_eq b hs] at this
  exact this

theorem Conv.sorted (c : Conv fp S w0 ok A D h) : h.meas.SortedKeys := by
  have := c.inv.pord.sorted c.inv.keyed
  exact List.Pairwise.sublist (List.sublist_append_right D h.meas) this

/-- A redo is a no-op. -/
theorem Conv.redoFrom_noop (c : Conv fp S w0 ok A D h) (hS : WellBehaved S w0 ok) (t : Int)
    (o : Int × Meas P) (ho : h.meas.head? = some o) (hot : o.1 < t) : (redoFrom S h t).1 = h := by
  have hs := c.sorted
  obtain ⟨_, l, _, hl⟩ := head_last_of_ne h.meas (by intro hc; rw [hc] at ho; simp at ho)
  have hlat : h.meas.latest = some l := hl
  have hsp := split_lt h.meas hs t
  set b1 := h.meas.filter (fun e => decide (e.1 < t)) with hb1
  set b2 := h.meas.filter (fun e => decide (t ≤ e.1)) with hb2
  have hall : (D ++ h.meas).map (·.2) = (D ++ b1).map (·.2) ++ b2.map (·.2) := by
    conv_lhs => rw [hsp]
    simp
  have hp := c.inv.chronological.2.1
  have hok := c.okAll
  have hw := c.w
  rw [hall] at hp hok hw
  have hom := List.mem_of_head? ho
  have hundo : S.removeFrom h.w t = runAll S w0 ((D ++ b1).map (·.2)) := by
    rw [hw]
    apply hS.undoFrom _ _ t hp hok
    · apply List.ne_nil_of_mem (a := o.2)
      rw [List.mem_map]
      exact ⟨o, by simp [hb1, hom, hot], rfl⟩
    · intro m hm
      obtain ⟨e, he, rfl⟩ := List.mem_map.mp hm
      rcases List.mem_append.mp he with he | he
      · rw [← c.inv.keyed e (by simp [he])]
        have := c.inv.below e he o hom
        omega
      · have he' := List.mem_filter.mp he
        rw [← c.inv.keyed e (by simp [he'.1])]; simpa using he'.2
    · intro m hm
      obtain ⟨e, he, rfl⟩ := List.mem_map.mp hm
      have he' := List.mem_filter.mp he
      rw [← c.inv.keyed e (by simp [he'.1])]; simpa using he'.2
  obtain ⟨res, hres, _⟩ := redo_fold hS _ _ hp hok []
  unfold redoFrom
  simp only [hlat]
  rw [redoFrom_list h.meas hs t l hlat, hundo, hres]
  simp only
  rw [← hw, ← c.ooo]

theorem Conv.redoAfter_noop (c : Conv fp S w0 ok A D h) (hS : WellBehaved S w0 ok) (t : Int)
    (o : Int × Meas P) (ho : h.meas.head? = some o) (hot : o.1 < t) : (redoAfter S h t).1 = h := by
  have hs := c.sorted
  obtain ⟨_, l, _, hl⟩ := head_last_of_ne h.meas (by intro hc; rw [hc] at ho; simp at ho)
  have hlat : h.meas.latest = some l := hl
  have hsp := split_le h.meas hs t
  set b1 := h.meas.filter (fun e => decide (e.1 ≤ t)) with hb1
  set b2 := h.meas.filter (fun e => decide (t < e.1)) with hb2
  have hall : (D ++ h.meas).map (·.2) = (D ++ b1).map (·.2) ++ b2.map (·.2) := by
    conv_lhs => rw [hsp]
    simp
  have hp := c.inv.chronological.2.1
  have hok := c.okAll
  have hw := c.w
  rw [hall] at hp hok hw
  have hom := List.mem_of_head? ho
  have hundo : S.removeAfter h.w t = runAll S w0 ((D ++ b1).map (·.2)) := by
    rw [hw]
    apply hS.undoAfter _ _ t hp hok
    · apply List.ne_nil_of_mem (a := o.2)
      rw [List.mem_map]
      refine ⟨o, ?_, rfl⟩
      apply List.mem_append_right
      rw [hb1, List.mem_filter]
      exact ⟨hom, by simp; omega⟩
    · intro m hm
      obtain ⟨e, he, rfl⟩ := List.mem_map.mp hm
      rcases List.mem_append.mp he with he | he
      · rw [← c.inv.keyed e (by simp [he])]
        have := c.inv.below e he o hom
        omega
      · have he' := List.mem_filter.mp he
        rw [← c.inv.keyed e (by simp [he'.1])]; simpa using he'.2
    · intro m hm
      obtain ⟨e, he, rfl⟩ := List.mem_map.mp hm
      have he' := List.mem_filter.mp he
      rw [← c.inv.keyed e (by simp [he'.1])]; simpa using he'.2
  obtain ⟨res, hres, _⟩ := redo_fold hS _ _ hp hok []
  unfold redoAfter
  simp only [hlat]
  cases ha : h.meas.getAfter t with
  | some a =>
    simp only
    rw [redoAfter_list h.meas hs t a l ha hlat, hundo, hres]
    simp only
    rw [← hw, ← c.ooo]
  | none =>
    rw [Buf.getAfter_eq h.meas hs] at ha
    have : b2 = [] := List.head?_eq_none_iff.mp ha
    simp only
    rw [hundo]
    rw [this] at hw
    simp only [List.map_nil, List.append_nil] at hw
    rw [← hw, ← c.ooo]

theorem Conv.serve (c : Conv fp S w0 ok A D h) (hS : WellBehaved S w0 ok) :
    serveRequests fp S h = { h with redo := [] } := by
  have c' : Conv fp S w0 ok A D { h with redo := [] } := ⟨c.ooo, c.max, c.inv, c.w, c.ok⟩
  unfold serveRequests
  simp only
  split
  · rename_i heq
    have := List.head?_eq_none_iff.mp heq
    rw [this]
  · rename_i o heq
    split
    · rename_i om hom
      split
      · rename_i hlt
        split
        · exact c'.redoAfter_noop hS o.1 om hom hlt
        · exact c'.redoFrom_noop hS o.1 om hom hlt
      · rfl
    · rfl

/-- One arrival. -/
theorem Conv.process (c : Conv fp S w0 ok A D h) (hS : WellBehaved S w0 ok) (m : Meas P)
    (hm : MeasOk m) (hmok : S.known w0 m.id = true → ok m) :
    ((S.known w0 m.id = false ∨ tooOld fp h m = true) ∧
      (Handler.process fp S h m).2 = [.discarded] ∧ (Handler.process fp S h m).1 = h) ∨
    ((Handler.process fp S h m).2 ≠ [.discarded] ∧
      ∃ X, Buf.insertMulti h.meas m.t m = X ++ Buf.checkHorizon fp h.hMeas (Buf.insertMulti h.meas m.t m) ∧
        Conv fp S w0 ok (A ++ [m]) (D ++ X) (Handler.process fp S h m).1) := by
  by_cases hk : S.known h.w m.id = true
  swap
  · left
    rw [c34_unknown_id fp S h m (by simpa using hk)]
    exact ⟨Or.inl (by rw [← c.known hS]; simpa using hk), rfl, rfl⟩
  by_cases ho : tooOld fp h m = true
  · left
    unfold Handler.process
    rw [if_neg (by simp [hk]), if_pos ho]
    exact ⟨Or.inr ho, rfl, rfl⟩
  right
  have hkw : S.known w0 m.id = true := by rw [← c.known hS]; exact hk
  have hmok' := hmok hkw
  have ho' : tooOld fp h m = false := by simpa using ho
  have hold : ∀ o, h.meas.head? = some o → o.1 < m.t := by
    intro o hoo
    exact accept_lt fp h.meas h.w h.hMeas h.hOoo h.hRedo h.ooo h.redo m hm.2.1
      (fun e he => (c.inv.range e (by simp [he])).2) ho' o hoo
  have kb : Keyed h.meas := fun e he => c.inv.keyed e (by simp [he])
  have nb : Known h.meas := fun e he => c.inv.known e (by simp [he])
  have pb : POrd h.meas := List.Pairwise.sublist (List.sublist_append_right D h.meas) c.inv.pord
  have sb := c.sorted
  obtain ⟨X, h1, h2, hI'⟩ := c.inv.step c.max m hm.1 hm.2.1 hm.2.2 hold m.t le_rfl
  set cc := Buf.checkHorizon fp h.hMeas (Buf.insertMulti h.meas m.t m) with hcc
  have hokA : ∀ x ∈ A ++ [m], ok x := by
    intro x hx
    rcases List.mem_append.mp hx with hx | hx
    · exact c.ok x hx
    · simp at hx; subst hx; exact hmok'
  have hpN := hI'.chronological.2.1
  have hokN : ∀ x ∈ (D ++ X ++ sortFrom cc m.t).map (·.2), ok x :=
    fun x hx => hokA x (hI'.chronological.1.subset hx)
  have hooo : Buf.checkHorizonFrom fp h.hOoo h.ooo (fp.secOfKey m.t) = [] := by
    rw [c.ooo]; simp [Buf.checkHorizonFrom]
  have hproc : Handler.process fp S h m = processTail fp S { h with redo := [] } m := by
    unfold Handler.process
    rw [if_neg (by simp [hk]), if_neg (by simp [ho'])]
    simp only [discardMeasurement, Bool.false_eq_true, if_false]
    rw [c.serve hS]
  rw [hproc]
  unfold processTail
  have hno : ∀ t, Buf.existBefore ([] : Buf Bool) t = false ∧ Buf.existAt ([] : Buf Bool) t = false := by
    intro t; simp [Buf.existBefore, Buf.existAt]
  simp only [hooo, (hno m.t).1, (hno m.t).2, Bool.or_false]
  have hsi := Buf.sorted_insertMulti h.meas sb m.t m
  have hki := keyed_insertMulti h.meas kb m
  have hni := known_insertMulti h.meas nb m hm.1
  have hcsub : ∀ e ∈ cc, e ∈ Buf.insertMulti h.meas m.t m := by
    intro e he; rw [h1]; simp [he]
  have sc : Buf.SortedKeys cc := by
    have : cc.Sublist (Buf.insertMulti h.meas m.t m) := by
      conv_rhs => rw [h1]
      exact List.sublist_append_right _ _
    exact List.Pairwise.sublist this hsi
  have kc : Keyed cc := fun e he => hki e (hcsub e he)
  have nc : Known cc := fun e he => hni e (hcsub e he)
  by_cases hv : isOrderViolated h.meas m = true
  · simp only [hv, if_true, Bool.false_eq_true, if_false]
    simp only [trim, insertMeas, ← hcc]
    -- the redo
    obtain ⟨q1, q2, q3, q4⟩ := c40_sort_permutes cc sc kc nc m.t
    have sR : Buf.SortedKeys (sortFrom cc m.t) := (sortFrom_spec cc sc kc nc m.t).1
    have hmR : (m.t, m) ∈ sortFrom cc m.t := by
      rw [q1.mem_iff]
      have : (m.t, m) ∈ Buf.insertMulti h.meas m.t m := (Buf.mem_insertMulti _ _ _ _).mpr (Or.inl rfl)
      rw [h1] at this
      rcases List.mem_append.mp this with hx | hx
      · have := h2 _ hx; simp at this
      · exact hx
    obtain ⟨_, l, _, hl⟩ := head_last_of_ne _ (List.ne_nil_of_mem hmR)
    have hlat : (sortFrom cc m.t).latest = some l := hl
    set R := sortFrom cc m.t with hR
    have hsplitR := split_lt R sR m.t
    have hsplitb := split_lt h.meas sb m.t
    have hlow : X ++ R.filter (fun e => decide (e.1 < m.t)) = h.meas.filter (fun e => decide (e.1 < m.t)) := by
      rw [q3]
      have e1 : (Buf.insertMulti h.meas m.t m).filter (fun e => decide (e.1 < m.t)) =
          h.meas.filter (fun e => decide (e.1 < m.t)) := by
        rw [Buf.insertMulti_eq, List.filter_append]
        have hb : h.meas = h.meas.belowUB m.t ++ h.meas.upperBound m.t := by
          unfold Buf.belowUB Buf.upperBound; exact (List.takeWhile_append_dropWhile).symm
        conv_rhs => rw [hb, List.filter_append]
        rw [List.filter_cons_of_neg (by simp)]
      rw [← e1, h1, List.filter_append]
      congr 1
      symm
      rw [List.filter_eq_self]; intro e he; simpa using h2 e he
    have hbne : h.meas ≠ [] := by
      intro hc
      rw [hc] at hv; simp [isOrderViolated, Buf.existAfter, Buf.getAllAt, Buf.existAt] at hv
    obtain ⟨o, _, hoo, _⟩ := head_last_of_ne _ hbne
    have hold' := hold o hoo
    have hpO := c.inv.chronological.2.1
    have hokO := c.okAll
    have hw := c.w
    have hallO : (D ++ h.meas).map (·.2) = (D ++ h.meas.filter (fun e => decide (e.1 < m.t))).map (·.2) ++
        (h.meas.filter (fun e => decide (m.t ≤ e.1))).map (·.2) := by
      conv_lhs => rw [hsplitb]
      simp
    have hallN : (D ++ X ++ R).map (·.2) = (D ++ h.meas.filter (fun e => decide (e.1 < m.t))).map (·.2) ++
        (R.filter (fun e => decide (m.t ≤ e.1))).map (·.2) := by
      conv_lhs => rw [hsplitR]
      rw [← hlow]; simp
    rw [hallO] at hpO hokO hw
    rw [hallN] at hpN hokN
    have hundo : S.removeFrom h.w m.t =
        runAll S w0 ((D ++ h.meas.filter (fun e => decide (e.1 < m.t))).map (·.2)) := by
      rw [hw]
      apply hS.undoFrom _ _ m.t hpO hokO
      · apply List.ne_nil_of_mem (a := o.2)
        rw [List.mem_map]
        exact ⟨o, by simp [List.mem_of_head? hoo, hold'], rfl⟩
      · intro x hx
        obtain ⟨e, he, rfl⟩ := List.mem_map.mp hx
        rcases List.mem_append.mp he with he | he
        · rw [← c.inv.keyed e (by simp [he])]
          have := c.inv.below e he o (List.mem_of_head? hoo)
          omega
        · have he' := List.mem_filter.mp he
          rw [← kb e he'.1]; simpa using he'.2
      · intro x hx
        obtain ⟨e, he, rfl⟩ := List.mem_map.mp hx
        have he' := List.mem_filter.mp he
        rw [← kb e he'.1]; simpa using he'.2
    obtain ⟨res, hres, hnd⟩ := redo_fold hS _ _ hpN hokN []
    rw [← hallN] at hres
    unfold redoFrom
    simp only [hlat]
    rw [redoFrom_list R sR m.t l hlat, hundo, hres]
    simp only [List.nil_append]
    refine ⟨?_, X, h1, ⟨rfl, c.max, hI', rfl, hokA⟩⟩
    intro hc
    exact hnd .discarded (by rw [hc]; simp) rfl
  · have hv' : isOrderViolated h.meas m = false := by simpa using hv
    simp only [hv', Bool.false_eq_true, if_false]
    obtain ⟨e1, p1⟩ := pord_insert_of_not_violated h.meas pb kb nb m hm.1 hv'
    have hsame : sortFrom cc m.t = cc := by
      apply sortFrom_of_pord _ _ kc nc
      have : cc.Sublist (Buf.insertMulti h.meas m.t m) := by
        conv_rhs => rw [h1]
        exact List.sublist_append_right _ _
      rw [e1] at this
      exact List.Pairwise.sublist this p1
    rw [hsame] at hI' hpN hokN
    have hlist : (D ++ X ++ cc).map (·.2) = (D ++ h.meas).map (·.2) ++ [m] := by
      rw [List.append_assoc, ← h1, e1]; simp
    rw [hlist] at hpN hokN
    obtain ⟨_, hen⟩ := hS.enabled _ m hpN hokN
    have hst := hS.status _ m hpN hokN
    rw [← c.w] at hen hst
    have hd : delegate S h.w m = S.inst h.w m := by
      unfold delegate; rw [hk, hen]; simp
    have hrun : (S.inst h.w m).1 = runAll S w0 ((D ++ X ++ cc).map (·.2)) := by
      rw [hlist, runAll_append, ← c.w]; rfl
    simp only [hd]
    have n1 : (S.inst h.w m).2 ≠ .outOfOrder := by rcases hst with h | h <;> rw [h] <;> simp
    have n2 : (S.inst h.w m).2 ≠ .discarded := by rcases hst with h | h <;> rw [h] <;> simp
    rw [if_pos n2, if_neg n1]
    refine ⟨by simpa using n2, X, h1, ?_⟩
    refine ⟨rfl, c.max, ?_, ?_, hokA⟩
    · simp only [trim, insertMeas]; exact hI'
    · simp only [trim, insertMeas]; exact hrun
end

/-- The arrivals that were not answered by exactly one DISCARED. -/
def accepted (fp : FP) (S : Insts W P) (h : HState W P) : List (HOp P) → List (Meas P)
  | [] => []
  | .request t a :: ops => accepted fp S (schedule fp h t a) ops
  | .meas m :: ops =>
    if (Handler.process fp S h m).2 = [.discarded] then accepted fp S (Handler.process fp S h m).1 ops
    else m :: accepted fp S (Handler.process fp S h m).1 ops

theorem conv_run (fp : FP) (S : Insts W P) (w0 : W) (ok : Meas P → Prop) (hS : WellBehaved S w0 ok)
    (ops : List (HOp P)) (hops : ∀ m ∈ arrivals ops, MeasOk m ∧ (S.known w0 m.id = true → ok m))
    (h : HState W P) (A : List (Meas P)) (D : Buf (Meas P)) (c : Conv fp S w0 ok A D h) :
    ∃ X, Conv fp S w0 ok (A ++ accepted fp S h ops) (D ++ X) (ops.foldl (hStep fp S) h) := by
  induction ops generalizing h A D with
  | nil => exact ⟨[], by simpa [accepted] using c⟩
  | cons op ops ih =>
    cases op with
    | request t a =>
      exact ih (by simpa [arrivals] using hops) (schedule fp h t a) A D ⟨c.ooo, c.max, c.inv, c.w, c.ok⟩
    | meas m =>
      have hrest : ∀ x ∈ arrivals ops, MeasOk x ∧ (S.known w0 x.id = true → ok x) :=
        fun x hx => hops x (by
          have : arrivals (HOp.meas m :: ops) = m :: arrivals ops := rfl
          rw [this]; simp [hx])
      obtain ⟨hm1, hm2⟩ := hops m (by simp [arrivals])
      simp only [List.foldl_cons]
      rcases c.process hS m hm1 hm2 with ⟨_, h1, h2⟩ | ⟨h1, X, _, c1⟩
      · obtain ⟨X, i⟩ := ih hrest (Handler.process fp S h m).1 A D (by rw [h2]; exact c)
        refine ⟨X, ?_⟩
        unfold accepted; rw [if_pos h1]; exact i
      · obtain ⟨X', i⟩ := ih hrest (Handler.process fp S h m).1 (A ++ [m]) (D ++ X) c1
        refine ⟨X ++ X', ?_⟩
        unfold accepted; rw [if_neg h1]
        simp only [List.append_assoc, List.singleton_append] at i ⊢
        exact i

theorem chronological_unique (A L L' : List (Meas P)) (hn : ∀ m ∈ A, m.kind ≠ .unknown)
    (h : Chronological A L) (h' : Chronological A L') : L = L' := by
  have key : ∀ M : List (Meas P), Chronological A M → POrd (asStored M) ∧ Keyed (asStored M) ∧
      Known (asStored M) ∧ ∀ k K, (cls (asStored M) k K).map (·.2) = ofClass A k K := by
    intro M hM
    refine ⟨?_, ?_, ?_, ?_⟩
    · unfold POrd asStored; rw [List.pairwise_map]; exact hM.2.1
    · intro e he; obtain ⟨m, _, rfl⟩ := List.mem_map.mp he; rfl
    · intro e he; obtain ⟨m, hm, rfl⟩ := List.mem_map.mp he
      exact hn m (hM.1.subset hm)
    · intro k K; rw [cls_asStored, hM.2.2]
  obtain ⟨a1, a2, a3, a4⟩ := key L h
  obtain ⟨b1, b2, b3, b4⟩ := key L' h'
  have heq : asStored L = asStored L' := by
    apply ord_ext _ _ a1 b1 a2 b2 a3 b3
    intro k K _
    have hh : ∀ M : List (Meas P), (cls (asStored M) k K).map (fun e => (e.2.t, e.2)) = cls (asStored M) k K := by
      intro M
      conv_rhs => rw [← List.map_id (cls (asStored M) k K)]
      apply List.map_congr_left
      intro e he
      have := List.mem_of_mem_filter he
      obtain ⟨m, _, rfl⟩ := List.mem_map.mp this; rfl
    have := (a4 k K).trans (b4 k K).symm
    have := congrArg (List.map (fun m : Meas P => (m.t, m))) this
    rw [List.map_map, List.map_map] at this
    simp only [Function.comp_def] at this
    rwa [hh, hh] at this
  have := congrArg (List.map (·.2)) heq
  simpa [asStored, Function.comp_def] using this

/-- C36. Whatever the arrival order, the horizon, the rounding of times and the interleaved redo
requests: after any events the state of the instances is the one that plain in-order processing of
the accepted measurements gives. `ok` restricts the measurements of known instances. -/
theorem c36_converges (fp : FP) (S : Insts W P) (w0 : W) (ok : Meas P → Prop) (hS : WellBehaved S w0 ok)
    (horizon : ℚ) (ops : List (HOp P))
    (hops : ∀ m ∈ arrivals ops, MeasOk m ∧ (S.known w0 m.id = true → ok m)) :
    (∃ L, Chronological (accepted fp S (Handler.init w0 horizon) ops) L) ∧
    ∀ L, Chronological (accepted fp S (Handler.init w0 horizon) ops) L →
      (ops.foldl (hStep fp S) (Handler.init w0 horizon)).w = runAll S w0 L := by
  obtain ⟨X, i⟩ := conv_run fp S w0 ok hS ops hops (Handler.init w0 horizon) [] []
    ⟨rfl, abs_nonneg _, MInv.nil fp _, rfl, by simp⟩
  simp only [List.nil_append] at i
  have hc := i.inv.chronological
  refine ⟨⟨_, hc⟩, ?_⟩
  intro L hL
  rw [i.w]
  congr 1
  apply chronological_unique _ _ _ _ hc hL
  intro m hm
  have := hc.1.symm.subset hm
  obtain ⟨e, he, rfl⟩ := List.mem_map.mp this
  exact i.inv.known e he

/-- C36. Two histories whose accepted measurements agree up to reordering — except that those of equal
time and type keep their relative order — end in the same state. -/
theorem c36_order_independent (fp fp' : FP) (S : Insts W P) (w0 : W) (ok : Meas P → Prop)
    (hS : WellBehaved S w0 ok) (horizon horizon' : ℚ) (ops ops' : List (HOp P))
    (hops : ∀ m ∈ arrivals ops, MeasOk m ∧ (S.known w0 m.id = true → ok m))
    (hops' : ∀ m ∈ arrivals ops', MeasOk m ∧ (S.known w0 m.id = true → ok m))
    (hsame : ∀ t K, ofClass (accepted fp S (Handler.init w0 horizon) ops) t K =
      ofClass (accepted fp' S (Handler.init w0 horizon') ops') t K) :
    (ops.foldl (hStep fp S) (Handler.init w0 horizon)).w =
      (ops'.foldl (hStep fp' S) (Handler.init w0 horizon')).w := by
  obtain ⟨⟨L, hL⟩, h1⟩ := c36_converges fp S w0 ok hS horizon ops hops
  obtain ⟨_, h2⟩ := c36_converges fp' S w0 ok hS horizon' ops' hops'
  rw [h1 L hL, h2 L]
  exact ⟨hL.1.trans (perm_of_classes _ _ hsame), hL.2.1, fun t K => by rw [hL.2.2, hsame]⟩

end Ikf
