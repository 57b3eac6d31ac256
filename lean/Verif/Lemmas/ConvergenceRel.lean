import Verif.Props.Convergence

/-!
# Convergence when "the state after the list L" is a relation

As Props/Convergence, but the state reached by in-order processing is described by a relation `Sem L w`
(the world `w` holds what the list `L` of measurements means) instead of an equation, and the measurements are
restricted by a predicate on the ordered list instead of one measurement at a time.
-/

namespace Ikf
open Handler
variable {W P : Type _}

/-- `Sem T L w`: the instances hold what the ordered list `L` of measurements means, and `T` is at least the newest time they
have been at (what they can be taken back to depends on it: older histories are trimmed). `Good L`: the list is one the filters
can process. `kn`: the registered instances. `span`: how far (ns) the handler goes back. -/
structure Denotes (S : Insts W P) (kn : Nat → Bool) (Good : List (Meas P) → Prop) (span : Int) (Sem : Int → List (Meas P) → W → Prop) : Prop where
  pre : ∀ L m, (L ++ [m]).Pairwise Meas.before → Good (L ++ [m]) → Good L
  known : ∀ T L w, Sem T L w → ∀ p, S.known w p = kn p
  mono : ∀ T T' L w, Sem T L w → T ≤ T' → Sem T' L w
  step : ∀ T L m w, (L ++ [m]).Pairwise Meas.before → Good (L ++ [m]) → Sem T L w → m.t ≤ T →
    kn m.id = true ∧ S.enabled w m.id = true ∧
    ((S.inst w m).2 = .processed ∨ (S.inst w m).2 = .rejected) ∧ Sem T (L ++ [m]) (S.inst w m).1
  undoFrom : ∀ T L1 L2 t w, (L1 ++ L2).Pairwise Meas.before → Good (L1 ++ L2) → Sem T (L1 ++ L2) w → (∃ o ∈ L1, T - o.t ≤ span) →
    (∀ m ∈ L1, m.t < t) → (∀ m ∈ L2, t ≤ m.t) → Sem T L1 (S.removeFrom w t)
  undoAfter : ∀ T L1 L2 t w, (L1 ++ L2).Pairwise Meas.before → Good (L1 ++ L2) → Sem T (L1 ++ L2) w → (∃ o ∈ L1, T - o.t ≤ span) →
    (∀ m ∈ L1, m.t ≤ t) → (∀ m ∈ L2, t < m.t) → Sem T L1 (S.removeAfter w t)

/-- A trimmed measurement history with times up to `B` spans at most `span`. -/
def SpanOk (P : Type _) (fp : FP) (hm : ℚ) (B span : Int) : Prop :=
  ∀ (b : Buf (Meas P)) o l, Trimmed fp hm b → b.SortedKeys → (∀ e ∈ b, 0 ≤ e.1 ∧ e.1 ≤ B) → b.head? = some o → b.getLast? = some l →
    l.1 - o.1 ≤ span

section
variable {fp : FP} {S : Insts W P} {kn : Nat → Bool} {Good : List (Meas P) → Prop} {hz : ℚ} {B span : Int} {Sem : Int → List (Meas P) → W → Prop}

theorem Denotes.prefix_good (hS : Denotes S kn Good span Sem) (L1 L2 : List (Meas P)) (hp : (L1 ++ L2).Pairwise Meas.before)
    (h : Good (L1 ++ L2)) : Good L1 := by
  induction L2 using List.reverseRecOn with
  | nil => simpa using h
  | append_singleton L2 m ih =>
    rw [← List.append_assoc] at h hp
    exact ih (List.pairwise_append.mp hp).1 (hS.pre _ _ hp h)

theorem Denotes.redo_fold (hS : Denotes S kn Good span Sem) (L1 L2 : List (Meas P)) (hp : (L1 ++ L2).Pairwise Meas.before)
    (hg : Good (L1 ++ L2)) (w : W) {T : Int} (hw : Sem T L1 w) (hT : ∀ m ∈ L2, m.t ≤ T) (rs : List Status) :
    ∃ w' res, L2.foldl (redoStep S) (w, [], rs) = (w', [], rs ++ res) ∧ Sem T (L1 ++ L2) w' ∧
      ∀ s ∈ res, s = .processed ∨ s = .rejected := by
  induction L2 generalizing L1 rs w with
  | nil => exact ⟨w, [], by simp, by simpa using hw, by simp⟩
  | cons m L2 ih =>
    have e : L1 ++ m :: L2 = (L1 ++ [m]) ++ L2 := by simp
    rw [e] at hp hg
    have hp1 : (L1 ++ [m]).Pairwise Meas.before := (List.pairwise_append.mp hp).1
    obtain ⟨hk0, hen, hst, hsem⟩ := hS.step T L1 m w hp1 (hS.prefix_good _ _ hp hg) hw (hT m (by simp))
    have hk := hS.known T L1 w hw m.id
    have hd : delegate S w m = S.inst w m := by
      unfold delegate; rw [hk, hk0, hen]; simp
    simp only [List.foldl_cons]
    have hstep : redoStep S (w, [], rs) m = ((S.inst w m).1, [], rs ++ [(S.inst w m).2]) := by
      unfold redoStep
      simp only [List.isEmpty_nil, Bool.true_or, if_true, hd]
      rw [if_neg]
      rcases hst with h | h <;> rw [h] <;> simp
    rw [hstep, e]
    obtain ⟨w', res, h1, h2, h3⟩ := ih (L1 ++ [m]) hp hg _ hsem (fun x hx => hT x (by simp [hx])) (rs ++ [(S.inst w m).2])
    refine ⟨w', (S.inst w m).2 :: res, by rw [h1]; simp, h2, ?_⟩
    intro s hs
    rcases List.mem_cons.mp hs with rfl | hs
    · exact hst
    · exact h3 s hs

/-- The invariant behind convergence. -/
structure ConvR (fp : FP) (Good : List (Meas P) → Prop) (hz : ℚ) (B : Int) (Sem : Int → List (Meas P) → W → Prop) (A : List (Meas P))
    (D : Buf (Meas P)) (h : HState W P) : Prop where
  ooo : h.ooo = []
  max : 0 ≤ h.hMeas
  inv : MInv fp h.hMeas A D h.meas
  hM : h.hMeas = hz
  bound : ∀ m ∈ A, m.t ≤ B
  sem : ∃ T, Sem T ((D ++ h.meas).map (·.2)) h.w ∧ ∀ k, 0 ≤ k → (∀ e ∈ h.meas, e.1 ≤ k) → T ≤ k
  good : Good ((D ++ h.meas).map (·.2))

variable {A : List (Meas P)} {D : Buf (Meas P)} {h : HState W P}

theorem ConvR.sorted (c : ConvR fp Good hz B Sem A D h) : h.meas.SortedKeys := by
  have := c.inv.pord.sorted c.inv.keyed
  exact List.Pairwise.sublist (List.sublist_append_right D h.meas) this

theorem ConvR.semAt (c : ConvR fp Good hz B Sem A D h) (hS : Denotes S kn Good span Sem) {l : Int × Meas P} (hl : h.meas.getLast? = some l) :
    Sem l.1 ((D ++ h.meas).map (·.2)) h.w := by
  obtain ⟨T, h1, h2⟩ := c.sem
  exact hS.mono _ _ _ _ h1 (h2 l.1 (c.inv.range l (by simp [List.mem_of_getLast? hl])).1 (fun e he => c.sorted.le_getLast hl e he))

theorem ConvR.known (c : ConvR fp Good hz B Sem A D h) (hS : Denotes S kn Good span Sem) (p : Nat) : S.known h.w p = kn p := by
  obtain ⟨T, h1, h2⟩ := c.sem
  exact hS.known _ _ _ h1 p

theorem ConvR.recent (c : ConvR fp Good hz B Sem A D h) (hsp : SpanOk P fp hz B span) {o l : Int × Meas P} (ho : h.meas.head? = some o)
    (hl : h.meas.getLast? = some l) : l.1 - o.1 ≤ span := by
  apply hsp h.meas o l (by rw [← c.hM]; exact c.inv.trimmed) c.sorted _ ho hl
  intro e he
  refine ⟨(c.inv.range e (by simp [he])).1, ?_⟩
  rw [c.inv.keyed e (by simp [he])]
  exact c.bound _ (c.inv.chronological.1.subset (List.mem_map.mpr ⟨e, by simp [he], rfl⟩))

/-- A redo re-establishes the state. -/
theorem ConvR.redoFrom (c : ConvR fp Good hz B Sem A D h) (hS : Denotes S kn Good span Sem) (hsp : SpanOk P fp hz B span) (t : Int)
    (o : Int × Meas P) (ho : h.meas.head? = some o) (hot : o.1 < t) :
    ∃ w', (redoFrom S h t).1 = { h with w := w' } ∧ ConvR fp Good hz B Sem A D { h with w := w' } := by
  have hs := c.sorted
  obtain ⟨_, l, _, hl⟩ := head_last_of_ne h.meas (by intro hc; rw [hc] at ho; simp at ho)
  have hlat : h.meas.latest = some l := hl
  have hspl := split_lt h.meas hs t
  set b1 := h.meas.filter (fun e => decide (e.1 < t)) with hb1
  set b2 := h.meas.filter (fun e => decide (t ≤ e.1)) with hb2
  have hall : (D ++ h.meas).map (·.2) = (D ++ b1).map (·.2) ++ b2.map (·.2) := by
    conv_lhs => rw [hspl]
    simp
  have hp := c.inv.chronological.2.1
  have hg := c.good
  have hw := c.semAt hS hl
  rw [hall] at hp hg hw
  have hom := List.mem_of_head? ho
  have hTall : ∀ m ∈ b2.map (·.2), m.t ≤ l.1 := by
    intro m hm
    obtain ⟨e, he, rfl⟩ := List.mem_map.mp hm
    have he' := (List.mem_filter.mp he).1
    rw [← c.inv.keyed e (by simp [he'])]
    exact hs.le_getLast hl e he'
  have hundo : Sem l.1 ((D ++ b1).map (·.2)) (S.removeFrom h.w t) := by
    apply hS.undoFrom _ _ _ t _ hp hg hw
    · refine ⟨o.2, List.mem_map.mpr ⟨o, by simp [hb1, hom, hot], rfl⟩, ?_⟩
      rw [← c.inv.keyed o (by simp [hom])]
      exact c.recent hsp ho hl
    · intro m hm
      obtain ⟨e, he, rfl⟩ := List.mem_map.mp hm
      rcases List.mem_append.mp he with he | he
      · rw [← c.inv.keyed e (by simp [he])]
        have := c.inv.below e he o hom
        omega
      · have he' := List.mem_filter.mp he
        rw [← c.inv.keyed e (by simp [he'.1])]; simpa using he'.2
    · intro m hm
      obtain ⟨e, he, rfl⟩ := List.mem_map.mp hm
      have he' := List.mem_filter.mp he
      rw [← c.inv.keyed e (by simp [he'.1])]; simpa using he'.2
  obtain ⟨w', res, hres, hsem, _⟩ := hS.redo_fold _ _ hp hg _ hundo hTall []
  refine ⟨w', ?_, ⟨c.ooo, c.max, c.inv, c.hM, c.bound, ⟨l.1, by rw [hall]; exact hsem, fun k _ hk => hk l (List.mem_of_getLast? hl)⟩, c.good⟩⟩
  unfold Handler.redoFrom
  simp only [hlat]
  rw [redoFrom_list h.meas hs t l hlat, hres]
  simp only
  rw [← c.ooo]

theorem ConvR.redoAfter (c : ConvR fp Good hz B Sem A D h) (hS : Denotes S kn Good span Sem) (hsp : SpanOk P fp hz B span) (t : Int)
    (o : Int × Meas P) (ho : h.meas.head? = some o) (hot : o.1 < t) :
    ∃ w', (redoAfter S h t).1 = { h with w := w' } ∧ ConvR fp Good hz B Sem A D { h with w := w' } := by
  have hs := c.sorted
  obtain ⟨_, l, _, hl⟩ := head_last_of_ne h.meas (by intro hc; rw [hc] at ho; simp at ho)
  have hlat : h.meas.latest = some l := hl
  have hspl := split_le h.meas hs t
  set b1 := h.meas.filter (fun e => decide (e.1 ≤ t)) with hb1
  set b2 := h.meas.filter (fun e => decide (t < e.1)) with hb2
  have hall : (D ++ h.meas).map (·.2) = (D ++ b1).map (·.2) ++ b2.map (·.2) := by
    conv_lhs => rw [hspl]
    simp
  have hp := c.inv.chronological.2.1
  have hg := c.good
  have hw := c.semAt hS hl
  rw [hall] at hp hg hw
  have hom := List.mem_of_head? ho
  have hTall : ∀ m ∈ b2.map (·.2), m.t ≤ l.1 := by
    intro m hm
    obtain ⟨e, he, rfl⟩ := List.mem_map.mp hm
    have he' := (List.mem_filter.mp he).1
    rw [← c.inv.keyed e (by simp [he'])]
    exact hs.le_getLast hl e he'
  have hundo : Sem l.1 ((D ++ b1).map (·.2)) (S.removeAfter h.w t) := by
    apply hS.undoAfter _ _ _ t _ hp hg hw
    · refine ⟨o.2, List.mem_map.mpr ⟨o, ?_, rfl⟩, ?_⟩
      · apply List.mem_append_right
        rw [hb1, List.mem_filter]
        exact ⟨hom, by simp; omega⟩
      · rw [← c.inv.keyed o (by simp [hom])]
        exact c.recent hsp ho hl
    · intro m hm
      obtain ⟨e, he, rfl⟩ := List.mem_map.mp hm
      rcases List.mem_append.mp he with he | he
      · rw [← c.inv.keyed e (by simp [he])]
        have := c.inv.below e he o hom
        omega
      · have he' := List.mem_filter.mp he
        rw [← c.inv.keyed e (by simp [he'.1])]; simpa using he'.2
    · intro m hm
      obtain ⟨e, he, rfl⟩ := List.mem_map.mp hm
      have he' := List.mem_filter.mp he
      rw [← c.inv.keyed e (by simp [he'.1])]; simpa using he'.2
  obtain ⟨w', res, hres, hsem, _⟩ := hS.redo_fold _ _ hp hg _ hundo hTall []
  unfold Handler.redoAfter
  simp only [hlat]
  cases ha : h.meas.getAfter t with
  | some a =>
    refine ⟨w', ?_, ⟨c.ooo, c.max, c.inv, c.hM, c.bound, ⟨l.1, by rw [hall]; exact hsem, fun k _ hk => hk l (List.mem_of_getLast? hl)⟩, c.good⟩⟩
    simp only
    rw [redoAfter_list h.meas hs t a l ha hlat, hres]
    simp only
    rw [← c.ooo]
  | none =>
    rw [Buf.getAfter_eq h.meas hs] at ha
    have : b2 = [] := List.head?_eq_none_iff.mp ha
    refine ⟨S.removeAfter h.w t, ?_, ⟨c.ooo, c.max, c.inv, c.hM, c.bound, ⟨l.1, ?_, fun k _ hk => hk l (List.mem_of_getLast? hl)⟩, c.good⟩⟩
    · simp only
      rw [← c.ooo]
    · rw [hall, this]; simpa using hundo

theorem ConvR.serve (c : ConvR fp Good hz B Sem A D h) (hS : Denotes S kn Good span Sem) (hsp : SpanOk P fp hz B span) :
    ∃ w', serveRequests fp S h = { h with redo := [], w := w' } ∧ ConvR fp Good hz B Sem A D { h with redo := [], w := w' } := by
  have c' : ConvR fp Good hz B Sem A D { h with redo := [] } := ⟨c.ooo, c.max, c.inv, c.hM, c.bound, c.sem, c.good⟩
  unfold serveRequests
  simp only
  split
  · rename_i heq
    have := List.head?_eq_none_iff.mp heq
    rw [this]
    exact ⟨h.w, rfl, c'⟩
  · rename_i o heq
    split
    · rename_i om hom
      split
      · rename_i hlt
        split
        · exact c'.redoAfter hS hsp o.1 om hom hlt
        · exact c'.redoFrom hS hsp o.1 om hom hlt
      · exact ⟨h.w, rfl, c'⟩
    · exact ⟨h.w, rfl, c'⟩

/-- One arrival. -/
theorem ConvR.process (c : ConvR fp Good hz B Sem A D h) (hS : Denotes S kn Good span Sem) (hsp : SpanOk P fp hz B span) (m : Meas P)
    (hm : MeasOk m) (hmB : m.t ≤ B) (hgood : kn m.id = true → tooOld fp h m = false → ∀ L, Chronological (A ++ [m]) L → Good L) :
    ((kn m.id = false ∨ tooOld fp h m = true) ∧
      (Handler.process fp S h m).2 = [.discarded] ∧ (Handler.process fp S h m).1 = h) ∨
    (kn m.id = true ∧ tooOld fp h m = false ∧ (∀ s ∈ (Handler.process fp S h m).2, s = .processed ∨ s = .rejected) ∧
      ∃ X, Buf.insertMulti h.meas m.t m = X ++ Buf.checkHorizon fp h.hMeas (Buf.insertMulti h.meas m.t m) ∧
        ConvR fp Good hz B Sem (A ++ [m]) (D ++ X) (Handler.process fp S h m).1) := by
  have hkn : ∀ p, S.known h.w p = kn p := c.known hS
  by_cases hk : kn m.id = true
  swap
  · left
    rw [c34_unknown_id fp S h m (by rw [hkn]; simpa using hk)]
    exact ⟨Or.inl (by simpa using hk), rfl, rfl⟩
  by_cases ho : tooOld fp h m = true
  · left
    unfold Handler.process
    rw [if_neg (by simp [hkn, hk]), if_pos ho]
    exact ⟨Or.inr ho, rfl, rfl⟩
  right
  have ho' : tooOld fp h m = false := by simpa using ho
  refine ⟨hk, ho', ?_⟩
  have hgood' := hgood hk ho'
  have hproc : ∃ w', Handler.process fp S h m = processTail fp S { h with redo := [], w := w' } m ∧
      ConvR fp Good hz B Sem A D { h with redo := [], w := w' } := by
    obtain ⟨w', e, c'⟩ := c.serve hS hsp
    refine ⟨w', ?_, c'⟩
    unfold Handler.process
    rw [if_neg (by simp [hkn, hk]), if_neg (by simp [ho'])]
    simp only [discardMeasurement, Bool.false_eq_true, if_false]
    rw [e]
  have hold : ∀ o, h.meas.head? = some o → o.1 < m.t := by
    intro o hoo
    exact accept_lt fp h.meas h.w h.hMeas h.hOoo h.hRedo h.ooo h.redo m hm.2.1
      (fun e he => (c.inv.range e (by simp [he])).2) ho' o hoo
  obtain ⟨w0, hproc, cw⟩ := hproc
  rw [hproc]
  set g : HState W P := { h with redo := [], w := w0 } with hgdef
  have eMeas : h.meas = g.meas := rfl
  have eMax : h.hMeas = g.hMeas := rfl
  rw [eMeas] at hold ⊢
  rw [eMax]
  clear_value g
  clear c hproc hgdef eMeas eMax
  have hkn : ∀ p, S.known g.w p = kn p := cw.known hS
  have kb : Keyed g.meas := fun e he => cw.inv.keyed e (by simp [he])
  have nb : Known g.meas := fun e he => cw.inv.known e (by simp [he])
  have pb : POrd g.meas := List.Pairwise.sublist (List.sublist_append_right D g.meas) cw.inv.pord
  have sb := cw.sorted
  obtain ⟨X, h1, h2, hI'⟩ := cw.inv.step cw.max m hm.1 hm.2.1 hm.2.2 hold m.t le_rfl
  have hbA : ∀ x ∈ A ++ [m], x.t ≤ B := by
    intro x hx
    rcases List.mem_append.mp hx with hx | hx
    · exact cw.bound x hx
    · have : x = m := by simpa using hx
      rw [this]; exact hmB
  set cc := Buf.checkHorizon fp g.hMeas (Buf.insertMulti g.meas m.t m) with hcc
  have hpN := hI'.chronological.2.1
  have hgN := hgood' _ hI'.chronological
  have hooo : Buf.checkHorizonFrom fp g.hOoo g.ooo (fp.secOfKey m.t) = [] := by
    rw [cw.ooo]; simp [Buf.checkHorizonFrom]
  unfold processTail
  have hno : ∀ t, Buf.existBefore ([] : Buf Bool) t = false ∧ Buf.existAt ([] : Buf Bool) t = false := by
    intro t; simp [Buf.existBefore, Buf.existAt]
  simp only [hooo, (hno m.t).1, (hno m.t).2, Bool.or_false]
  have hsi := Buf.sorted_insertMulti g.meas sb m.t m
  have hki := keyed_insertMulti g.meas kb m
  have hni := known_insertMulti g.meas nb m hm.1
  have hcsub : ∀ e ∈ cc, e ∈ Buf.insertMulti g.meas m.t m := by
    intro e he; rw [h1]; simp [he]
  have sc : Buf.SortedKeys cc := by
    have : cc.Sublist (Buf.insertMulti g.meas m.t m) := by
      conv_rhs => rw [h1]
      exact List.sublist_append_right _ _
    exact List.Pairwise.sublist this hsi
  have kc : Keyed cc := fun e he => hki e (hcsub e he)
  have nc : Known cc := fun e he => hni e (hcsub e he)
  by_cases hv : isOrderViolated g.meas m = true
  · simp only [hv, if_true, Bool.false_eq_true, if_false]
    simp only [trim, insertMeas, ← hcc]
    obtain ⟨q1, q2, q3, q4⟩ := c40_sort_permutes cc sc kc nc m.t
    have sR : Buf.SortedKeys (sortFrom cc m.t) := (sortFrom_spec cc sc kc nc m.t).1
    have hmR : (m.t, m) ∈ sortFrom cc m.t := by
      rw [q1.mem_iff]
      have : (m.t, m) ∈ Buf.insertMulti g.meas m.t m := (Buf.mem_insertMulti _ _ _ _).mpr (Or.inl rfl)
      rw [h1] at this
      rcases List.mem_append.mp this with hx | hx
      · have := h2 _ hx; simp at this
      · exact hx
    obtain ⟨_, l, _, hl⟩ := head_last_of_ne _ (List.ne_nil_of_mem hmR)
    have hlat : (sortFrom cc m.t).latest = some l := hl
    set R := sortFrom cc m.t with hR
    have hsplitR := split_lt R sR m.t
    have hsplitb := split_lt g.meas sb m.t
    have hlow : X ++ R.filter (fun e => decide (e.1 < m.t)) = g.meas.filter (fun e => decide (e.1 < m.t)) := by
      rw [q3]
      have e1 : (Buf.insertMulti g.meas m.t m).filter (fun e => decide (e.1 < m.t)) =
          g.meas.filter (fun e => decide (e.1 < m.t)) := by
        rw [Buf.insertMulti_eq, List.filter_append]
        have hb : g.meas = g.meas.belowUB m.t ++ g.meas.upperBound m.t := by
          unfold Buf.belowUB Buf.upperBound; exact (List.takeWhile_append_dropWhile).symm
        conv_rhs => rw [hb, List.filter_append]
        rw [List.filter_cons_of_neg (by simp)]
      rw [← e1, h1, List.filter_append]
      congr 1
      symm
      rw [List.filter_eq_self]; intro e he; simpa using h2 e he
    have hbne : g.meas ≠ [] := by
      intro hc
      rw [hc] at hv; simp [isOrderViolated, Buf.existAfter, Buf.getAllAt, Buf.existAt] at hv
    obtain ⟨o, lo, hoo, hlo⟩ := head_last_of_ne _ hbne
    have hlol : lo.1 ≤ l.1 := by
      have : lo ∈ Buf.insertMulti g.meas m.t m := (Buf.mem_insertMulti _ _ _ _).mpr (Or.inr (List.mem_of_getLast? hlo))
      rw [h1] at this
      rcases List.mem_append.mp this with hx | hx
      · have h3 := h2 _ hx
        have h4 := sR.le_getLast hl _ hmR
        simp only at h4
        omega
      · exact sR.le_getLast hl _ (q1.symm.subset hx)
    have hold' := hold o hoo
    have hpO := cw.inv.chronological.2.1
    have hgO := cw.good
    have hw := cw.semAt hS hlo
    have hallO : (D ++ g.meas).map (·.2) = (D ++ g.meas.filter (fun e => decide (e.1 < m.t))).map (·.2) ++
        (g.meas.filter (fun e => decide (m.t ≤ e.1))).map (·.2) := by
      conv_lhs => rw [hsplitb]
      simp
    have hallN : (D ++ X ++ R).map (·.2) = (D ++ g.meas.filter (fun e => decide (e.1 < m.t))).map (·.2) ++
        (R.filter (fun e => decide (m.t ≤ e.1))).map (·.2) := by
      conv_lhs => rw [hsplitR]
      rw [← hlow]; simp
    have hgN0 := hgN
    rw [hallO] at hpO hgO hw
    rw [hallN] at hpN hgN
    have hundo : Sem lo.1 ((D ++ g.meas.filter (fun e => decide (e.1 < m.t))).map (·.2)) (S.removeFrom g.w m.t) := by
      apply hS.undoFrom _ _ _ m.t _ hpO hgO hw
      · refine ⟨o.2, List.mem_map.mpr ⟨o, by simp [List.mem_of_head? hoo, hold'], rfl⟩, ?_⟩
        rw [← kb o (List.mem_of_head? hoo)]
        exact cw.recent hsp hoo hlo
      · intro x hx
        obtain ⟨e, he, rfl⟩ := List.mem_map.mp hx
        rcases List.mem_append.mp he with he | he
        · rw [← cw.inv.keyed e (by simp [he])]
          have := cw.inv.below e he o (List.mem_of_head? hoo)
          omega
        · have he' := List.mem_filter.mp he
          rw [← kb e he'.1]; simpa using he'.2
      · intro x hx
        obtain ⟨e, he, rfl⟩ := List.mem_map.mp hx
        have he' := List.mem_filter.mp he
        rw [← kb e he'.1]; simpa using he'.2
    obtain ⟨w', res, hres, hsem, hnd⟩ := hS.redo_fold _ _ hpN hgN _ (hS.mono _ _ _ _ hundo hlol) (by
      intro x hx
      obtain ⟨e, he, rfl⟩ := List.mem_map.mp hx
      have he' := (List.mem_filter.mp he).1
      rw [← kc e (q1.subset he')]
      exact sR.le_getLast hl e he') []
    rw [← hallN] at hsem
    unfold Handler.redoFrom
    simp only [hlat]
    rw [redoFrom_list R sR m.t l hlat, hres]
    simp only [List.nil_append]
    exact ⟨hnd, X, h1, ⟨rfl, cw.max, hI', cw.hM, hbA, ⟨l.1, hsem, fun k _ hk => hk l (List.mem_of_getLast? hl)⟩, hgN0⟩⟩
  · have hv' : isOrderViolated g.meas m = false := by simpa using hv
    simp only [hv', Bool.false_eq_true, if_false]
    obtain ⟨e1, p1⟩ := pord_insert_of_not_violated g.meas pb kb nb m hm.1 hv'
    have hsame : sortFrom cc m.t = cc := by
      apply sortFrom_of_pord _ _ kc nc
      have : cc.Sublist (Buf.insertMulti g.meas m.t m) := by
        conv_rhs => rw [h1]
        exact List.sublist_append_right _ _
      rw [e1] at this
      exact List.Pairwise.sublist this p1
    rw [hsame] at hI' hpN hgN
    have hlist : (D ++ X ++ cc).map (·.2) = (D ++ g.meas).map (·.2) ++ [m] := by
      rw [List.append_assoc, ← h1, e1]; simp
    have hgN0 := hgN
    rw [hlist] at hpN hgN
    have hmc : (m.t, m) ∈ cc := by
      have : (m.t, m) ∈ Buf.insertMulti g.meas m.t m := (Buf.mem_insertMulti _ _ _ _).mpr (Or.inl rfl)
      rw [h1] at this
      rcases List.mem_append.mp this with hx | hx
      · have := h2 _ hx; simp at this
      · exact hx
    obtain ⟨_, l, _, hl⟩ := head_last_of_ne _ (List.ne_nil_of_mem hmc)
    have hml : m.t ≤ l.1 := sc.le_getLast hl _ hmc
    obtain ⟨T, hT1, hT2⟩ := cw.sem
    have hTl : Sem l.1 ((D ++ g.meas).map (·.2)) g.w := by
      apply hS.mono _ _ _ _ hT1
      apply hT2 l.1 (by have := hm.2.1; omega)
      intro e he
      have hem : e ∈ Buf.insertMulti g.meas m.t m := (Buf.mem_insertMulti _ _ _ _).mpr (Or.inr he)
      rw [h1] at hem
      rcases List.mem_append.mp hem with hx | hx
      · have := h2 _ hx; omega
      · exact sc.le_getLast hl _ hx
    obtain ⟨_, hen, hst, hsem⟩ := hS.step _ _ m _ hpN hgN hTl hml
    rw [← hlist] at hsem
    have hd : delegate S g.w m = S.inst g.w m := by
      unfold delegate; rw [hkn, hk, hen]; simp
    simp only [hd]
    have n1 : (S.inst g.w m).2 ≠ .outOfOrder := by rcases hst with h | h <;> rw [h] <;> simp
    have n2 : (S.inst g.w m).2 ≠ .discarded := by rcases hst with h | h <;> rw [h] <;> simp
    rw [if_pos n2, if_neg n1]
    refine ⟨by simpa using hst, X, h1, ?_⟩
    refine ⟨rfl, cw.max, ?_, cw.hM, hbA, ⟨l.1, ?_, ?_⟩, ?_⟩
    · simp only [trim, insertMeas]; exact hI'
    · simp only [trim, insertMeas]; exact hsem
    · intro k _ hk; exact hk l (List.mem_of_getLast? hl)
    · simp only [trim, insertMeas]; exact hgN0

end

/-- The arrivals of registered instances that are not too old when they arrive. -/
def timely (fp : FP) (S : Insts W P) (h : HState W P) : List (HOp P) → List (Meas P)
  | [] => []
  | .request t a :: ops => timely fp S (schedule fp h t a) ops
  | .meas m :: ops =>
    if S.known h.w m.id = true ∧ tooOld fp h m = false then m :: timely fp S (Handler.process fp S h m).1 ops
    else timely fp S (Handler.process fp S h m).1 ops

theorem convR_run (fp : FP) (S : Insts W P) {kn : Nat → Bool} {Good : List (Meas P) → Prop} {hz : ℚ} {B span : Int} {Sem : Int → List (Meas P) → W → Prop}
    (hS : Denotes S kn Good span Sem) (hsp : SpanOk P fp hz B span) (ops : List (HOp P)) (hops : ∀ m ∈ arrivals ops, MeasOk m ∧ m.t ≤ B)
    (h : HState W P) (A : List (Meas P)) (D : Buf (Meas P)) (c : ConvR fp Good hz B Sem A D h)
    (hgood : ∀ n L, Chronological (A ++ timely fp S h (ops.take n)) L → Good L) :
    ∃ X, ConvR fp Good hz B Sem (A ++ timely fp S h ops) (D ++ X) (ops.foldl (hStep fp S) h) := by
  induction ops generalizing h A D with
  | nil => exact ⟨[], by simpa [timely] using c⟩
  | cons op ops ih =>
    cases op with
    | request t a =>
      exact ih (by simpa [arrivals] using hops) (schedule fp h t a) A D ⟨c.ooo, c.max, c.inv, c.hM, c.bound, c.sem, c.good⟩
        (fun n L hL => hgood (n + 1) L hL)
    | meas m =>
      have hrest : ∀ x ∈ arrivals ops, MeasOk x ∧ x.t ≤ B :=
        fun x hx => hops x (by
          have : arrivals (HOp.meas m :: ops) = m :: arrivals ops := rfl
          rw [this]; simp [hx])
      have hm1 := hops m (by simp [arrivals])
      have hkn := c.known hS m.id
      simp only [List.foldl_cons]
      rcases c.process hS hsp m hm1.1 hm1.2 (fun hk ho L hL => hgood 1 L (by
          simp only [List.take_succ_cons, List.take_zero]
          unfold timely
          rw [if_pos ⟨hkn.trans hk, ho⟩]
          exact hL)) with ⟨h0, h1, h2⟩ | ⟨hk, ho, _, X, _, c1⟩
      · have hneg : ¬ (S.known h.w m.id = true ∧ tooOld fp h m = false) := by
          rw [hkn]
          rcases h0 with h0 | h0 <;> simp [h0]
        obtain ⟨X, i⟩ := ih hrest (Handler.process fp S h m).1 A D (by rw [h2]; exact c) (fun n L hL => hgood (n + 1) L (by
          simp only [List.take_succ_cons]; unfold timely; rw [if_neg hneg]; exact hL))
        refine ⟨X, ?_⟩
        unfold timely; rw [if_neg hneg]; exact i
      · have hpos : S.known h.w m.id = true ∧ tooOld fp h m = false := ⟨hkn.trans hk, ho⟩
        obtain ⟨X', i⟩ := ih hrest (Handler.process fp S h m).1 (A ++ [m]) (D ++ X) c1 (fun n L hL => hgood (n + 1) L (by
          simp only [List.take_succ_cons]; unfold timely; rw [if_pos hpos]; simpa using hL))
        refine ⟨X ++ X', ?_⟩
        unfold timely; rw [if_pos hpos]
        simp only [List.append_assoc, List.singleton_append] at i ⊢
        exact i

/-- A handler that has not seen any measurement, with the instances `w0` and the horizon `horizon`. -/
def HState.Fresh (h : HState W P) (w0 : W) (horizon : ℚ) : Prop := h.w = w0 ∧ h.meas = [] ∧ h.ooo = [] ∧ h.hMeas = |horizon|

theorem HState.Fresh.init (w0 : W) (horizon : ℚ) : (Handler.init w0 horizon : HState W P).Fresh w0 horizon := ⟨rfl, rfl, rfl, rfl⟩

theorem HState.Fresh.setHorizon (w0 : W) (hor horizon : ℚ) : (Handler.setHorizon (Handler.init w0 hor) horizon : HState W P).Fresh w0 horizon :=
  ⟨rfl, rfl, rfl, rfl⟩

theorem HState.Fresh.convR {H : HState W P} {w0 : W} {horizon : ℚ} (hH : H.Fresh w0 horizon) {fp : FP} {Good : List (Meas P) → Prop} {B : Int}
    {Sem : Int → List (Meas P) → W → Prop} (h0 : Sem 0 [] w0) (hg0 : Good []) : ConvR fp Good |horizon| B Sem [] [] H := by
  obtain ⟨h1, h2, h3, h4⟩ := hH
  refine ⟨h3, by rw [h4]; exact abs_nonneg _, by rw [h2]; exact MInv.nil fp _, h4, by simp, ⟨0, by rw [h1, h2]; exact h0, fun k hk _ => hk⟩, by rw [h2]; exact hg0⟩

/-- Any arrival order: the final state is one the chronological list of the timely arrivals means. -/
theorem denotes_run (fp : FP) (S : Insts W P) {kn : Nat → Bool} {Good : List (Meas P) → Prop} {B span : Int} {Sem : Int → List (Meas P) → W → Prop}
    (hS : Denotes S kn Good span Sem) (w0 : W) (h0 : Sem 0 [] w0) (hg0 : Good []) (horizon : ℚ) {H : HState W P} (hH : H.Fresh w0 horizon) (hsp : SpanOk P fp |horizon| B span)
    (ops : List (HOp P)) (hops : ∀ m ∈ arrivals ops, MeasOk m ∧ m.t ≤ B)
    (hgood : ∀ n L, Chronological (timely fp S H (ops.take n)) L → Good L) :
    (∃ L, Chronological (timely fp S H ops) L) ∧
    ∀ L, Chronological (timely fp S H ops) L →
      ∃ T, Sem T L (ops.foldl (hStep fp S) H).w ∧ ∀ k, 0 ≤ k → (∀ m ∈ L, m.t ≤ k) → T ≤ k := by
  obtain ⟨X, i⟩ := convR_run fp S hS hsp ops hops H [] []
    (hH.convR h0 hg0) (by simpa using hgood)
  simp only [List.nil_append] at i
  have hc := i.inv.chronological
  refine ⟨⟨_, hc⟩, ?_⟩
  intro L hL
  have : L = (X ++ (ops.foldl (hStep fp S) H).meas).map (·.2) := by
    apply chronological_unique _ _ _ _ hL hc
    intro m hm
    have := hc.1.symm.subset hm
    obtain ⟨e, he, rfl⟩ := List.mem_map.mp this
    exact i.inv.known e he
  obtain ⟨T, hT, hk⟩ := i.sem
  rw [this]
  refine ⟨T, hT, fun k h0 hm => hk k h0 ?_⟩
  intro e he
  rw [i.inv.keyed e (by simp [he])]
  exact hm e.2 (List.mem_map.mpr ⟨e, by simp [he], rfl⟩)

/-- `m` is not too old when it arrives after `A`: some earlier arrival is older than `m` (by 13 µs, the resolution of the
comparison) and within the horizon `hz` (less 10 µs) of all of them. -/
def InTime (hz : ℚ) (A : List (Meas P)) (m : Meas P) : Prop :=
  A = [] ∨ ∃ x ∈ A, x.t + 13000 ≤ m.t ∧ ∀ y ∈ A, ((y.t - x.t : ℤ) : ℚ) / 1000000000 ≤ hz - 1 / 100000

/-- `m` is not newer than anything accepted so far. -/
def Late (A : List (Meas P)) (m : Meas P) : Prop := A ≠ [] ∧ ∀ x ∈ A, m.t ≤ x.t

/-- After `A` has been accepted, the ones accepted of the arrivals in `ops` are `B`: each arrival is of a registered instance and in
time, or it is of an unknown one or late. (For arrivals that are neither in time nor late the relation says nothing.) -/
inductive Accepts (kn : ℕ → Bool) (hz : ℚ) : List (Meas P) → List (HOp P) → List (Meas P) → Prop
  | nil (A) : Accepts kn hz A [] []
  | request {A t a ops B} (r : Accepts kn hz A ops B) : Accepts kn hz A (.request t a :: ops) B
  | take {A m ops B} (hk : kn m.id = true) (hm : InTime hz A m) (r : Accepts kn hz (A ++ [m]) ops B) : Accepts kn hz A (.meas m :: ops) (m :: B)
  | drop {A m ops B} (hm : kn m.id = false ∨ Late A m) (r : Accepts kn hz A ops B) : Accepts kn hz A (.meas m :: ops) B

/-- All arrivals after `A` are in time. -/
def Prompt (hz : ℚ) (A : List (Meas P)) : List (HOp P) → Prop
  | [] => True
  | .request _ _ :: ops => Prompt hz A ops
  | .meas m :: ops => InTime hz A m ∧ Prompt hz (A ++ [m]) ops

theorem Prompt.accepts {kn : ℕ → Bool} {hz : ℚ} : ∀ {ops : List (HOp P)} {A : List (Meas P)}, Prompt hz A ops →
    (∀ m ∈ arrivals ops, kn m.id = true) → Accepts kn hz A ops (arrivals ops)
  | [], A, _, _ => .nil A
  | .request t a :: ops, A, h, hk => .request (Prompt.accepts (ops := ops) h (by simpa [arrivals] using hk))
  | .meas m :: ops, A, h, hk => by
    have ea : arrivals (HOp.meas m :: ops) = m :: arrivals ops := rfl
    rw [ea] at hk ⊢
    exact .take (hk m (by simp)) h.1 (Prompt.accepts h.2 (fun x hx => hk x (by simp [hx])))

/-- The accepted ones of a prefix are a prefix of the accepted ones. -/
theorem timely_take (fp : FP) (S : Insts W P) (ops : List (HOp P)) (h : HState W P) (n : ℕ) :
    ∃ k, timely fp S h (ops.take n) = (timely fp S h ops).take k := by
  induction ops generalizing h n with
  | nil => exact ⟨0, by simp [timely]⟩
  | cons op ops ih =>
    cases n with
    | zero => exact ⟨0, by simp [timely]⟩
    | succ n =>
      cases op with
      | request t a =>
        obtain ⟨k, hk⟩ := ih (schedule fp h t a) n
        exact ⟨k, hk⟩
      | meas m =>
        obtain ⟨k, hk⟩ := ih (Handler.process fp S h m).1 n
        rw [List.take_succ_cons]
        unfold timely
        split
        · exact ⟨k + 1, by rw [hk, List.take_succ_cons]⟩
        · exact ⟨k, hk⟩

theorem tooOld_of_late (fp : FP) (h : HState W P) (m : Meas P) (hs : h.meas.SortedKeys) (hne : h.meas ≠ []) (h0 : 0 ≤ m.t)
    (hb : ∀ e ∈ h.meas, m.t ≤ e.1 ∧ e.1 ≤ 9223372036854775807) : tooOld fp h m = true := by
  obtain ⟨o, l, ho, hl⟩ := head_last_of_ne _ hne
  unfold tooOld
  have hlat : h.meas.latest = some l := hl
  rw [hlat]
  simp only [decide_eq_true_eq]
  rw [horizon_eq fp h.meas o l ho hl]
  apply fp.mono
  have := hb o (List.mem_of_head? ho)
  have := secOfKey_mono fp m.t o.1 h0 this.2 this.1
  linarith

/-- Then those are the accepted ones. -/
theorem timely_accepts (fp : FP) (S : Insts W P) {kn : Nat → Bool} {Good : List (Meas P) → Prop} {hz : ℚ} {B span : Int} {Sem : Int → List (Meas P) → W → Prop}
    (hS : Denotes S kn Good span Sem) (hsp : SpanOk P fp hz B span) (hz0 : 1 / 100000 ≤ hz) (hz1 : hz ≤ 8589934592) (hB : B ≤ 8589934590000000000)
    (ops : List (HOp P)) (hops : ∀ m ∈ arrivals ops, MeasOk m ∧ m.t ≤ B)
    (h : HState W P) (A K : List (Meas P)) (D : Buf (Meas P)) (c : ConvR fp Good hz B Sem A D h)
    (hgood : ∀ n L, Chronological (A ++ K.take n) L → Good L) (hacc : Accepts kn hz A ops K)
    (hD : ∀ d ∈ D, ∃ y ∈ A, hz - 1 / 100000 < ((y.t - d.1 : ℤ) : ℚ) / 1000000000) (hne : A ≠ [] → h.meas ≠ []) :
    timely fp S h ops = K := by
  induction hacc generalizing h D with
  | nil A => rfl
  | request r ih =>
    rename_i A t a ops K
    show timely fp S (schedule fp h t a) ops = K
    exact ih (by simpa [arrivals] using hops) (schedule fp h t a) D ⟨c.ooo, c.max, c.inv, c.hM, c.bound, c.sem, c.good⟩ hgood hD hne
  | drop hm r ih =>
    rename_i A m ops K
    have ea : arrivals (HOp.meas m :: ops) = m :: arrivals ops := rfl
    have hrest : ∀ x ∈ arrivals ops, MeasOk x ∧ x.t ≤ B := fun x hx => hops x (by rw [ea]; simp [hx])
    obtain ⟨hm1, hm2⟩ := hops m (by rw [ea]; simp)
    have hneg : ¬ (S.known h.w m.id = true ∧ tooOld fp h m = false) := by
      rintro ⟨q1, q2⟩
      rcases hm with hm | ⟨hA, hm⟩
      · rw [c.known hS, hm] at q1; simp at q1
      · rw [tooOld_of_late fp h m c.sorted (hne hA) hm1.2.1 ?_] at q2
        · simp at q2
        · intro e he
          have h1 : e.2 ∈ A := c.inv.chronological.1.subset (List.mem_map.mpr ⟨e, by simp [he], rfl⟩)
          have h2 := c.inv.keyed e (by simp [he])
          have h3 := c.bound _ h1
          rw [h2]
          exact ⟨hm _ h1, by omega⟩
    rcases c.process hS hsp m hm1 hm2 (fun hk ho => absurd ⟨(c.known hS m.id).trans hk, ho⟩ hneg) with ⟨h0, -, h2⟩ | ⟨hk, ho, -⟩
    · unfold timely
      rw [if_neg hneg, h2]
      exact ih hrest h D c hgood hD hne
    · exact absurd ⟨(c.known hS m.id).trans hk, ho⟩ hneg
  | take hkn hin r ih =>
    rename_i A m ops K
    have ea : arrivals (HOp.meas m :: ops) = m :: arrivals ops := rfl
    have hrest : ∀ x ∈ arrivals ops, MeasOk x ∧ x.t ≤ B := fun x hx => hops x (by rw [ea]; simp [hx])
    obtain ⟨hm1, hm2⟩ := hops m (by rw [ea]; simp)
    have hm3 := hkn
    have hAB : ∀ e ∈ D ++ h.meas, 0 ≤ e.1 ∧ e.1 ≤ 8589934590000000000 ∧ e.1 = e.2.t ∧ e.2 ∈ A := by
      intro e he
      have h1 : e.2 ∈ A := c.inv.chronological.1.subset (List.mem_map.mpr ⟨e, he, rfl⟩)
      have h2 := c.inv.keyed e he
      exact ⟨(c.inv.range e he).1, by rw [h2]; exact le_trans (c.bound _ h1) hB, h2, h1⟩
    have hacc : tooOld fp h m = false := by
      apply c34_accepted fp h m c.sorted
      · intro e he
        have := hAB e (by simp [he])
        exact ⟨this.1, this.2.1⟩
      · omega
      · intro o ho
        rcases hin with hA | ⟨x, hx, hx1, hx2⟩
        · have := hAB o (by simp [List.mem_of_head? ho])
          rw [hA] at this
          exact absurd this.2.2.2 (by simp)
        · obtain ⟨e, he, rfl⟩ := List.mem_map.mp (c.inv.chronological.1.symm.subset hx)
          have hek := (hAB e he).2.2.1
          rcases List.mem_append.mp he with hd | hb
          · obtain ⟨y, hy, hlt⟩ := hD e hd
            have := hx2 y hy
            rw [← hek] at this
            linarith
          · have := Buf.SortedKeys.head_le c.sorted ho e hb
            omega
    rcases c.process hS hsp m hm1 hm2 (fun _ _ L hL => hgood 1 L (by simpa using hL)) with ⟨h0, -⟩ | ⟨hk, ho, hst, X, hX, c1⟩
    · exfalso
      rcases h0 with h0 | h0
      · rw [hm3] at h0; simp at h0
      · rw [hacc] at h0; simp at h0
    · have hpos : S.known h.w m.id = true ∧ tooOld fp h m = false := ⟨by rw [c.known hS]; exact hm3, hacc⟩
      unfold timely
      rw [if_pos hpos]
      congr 1
      have hsi := Buf.sorted_insertMulti h.meas c.sorted m.t m
      have hmem : ∀ e ∈ Buf.insertMulti h.meas m.t m, 0 ≤ e.1 ∧ e.1 ≤ 8589934590000000000 ∧ e.1 = e.2.t ∧ e.2 ∈ A ++ [m] := by
        intro e he
        rw [Buf.mem_insertMulti] at he
        rcases he with rfl | he
        · exact ⟨hm1.2.1, by simp only; omega, rfl, by simp⟩
        · have := hAB e (by simp [he])
          exact ⟨this.1, this.2.1, this.2.2.1, by simp [this.2.2.2]⟩
      have hmm : (m.t, m) ∈ Buf.insertMulti h.meas m.t m := (Buf.mem_insertMulti _ _ _ _).mpr (Or.inl rfl)
      obtain ⟨o, l, ho', hl⟩ := head_last_of_ne _ (List.ne_nil_of_mem hmm)
      have hlm := hmem l (List.mem_of_getLast? hl)
      have hkept : ∀ d ∈ Buf.insertMulti h.meas m.t m, ((l.1 - d.1 : ℤ) : ℚ) / 1000000000 ≤ hz - 1 / 100000 →
          d ∈ (Handler.process fp S h m).1.meas := by
        intro d hdm hcon
        have hkept := (c15_span fp hz _ hsi hz0 hz1 (fun e he => ⟨(hmem e he).1, (hmem e he).2.1⟩) l hl).2 d hdm hcon
        rw [← c.hM] at hkept
        rcases (process_meas fp S h m).2 with ⟨-, h5⟩ | ⟨-, -, ⟨ts, -, h5⟩ | ⟨-, h5⟩⟩
        · have := hst .discarded (by rw [h5]; simp)
          simp at this
        · rw [h5]
          have hsub : (Buf.checkHorizon fp h.hMeas (Buf.insertMulti h.meas m.t m)).Sublist (Buf.insertMulti h.meas m.t m) := by
            conv_rhs => rw [hX]
            exact List.sublist_append_right _ _
          have hni := known_insertMulti h.meas (fun e he => c.inv.known e (by simp [he])) m hm1.1
          exact (c40_sort_permutes _ (List.Pairwise.sublist hsub hsi) (fun e he => (hmem e (hsub.subset he)).2.2.1)
            (fun e he => hni e (hsub.subset he)) ts).1.symm.subset hkept
        · rw [h5]; exact hkept
      refine ih hrest _ (D ++ X) c1 (fun n L hL => hgood (n + 1) L ?_) ?_ ?_
      · rw [List.take_succ_cons]
        simpa using hL
      · intro d hd
        rcases List.mem_append.mp hd with hd | hd
        · obtain ⟨y, hy, h2⟩ := hD d hd
          exact ⟨y, by simp [hy], h2⟩
        · have hdm : d ∈ Buf.insertMulti h.meas m.t m := by rw [hX]; simp [hd]
          refine ⟨l.2, hlm.2.2.2, ?_⟩
          by_contra hcon
          push Not at hcon
          rw [← hlm.2.2.1] at hcon
          have := c1.inv.below d (by simp [hd]) d (hkept d hdm hcon)
          omega
      · intro _
        apply List.ne_nil_of_mem (hkept l (List.mem_of_getLast? hl) _)
        rw [sub_self]
        simpa using hz0

end Ikf
