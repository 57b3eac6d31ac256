import Verif.Model.CollabRedo
import Verif.Props.MultiAgent
import Verif.Props.ConvergenceInst
import Verif.Props.FactorStore
import Verif.Lemmas.Relaxed

/-!
# The collaborative handler and delayed measurements (C76, C77, C78)
-/

namespace Ikf.Agents
variable {W P : Type _}

/-! ## Specification -/

/-- Some local instance has a cross-covariance factor towards `J` at a time after `t`. -/
def CorrelatedAfter (h : Hdl) (t : Int) (J : ℕ) : Prop :=
  ∃ p i, h.find p = some i ∧ ∃ b, i.ccf.find J = some b ∧ ∃ e ∈ b, t < e.1

/-- All histories are in order of time, as those of a `std::map`. -/
def Sane (h : Hdl) : Prop := SMap.Sorted h ∧ ∀ p i, h.find p = some i → i.Ord

/-- Agent `a` holds an instance that is not local and correlated with a local one after `t`. -/
def AgentAfter (T : Tables) (h : Hdl) (t : Int) (a : ℕ) : Prop :=
  ∃ J, h.find J = none ∧ agentOf T J = a ∧ CorrelatedAfter h t J

/-! ## The sets -/

theorem foldl_setInsert_spec (l s : List ℕ) (hs : s.Pairwise (· < ·)) :
    (l.foldl (fun s k => setInsert k s) s).Pairwise (· < ·) ∧ ∀ x, x ∈ l.foldl (fun s k => setInsert k s) s ↔ x ∈ s ∨ x ∈ l := by
  induction l generalizing s with
  | nil => simp [hs]
  | cons a r ih =>
    obtain ⟨h1, h2⟩ := ih (setInsert a s) (sorted_setInsert a s hs)
    refine ⟨h1, fun x => ?_⟩
    rw [List.foldl_cons, h2, mem_setInsert]
    simp only [List.mem_cons]
    tauto

theorem foldl_setInsertIf_spec (p : ℕ → Bool) (f : ℕ → ℕ) (l s : List ℕ) (hs : s.Pairwise (· < ·)) :
    (l.foldl (fun s k => if p k then setInsert (f k) s else s) s).Pairwise (· < ·) ∧
    ∀ x, x ∈ l.foldl (fun s k => if p k then setInsert (f k) s else s) s ↔ x ∈ s ∨ ∃ k ∈ l, p k = true ∧ f k = x := by
  induction l generalizing s with
  | nil => simp [hs]
  | cons a r ih =>
    rw [List.foldl_cons]
    by_cases ha : p a = true
    · rw [if_pos ha]
      obtain ⟨h1, h2⟩ := ih (setInsert (f a) s) (sorted_setInsert _ s hs)
      refine ⟨h1, fun x => ?_⟩
      rw [h2, mem_setInsert]
      constructor
      · rintro ((rfl | h) | ⟨k, hk, h⟩)
        · exact Or.inr ⟨a, by simp, ha, rfl⟩
        · exact Or.inl h
        · exact Or.inr ⟨k, by simp [hk], h⟩
      · rintro (h | ⟨k, hk, h⟩)
        · exact Or.inl (Or.inr h)
        · rcases List.mem_cons.mp hk with rfl | hk
          · exact Or.inl (Or.inl h.2.symm)
          · exact Or.inr ⟨k, hk, h⟩
    · rw [if_neg ha]
      obtain ⟨h1, h2⟩ := ih s hs
      refine ⟨h1, fun x => ?_⟩
      rw [h2]
      constructor
      · rintro (h | ⟨k, hk, h⟩)
        · exact Or.inl h
        · exact Or.inr ⟨k, by simp [hk], h⟩
      · rintro (h | ⟨k, hk, h⟩)
        · exact Or.inl h
        · rcases List.mem_cons.mp hk with rfl | hk
          · exact absurd h.1 ha
          · exact Or.inr ⟨k, hk, h⟩

theorem mem_correlatedAfter_inst {i : Inst} (ho : i.Ord) (t : Int) (J : ℕ) :
    J ∈ i.correlatedAfter t ↔ ∃ b, i.ccf.find J = some b ∧ ∃ e ∈ b, t < e.1 := by
  unfold Inst.correlatedAfter
  simp only [List.mem_map, List.mem_filter]
  constructor
  · rintro ⟨e, ⟨he, hx⟩, rfl⟩
    have hf := SMap.find_eq_some ho.ccf e.1 e.2 |>.mpr he
    exact ⟨e.2, hf, (Buf.existAfter_iff e.2 (ho.buf _ _ hf).sorted t).mp hx⟩
  · rintro ⟨b, hf, hx⟩
    exact ⟨(J, b), ⟨SMap.mem_of_find hf, (Buf.existAfter_iff b (ho.buf _ _ hf).sorted t).mpr hx⟩, rfl⟩

theorem correlatedAfter_spec {h : Hdl} (hs : Sane h) (t : Int) :
    (correlatedAfter h t).Pairwise (· < ·) ∧ ∀ J, J ∈ correlatedAfter h t ↔ CorrelatedAfter h t J := by
  have gen : ∀ (l : List (ℕ × Inst)) (s : List ℕ), s.Pairwise (· < ·) →
      (l.foldl (fun s e => (e.2.correlatedAfter t).foldl (fun s k => setInsert k s) s) s).Pairwise (· < ·) ∧
      ∀ J, J ∈ l.foldl (fun s e => (e.2.correlatedAfter t).foldl (fun s k => setInsert k s) s) s ↔
        J ∈ s ∨ ∃ e ∈ l, J ∈ e.2.correlatedAfter t := by
    intro l
    induction l with
    | nil => intro s hs; simp [hs]
    | cons a r ih =>
      intro s hs
      obtain ⟨h1, h2⟩ := foldl_setInsert_spec (a.2.correlatedAfter t) s hs
      obtain ⟨h3, h4⟩ := ih _ h1
      refine ⟨h3, fun J => ?_⟩
      rw [List.foldl_cons, h4, h2]
      simp only [List.mem_cons, exists_eq_or_imp]
      tauto
  obtain ⟨h1, h2⟩ := gen h [] List.Pairwise.nil
  refine ⟨h1, fun J => ?_⟩
  unfold correlatedAfter
  rw [h2]
  simp only [List.not_mem_nil, false_or]
  constructor
  · rintro ⟨e, he, hJ⟩
    have hf := SMap.find_eq_some hs.1 e.1 e.2 |>.mpr he
    exact ⟨e.1, e.2, hf, (mem_correlatedAfter_inst (hs.2 _ _ hf) t J).mp hJ⟩
  · rintro ⟨p, i, hf, hJ⟩
    exact ⟨(p, i), SMap.mem_of_find hf, (mem_correlatedAfter_inst (hs.2 _ _ hf) t J).mpr hJ⟩

theorem remoteCorrelatedAfter_spec {h : Hdl} (hs : Sane h) (t : Int) (J : ℕ) :
    J ∈ remoteCorrelatedAfter h t ↔ h.find J = none ∧ CorrelatedAfter h t J := by
  unfold remoteCorrelatedAfter
  rw [(foldl_setInsertIf_spec (fun k => !(h.find k).isSome) (fun k => k) _ [] List.Pairwise.nil).2]
  simp only [List.not_mem_nil, false_or]
  constructor
  · rintro ⟨k, hk, hn, rfl⟩
    exact ⟨by simpa using hn, ((correlatedAfter_spec hs t).2 k).mp hk⟩
  · rintro ⟨hn, hc⟩
    exact ⟨J, ((correlatedAfter_spec hs t).2 J).mpr hc, by simpa using hn, rfl⟩

theorem requests_spec (C : Coll W) (w : W) (hs : Sane (C.hdl w)) (t : Int) (after : Bool) :
    (requests C w t after).Pairwise (fun q r => q.agent < r.agent) ∧
    ∀ q, q ∈ requests C w t after ↔ C.redo = .postcorrelated ∧ q.t = t ∧ q.after = after ∧ AgentAfter C.T (C.hdl w) t q.agent := by
  unfold requests
  by_cases hp : C.redo = .postcorrelated
  · rw [if_pos hp]
    obtain ⟨h1, h2⟩ := foldl_setInsertIf_spec (fun k => !((C.hdl w).find k).isSome) (agentOf C.T) (remoteCorrelatedAfter (C.hdl w) t) []
      List.Pairwise.nil
    refine ⟨List.pairwise_map.mpr h1, ?_⟩
    intro q
    rw [List.mem_map]
    unfold idsToAgents
    constructor
    · rintro ⟨a, ha, rfl⟩
      obtain ⟨k, hk, -, rfl⟩ := ((h2 a).mp ha).resolve_left (by simp)
      obtain ⟨x1, x2⟩ := (remoteCorrelatedAfter_spec hs t k).mp hk
      exact ⟨hp, rfl, rfl, k, x1, rfl, x2⟩
    · rintro ⟨-, rfl, rfl, J, x1, x2, x3⟩
      refine ⟨q.agent, (h2 _).mpr (Or.inr ⟨J, (remoteCorrelatedAfter_spec hs _ J).mpr ⟨x1, x3⟩, by simp [x1], x2⟩), ?_⟩
      rfl
  · rw [if_neg hp]
    exact ⟨List.Pairwise.nil, fun q => by simp [hp]⟩

/-! ## C76 -/

/-- C76: which agents are asked. `redo_updates_from_t(t)` / `redo_updates_after_t(t)` of the collaborative handler send,
under strategy POSTCORRELATED, one request to each agent that holds an instance correlated with a local one after `t`, and
no other; under the other strategies none. Locally they do what the base class does. -/
theorem c76_asked (S : Insts W P) (C : Coll W) (h : HState W P) (hs : Sane (C.hdl h.w)) (t : Int) :
    ((redoFromC S C h t).2.2.Pairwise (fun q r => q.agent < r.agent) ∧
      (∀ q, q ∈ (redoFromC S C h t).2.2 ↔
        C.redo = .postcorrelated ∧ q.t = t ∧ q.after = false ∧ AgentAfter C.T (C.hdl h.w) t q.agent) ∧
      (redoFromC S C h t).1 = (Handler.redoFrom S h t).1 ∧ (redoFromC S C h t).2.1 = (Handler.redoFrom S h t).2) ∧
    ((redoAfterC S C h t).2.2.Pairwise (fun q r => q.agent < r.agent) ∧
      (∀ q, q ∈ (redoAfterC S C h t).2.2 ↔
        C.redo = .postcorrelated ∧ q.t = t ∧ q.after = true ∧ AgentAfter C.T (C.hdl h.w) t q.agent) ∧
      (redoAfterC S C h t).1 = (Handler.redoAfter S h t).1 ∧ (redoAfterC S C h t).2.1 = (Handler.redoAfter S h t).2) := by
  obtain ⟨a1, a2⟩ := requests_spec C h.w hs t false
  obtain ⟨b1, b2⟩ := requests_spec C h.w hs t true
  exact ⟨⟨a1, a2, rfl, rfl⟩, ⟨b1, b2, rfl, rfl⟩⟩

/-- Whether a measurement makes the handler re-process, judged behind the served requests: the order test, or an
out-of-order mark (still inside its horizon) at or before its time. -/
def Reprocesses (fp : FP) (C : Coll W) (h : HState W P) (m : Meas P) : Prop :=
  orderViolated C.order h.meas m = true ∨
    ∃ e ∈ Buf.checkHorizonFrom fp h.hOoo h.ooo (fp.secOfKey m.t), e.1 ≤ m.t

/-- From when on: the oldest such mark if it is older. -/
noncomputable def startTime (fp : FP) (h : HState W P) (m : Meas P) : Int :=
  match (Buf.checkHorizonFrom fp h.hOoo h.ooo (fp.secOfKey m.t)).head? with
  | some e => min e.1 m.t
  | none => m.t

theorem oooExists_iff {b : Buf Bool} (hs : b.SortedKeys) (t : Int) :
    (b.existBefore t || b.existAt t) = true ↔ ∃ e ∈ b, e.1 ≤ t := by
  rw [Bool.or_eq_true, Buf.existAt_iff, Buf.existBefore_iff _ hs]
  constructor
  · rintro (⟨e, h1, h2⟩ | ⟨e, h1, h2⟩)
    · exact ⟨e, h1, by omega⟩
    · exact ⟨e, h1, by omega⟩
  · rintro ⟨e, h1, h2⟩
    rcases lt_or_eq_of_le h2 with h3 | h3
    · exact Or.inl ⟨e, h1, h3⟩
    · exact Or.inr ⟨e, h1, h3⟩

/-- C76: when they are asked. A measurement that is discarded or processed in order sends no request; one that makes the
handler re-process asks exactly the agents correlated after the time re-processing starts. -/
theorem c76_measurement (fp : FP) (S : Insts W P) (C : Coll W) (h : HState W P) (m : Meas P)
    (hooo : (Handler.serveRequests fp S h).ooo.SortedKeys) (hs : Sane (C.hdl (Handler.serveRequests fp S h).w)) (q : Req) :
    let g := Handler.serveRequests fp S h
    q ∈ (processC fp S C h m).2.2 ↔
      S.known h.w m.id = true ∧ Handler.tooOld fp h m = false ∧ C.redo = .postcorrelated ∧ Reprocesses fp C g m ∧
      q.t = startTime fp g m ∧ q.after = false ∧ AgentAfter C.T (C.hdl g.w) (startTime fp g m) q.agent := by
  intro g
  unfold processC
  by_cases hk : S.known h.w m.id = true
  swap
  · rw [if_pos (by simpa using hk)]; simp [hk]
  rw [if_neg (by simp [hk])]
  by_cases ho : Handler.tooOld fp h m = true
  · rw [if_pos ho]; simp [ho]
  rw [if_neg ho]
  have ho' : Handler.tooOld fp h m = false := by simpa using ho
  simp only [hk, ho', true_and]
  by_cases hd : discardC C g m = true
  · rw [show Handler.serveRequests fp S h = g from rfl, if_pos hd]
    have : C.redo = .discard := by
      unfold discardC at hd
      by_contra hc
      rw [if_neg hc] at hd; simp at hd
    simp [this]
  rw [show Handler.serveRequests fp S h = g from rfl, if_neg hd]
  clear hd
  have hooo' : (Buf.checkHorizonFrom fp g.hOoo g.ooo (fp.secOfKey m.t)).SortedKeys := by
    unfold Buf.checkHorizonFrom
    split
    · exact hooo.sublist (removeBefore_suffix _ _).sublist
    · exact hooo
  unfold processTailC
  simp only
  by_cases hv : (orderViolated C.order g.meas m || ((Buf.checkHorizonFrom fp g.hOoo g.ooo (fp.secOfKey m.t)).existBefore m.t ||
      (Buf.checkHorizonFrom fp g.hOoo g.ooo (fp.secOfKey m.t)).existAt m.t)) = true
  · rw [if_pos hv]
    have hR : Reprocesses fp C g m := by
      rcases (Bool.or_eq_true _ _).mp hv with h1 | h1
      · exact Or.inl h1
      · exact Or.inr ((oooExists_iff hooo' m.t).mp h1)
    have hst : (if ((Buf.checkHorizonFrom fp g.hOoo g.ooo (fp.secOfKey m.t)).existBefore m.t ||
          (Buf.checkHorizonFrom fp g.hOoo g.ooo (fp.secOfKey m.t)).existAt m.t) = true then
        match (Buf.checkHorizonFrom fp g.hOoo g.ooo (fp.secOfKey m.t)).oldest with
        | some o => if o.1 < m.t then o.1 else m.t
        | none => m.t
        else m.t) = startTime fp g m := by
      unfold startTime
      show (if _ then match (Buf.checkHorizonFrom fp g.hOoo g.ooo (fp.secOfKey m.t)).head? with
        | some o => if o.1 < m.t then o.1 else m.t
        | none => m.t
        else m.t) = _
      cases hh : (Buf.checkHorizonFrom fp g.hOoo g.ooo (fp.secOfKey m.t)).head? with
      | none => simp
      | some e =>
        have hm := List.mem_of_head? hh
        by_cases he : e.1 ≤ m.t
        · rw [if_pos ((oooExists_iff hooo' m.t).mpr ⟨e, hm, he⟩)]
          simp only
          split <;> omega
        · simp only
          split
          · split <;> omega
          · omega
    have hq := (requests_spec C g.w hs (startTime fp g m) false).2 q
    simp only [hR, true_and]
    rw [← hq, ← hst]
    have hw : ∀ (c : Bool) (x : HState W P), (if c = true then { x with ooo := ([] : Buf Bool) } else x).w = x.w := by
      intro c x; split <;> rfl
    show q ∈ requests C (if _ then _ else _ : HState W P).w _ false ↔ _
    rw [hw]
    exact Iff.rfl
  · rw [if_neg hv]
    have hR : ¬ Reprocesses fp C g m := by
      rintro (h1 | h1)
      · exact hv (by rw [h1]; rfl)
      · exact hv (by rw [(oooExists_iff hooo' m.t).mpr h1]; simp)
    simp [hR]

/-! ### Requests do not breed requests -/

/-- Measurements among the events. -/
def measEvents : List (Event P) → ℕ
  | [] => 0
  | .meas _ _ :: es => measEvents es + 1
  | _ :: es => measEvents es

/-- Requests sent along the events: the handler sends them only while it processes a measurement. -/
def sent (fp : FP) (S : ℕ → Insts W P) (C : ℕ → Coll W) (s : Team W P) : List (Event P) → ℕ
  | [] => 0
  | .meas a m :: es => (processC fp (S a) (C a) { s.st a with w := s.w } m).2.2.length + sent fp S C (teamStep fp S C s (.meas a m)) es
  | e :: es => sent fp S C (teamStep fp S C s e) es

theorem agentOf_mem (T : Tables) (k : ℕ) : agentOf T k ∈ 0 :: T.id2agent.map (·.2) := by
  unfold agentOf
  split
  · rename_i a h
    exact List.mem_cons_of_mem _ (List.mem_map.mpr ⟨_, SMap.mem_of_find h, rfl⟩)
  · simp

theorem requests_length (C : Coll W) (w : W) (t : Int) (after : Bool) : (requests C w t after).length ≤ C.T.id2agent.length + 1 := by
  unfold requests
  split
  · rw [List.length_map]
    obtain ⟨h1, h2⟩ := foldl_setInsertIf_spec (fun k => !((C.hdl w).find k).isSome) (agentOf C.T) (remoteCorrelatedAfter (C.hdl w) t) []
      List.Pairwise.nil
    have hnd := List.Pairwise.imp (fun {a b} (h : a < b) => Nat.ne_of_lt h) h1
    have hsub : ∀ x ∈ idsToAgents (fun k => ((C.hdl w).find k).isSome) C.T (remoteCorrelatedAfter (C.hdl w) t),
        x ∈ 0 :: C.T.id2agent.map (·.2) := by
      intro x hx
      obtain ⟨k, -, -, rfl⟩ := ((h2 x).mp hx).resolve_left (by simp)
      exact agentOf_mem _ _
    have := (List.subperm_of_subset hnd hsub).length_le
    rw [List.length_cons, List.length_map] at this
    exact this
  · simp

theorem processC_length (fp : FP) (S : Insts W P) (C : Coll W) (h : HState W P) (m : Meas P) :
    (processC fp S C h m).2.2.length ≤ C.T.id2agent.length + 1 := by
  unfold processC
  split
  · simp
  split
  · simp
  simp only
  split
  · simp
  unfold processTailC
  simp only
  split
  · exact requests_length _ _ _ _
  · simp

/-- C76: no avalanche. Whatever the agents, their states, and the order in which measurements arrive and requests are
delivered or lost: at most `N` requests are sent per measurement (`N` one more than the entries of the largest table of
instances), and a delivered request is never answered by another one. Hence without new measurements the requests under way
die out. -/
theorem c76_quiesces (fp : FP) (S : ℕ → Insts W P) (C : ℕ → Coll W) (N : ℕ) (hN : ∀ a, (C a).T.id2agent.length + 1 ≤ N)
    (s : Team W P) (es : List (Event P)) :
    sent fp S C s es ≤ N * measEvents es ∧
    (es.foldl (teamStep fp S C) s).wire.length ≤ s.wire.length + sent fp S C s es ∧
    (∀ k q, s.wire[k]? = some q → (teamStep fp S C s (.deliver k)).wire.length + 1 = s.wire.length ∧
      (teamStep fp S C s (.lose k)).wire.length + 1 = s.wire.length) := by
  refine ⟨?_, ?_, ?_⟩
  · induction es generalizing s with
    | nil => simp [sent]
    | cons e es ih =>
      cases e with
      | meas a m =>
        have h1 := processC_length fp (S a) (C a) { s.st a with w := s.w } m
        have h2 := ih (teamStep fp S C s (.meas a m))
        have h3 := hN a
        unfold sent measEvents
        rw [Nat.mul_add]
        omega
      | deliver k => simpa [sent, measEvents] using ih _
      | lose k => simpa [sent, measEvents] using ih _
  · induction es generalizing s with
    | nil => simp [sent]
    | cons e es ih =>
      rw [List.foldl_cons]
      cases e with
      | meas a m =>
        have h2 := ih (teamStep fp S C s (.meas a m))
        have h3 : (teamStep fp S C s (.meas a m)).wire.length =
            s.wire.length + (processC fp (S a) (C a) { s.st a with w := s.w } m).2.2.length := by
          simp [teamStep]
        unfold sent
        omega
      | deliver k =>
        have h2 := ih (teamStep fp S C s (.deliver k))
        have h3 : (teamStep fp S C s (.deliver k)).wire.length ≤ s.wire.length := by
          unfold teamStep
          simp only
          split
          · exact List.length_eraseIdx_le _ _
          · exact le_refl _
        simp only [sent]
        omega
      | lose k =>
        have h2 := ih (teamStep fp S C s (.lose k))
        have h3 : (teamStep fp S C s (.lose k)).wire.length ≤ s.wire.length := List.length_eraseIdx_le _ _
        simp only [sent]
        omega
  · intro k q hq
    have hlt : k < s.wire.length := (List.getElem?_eq_some_iff.mp hq).1
    have he : (s.wire.eraseIdx k).length + 1 = s.wire.length := by
      rw [List.length_eraseIdx_of_lt hlt]; omega
    refine ⟨?_, he⟩
    unfold teamStep
    simp only [hq]
    exact he

/-- C76: what a delivered request does. It stays with the agent it was sent to and touches no other agent and no estimate. If
that agent has no other open request and has stored a measurement older than the request, its next measurement first
re-processes, as asked, the ones from or after the time of the request. -/
theorem c76_delivered (fp : FP) (S : ℕ → Insts W P) (C : ℕ → Coll W) (s : Team W P) (k : ℕ) (q : Req) (hq : s.wire[k]? = some q) :
    (teamStep fp S C s (.deliver k)).w = s.w ∧ (teamStep fp S C s (.deliver k)).wire = s.wire.eraseIdx k ∧
    (∀ a, a ≠ q.agent → (teamStep fp S C s (.deliver k)).st a = s.st a) ∧
    ((s.st q.agent).redo = [] → (∃ om, (s.st q.agent).meas.head? = some om ∧ om.1 < q.t) →
      Handler.serveRequests fp (S q.agent) ((teamStep fp S C s (.deliver k)).st q.agent) =
        if q.after then (Handler.redoAfter (S q.agent) (s.st q.agent) q.t).1 else (Handler.redoFrom (S q.agent) (s.st q.agent) q.t).1) := by
  have e : teamStep fp S C s (.deliver k) = { s with
        st := Function.update s.st q.agent (Handler.schedule fp (s.st q.agent) q.t q.after)
        wire := s.wire.eraseIdx k } := by
    unfold teamStep
    simp only [hq]
  refine ⟨by rw [e], by rw [e], ?_, ?_⟩
  · intro a ha
    rw [e]
    exact Function.update_of_ne ha _ _
  · rintro h0 ⟨om, ho, hlt⟩
    rw [e]
    simp only [Function.update_self]
    have one : ∀ (c : Int), Buf.removeBefore ([(q.t, q.after)] : Buf Bool) c = [(q.t, q.after)] := by
      intro c
      unfold Buf.removeBefore Buf.lowerBound
      by_cases h : q.t < c
      · simp [List.dropWhile, h]
      · simp [List.dropWhile, h]
    have h1 : Handler.schedule fp (s.st q.agent) q.t q.after = { s.st q.agent with redo := [(q.t, q.after)] } := by
      unfold Handler.schedule
      rw [h0]
      have : Buf.insertMap ([] : Buf Bool) q.t q.after = [(q.t, q.after)] := rfl
      rw [this]
      congr 1
      unfold Buf.checkHorizon
      split
      · exact one _
      · rfl
    rw [h1]
    have h2 : ∀ x, Buf.checkHorizonFrom fp (s.st q.agent).hRedo [(q.t, q.after)] x = [(q.t, q.after)] := by
      intro x
      unfold Buf.checkHorizonFrom
      exact one _
    have h3 : ({ s.st q.agent with redo := [] } : HState W P) = s.st q.agent := by
      cases hs : s.st q.agent
      rw [hs] at h0
      simp only at h0
      rw [h0]
    have h4 : (s.st q.agent).meas.oldest = some om := ho
    unfold Handler.serveRequests
    simp only [h2]
    have h5 : Buf.oldest ([(q.t, q.after)] : Buf Bool) = some (q.t, q.after) := rfl
    simp only [h5, h3, h4, if_pos hlt]

/-! ## C77 -/

/-- C77: strategy DISCARD. A measurement that is known and recent enough is discarded, after the requests of other agents
have been served, exactly if an instance of another agent is correlated with a local one after the time of the
measurement. -/
theorem c77_discard (fp : FP) (S : Insts W P) (C : Coll W) (hd : C.redo = .discard) (h : HState W P) (m : Meas P)
    (hk : S.known h.w m.id = true) (ho : Handler.tooOld fp h m = false)
    (hs : Sane (C.hdl (Handler.serveRequests fp S h).w)) :
    ((∃ J, (C.hdl (Handler.serveRequests fp S h).w).find J = none ∧ CorrelatedAfter (C.hdl (Handler.serveRequests fp S h).w) m.t J) →
      processC fp S C h m = (Handler.serveRequests fp S h, [.discarded], [])) ∧
    ((∀ J, CorrelatedAfter (C.hdl (Handler.serveRequests fp S h).w) m.t J → (C.hdl (Handler.serveRequests fp S h).w).find J ≠ none) →
      processC fp S C h m = processC fp S { C with redo := .exact } h m) ∧
    (processC fp S C h m).2.2 = [] := by
  have hdisc : ∀ b : Bool, discardC C (Handler.serveRequests fp S h) m = b ↔
      (!(remoteCorrelatedAfter (C.hdl (Handler.serveRequests fp S h).w) m.t).isEmpty) = b := by
    intro b; unfold discardC; rw [if_pos hd]
  have hre : processC fp S { C with redo := .exact } h m = processTailC fp S { C with redo := .exact } (Handler.serveRequests fp S h) m := by
    unfold processC
    rw [if_neg (by simp [hk]), if_neg (by simp [ho])]
    simp only
    rw [if_neg (by simp [discardC])]
  have hreq : ∀ (w : W) t, requests C w t false = [] := by
    intro w t; unfold requests; rw [if_neg (by rw [hd]; simp)]
  have hreq2 : ∀ (w : W) t, requests { C with redo := .exact } w t false = [] := by
    intro w t; unfold requests; rw [if_neg (by simp)]
  refine ⟨?_, ?_, ?_⟩
  · rintro ⟨J, h1, h2⟩
    have hm := (remoteCorrelatedAfter_spec hs m.t J).mpr ⟨h1, h2⟩
    unfold processC
    rw [if_neg (by simp [hk]), if_neg (by simp [ho])]
    simp only
    rw [if_pos]
    rw [hdisc]
    cases hr : remoteCorrelatedAfter (C.hdl (Handler.serveRequests fp S h).w) m.t with
    | nil => rw [hr] at hm; simp at hm
    | cons _ _ => rfl
  · intro hall
    rw [hre]
    unfold processC
    rw [if_neg (by simp [hk]), if_neg (by simp [ho])]
    simp only
    rw [if_neg]
    · unfold processTailC redoFromC
      simp only [hreq, hreq2]
    · rw [hdisc]
      cases hr : remoteCorrelatedAfter (C.hdl (Handler.serveRequests fp S h).w) m.t with
      | nil => simp
      | cons J _ =>
        obtain ⟨h1, h2⟩ := (remoteCorrelatedAfter_spec hs m.t J).mp (by rw [hr]; simp)
        exact absurd h1 (hall J h2)
  · unfold processC
    split
    · rfl
    split
    · rfl
    simp only
    split
    · rfl
    unfold processTailC redoFromC
    simp only [hreq]
    split <;> rfl

/-! ## C78 -/

theorem processTailC_eq (fp : FP) (S : Insts W P) (C : Coll W) (h : HState W P) (m : Meas P)
    (ho : orderViolated C.order h.meas m = Handler.isOrderViolated h.meas m) :
    ((processTailC fp S C h m).1, (processTailC fp S C h m).2.1) = Handler.processTail fp S h m := by
  unfold processTailC Handler.processTail redoFromC
  simp only [ho]
  split <;> rfl

theorem processC_eq (fp : FP) (S : Insts W P) (C : Coll W) (hr : C.redo ≠ .discard) (h : HState W P) (m : Meas P)
    (ho : orderViolated C.order h.meas m = Handler.isOrderViolated h.meas m) :
    ((processC fp S C h m).1, (processC fp S C h m).2.1) = Handler.process fp S h m := by
  have hm := (Handler.serveRequests_frame fp S h).1
  unfold processC Handler.process
  split
  · rfl
  split
  · rfl
  simp only
  rw [if_neg (by simp [discardC, hr]), if_neg (by simp [Handler.discardMeasurement])]
  exact processTailC_eq fp S C _ m (by rw [hm]; exact ho)

/-- C78. With order strategy STRICT, and a redo strategy other than DISCARD, the collaborative handler ends in the same
state and gives the same answers as the base class. -/
theorem c78_strict (fp : FP) (S : Insts W P) (C : Coll W) (hr : C.redo ≠ .discard) (hc : C.order = .strict) (h : HState W P)
    (m : Meas P) :
    ((processC fp S C h m).1, (processC fp S C h m).2.1) = Handler.process fp S h m :=
  processC_eq fp S C hr h m (by rw [hc]; rfl)

theorem order_eq (C : Coll W) (b : Buf (Meas P)) (m : Meas P) (hm : m.kind = .priv → ∀ x ∈ b.getAllAt m.t, x.kind ≠ .joint) :
    orderViolated C.order b m = Handler.isOrderViolated b m := by
  cases hc : C.order with
  | strict => rfl
  | relaxed =>
    obtain ⟨h1, h2⟩ := c47_relaxed_strict b m
    cases hx : orderViolated .relaxed b m with
    | true => exact (h1 hx).symm
    | false =>
      cases hy : Handler.isOrderViolated b m with
      | false => rfl
      | true =>
        obtain ⟨a, x, b, c⟩ := h2 hy hx
        exact absurd c (hm a x b)

/-- C78. So does RELAXED, unless a private observation meets a stored joint one of the same time. -/
theorem c78_relaxed (fp : FP) (S : Insts W P) (C : Coll W) (hr : C.redo ≠ .discard) (h : HState W P) (m : Meas P)
    (hm : m.kind = .priv → ∀ x ∈ h.meas.getAllAt m.t, x.kind ≠ .joint) :
    ((processC fp S C h m).1, (processC fp S C h m).2.1) = Handler.process fp S h m :=
  processC_eq fp S C hr h m (order_eq C h.meas m hm)

/-- One event of the collaborative handler. -/
def hStepC (fp : FP) (S : Insts W P) (C : Coll W) (h : HState W P) : HOp P → HState W P
  | .meas m => (processC fp S C h m).1
  | .request t after => Handler.schedule fp h t after

/-- The arrivals that were not answered by exactly one DISCARED. -/
def acceptedC (fp : FP) (S : Insts W P) (C : Coll W) (h : HState W P) : List (HOp P) → List (Meas P)
  | [] => []
  | .request t a :: ops => acceptedC fp S C (hStepC fp S C h (.request t a)) ops
  | .meas m :: ops =>
    if (processC fp S C h m).2.1 = [.discarded] then acceptedC fp S C (hStepC fp S C h (.meas m)) ops
    else m :: acceptedC fp S C (hStepC fp S C h (.meas m)) ops

theorem run_conv (fp : FP) (S : Insts W P) (C : Coll W) (w0 : W) (ok : Meas P → Prop)
    (hS : WellBehaved S w0 ok) (all : List (Meas P))
    (hc : C.order = .strict ∨ ∀ x ∈ all, ∀ y ∈ all, x.kind = .joint → y.kind = .priv → x.t ≠ y.t)
    (ops : List (HOp P)) (hops : ∀ m ∈ arrivals ops, MeasOk m ∧ (S.known w0 m.id = true → ok m)) (ha : ∀ m ∈ arrivals ops, m ∈ all)
    (h : HState W P) (A : List (Meas P)) (D : Buf (Meas P)) (c : Conv fp S w0 ok A D h) (hA : ∀ m ∈ A, m ∈ all) :
    ∃ X, Conv fp S w0 ok (A ++ acceptedC fp S C h ops) (D ++ X) (ops.foldl (hStepC fp S C) h) := by
  induction ops generalizing h A D with
  | nil => exact ⟨[], by simpa [acceptedC] using c⟩
  | cons op ops ih =>
    cases op with
    | request t a =>
      exact ih (by simpa [arrivals] using hops) (by simpa [arrivals] using ha) (Handler.schedule fp h t a) A D
        ⟨c.ooo, c.max, c.inv, c.w, c.ok⟩ hA
    | meas m =>
      have harr : arrivals (HOp.meas m :: ops) = m :: arrivals ops := rfl
      obtain ⟨hm1, hm2⟩ := hops m (by rw [harr]; simp)
      have hmall := ha m (by rw [harr]; simp)
      have hrest : ∀ x ∈ arrivals ops, MeasOk x ∧ (S.known w0 x.id = true → ok x) := fun x hx => hops x (by rw [harr]; simp [hx])
      have ha' : ∀ x ∈ arrivals ops, x ∈ all := fun x hx => ha x (by rw [harr]; simp [hx])
      have hst : hStepC fp S C h (.meas m) = (processC fp S C h m).1 := rfl
      have next : ((processC fp S C h m).2.1 = [.discarded] ∧ Conv fp S w0 ok A D (processC fp S C h m).1) ∨
          ((processC fp S C h m).2.1 ≠ [.discarded] ∧ ∃ X, Conv fp S w0 ok (A ++ [m]) (D ++ X) (processC fp S C h m).1) := by
        by_cases hd : discardC C (Handler.serveRequests fp S h) m = true ∧ S.known h.w m.id = true ∧ Handler.tooOld fp h m = false
        · left
          have e : processC fp S C h m = ({ h with redo := [] }, [.discarded], []) := by
            unfold processC
            rw [if_neg (by simp [hd.2.1]), if_neg (by simp [hd.2.2])]
            simp only
            rw [if_pos hd.1, c.serve hS]
          rw [e]
          exact ⟨rfl, c.ooo, c.max, c.inv, c.w, c.ok⟩
        · have hord : orderViolated C.order h.meas m = Handler.isOrderViolated h.meas m := by
            rcases hc with hc | hc
            · rw [hc]; rfl
            · refine order_eq C h.meas m ?_
              intro hk x hx hj
              have hkeyed : ∀ e ∈ h.meas, e.1 = e.2.t := fun e he => c.inv.keyed e (by simp [he])
              obtain ⟨e, he, rfl, ht⟩ := (mem_allAt h.meas hkeyed m.t x).mp hx
              have hin : e.2 ∈ A := c.inv.chronological.1.subset (List.mem_map.mpr ⟨e, by simp [he], rfl⟩)
              exact hc e.2 (hA _ hin) m hmall hj hk ht
          have e : ((processC fp S C h m).1, (processC fp S C h m).2.1) = Handler.process fp S h m := by
            unfold processC Handler.process
            by_cases hk : S.known h.w m.id = true
            swap
            · simp only [hk, Bool.not_false, if_true]
            simp only [hk, Bool.not_true, Bool.false_eq_true, if_false]
            by_cases ho : Handler.tooOld fp h m = true
            · simp only [ho, if_true]
            simp only [ho, Bool.false_eq_true, if_false]
            rw [if_neg (fun hx => hd ⟨hx, hk, by simpa using ho⟩), if_neg (by simp [Handler.discardMeasurement])]
            exact processTailC_eq fp S C _ m (by rw [(Handler.serveRequests_frame fp S h).1]; exact hord)
          have e1 : (processC fp S C h m).1 = (Handler.process fp S h m).1 := congrArg Prod.fst e
          have e2 : (processC fp S C h m).2.1 = (Handler.process fp S h m).2 := congrArg Prod.snd e
          rw [e1, e2]
          rcases c.process hS m hm1 hm2 with ⟨_, h1, h2⟩ | ⟨h1, X, _, c1⟩
          · exact Or.inl ⟨h1, by rw [h2]; exact c⟩
          · exact Or.inr ⟨h1, X, c1⟩
      rw [List.foldl_cons]
      unfold acceptedC
      rw [hst]
      rcases next with ⟨h1, c1⟩ | ⟨h1, X, c1⟩
      · rw [if_pos h1]
        exact ih hrest ha' _ A D c1 hA
      · rw [if_neg h1]
        obtain ⟨X', i⟩ := ih hrest ha' _ (A ++ [m]) (D ++ X) c1 (by
          intro x hx
          rcases List.mem_append.mp hx with hx | hx
          · exact hA x hx
          · rw [List.mem_singleton.mp hx]; exact hmall)
        refine ⟨X ++ X', ?_⟩
        simp only [List.append_assoc, List.singleton_append] at i ⊢
        exact i

/-- C78. Convergence carries over: with order strategy STRICT, or if no joint and private observations of equal time occur,
and whatever the redo strategy, the instances end in the state of plain in-order processing of the accepted
measurements, whatever the order of arrival and the requests of other agents in between. -/
theorem c78_converges (fp : FP) (S : Insts W P) (C : Coll W) (w0 : W) (ok : Meas P → Prop)
    (hS : WellBehaved S w0 ok) (horizon : ℚ) (ops : List (HOp P))
    (hc : C.order = .strict ∨ ∀ x ∈ arrivals ops, ∀ y ∈ arrivals ops, x.kind = .joint → y.kind = .priv → x.t ≠ y.t)
    (hops : ∀ m ∈ arrivals ops, MeasOk m ∧ (S.known w0 m.id = true → ok m)) :
    (∃ L, Chronological (acceptedC fp S C (Handler.init w0 horizon) ops) L) ∧
    ∀ L, Chronological (acceptedC fp S C (Handler.init w0 horizon) ops) L →
      (ops.foldl (hStepC fp S C) (Handler.init w0 horizon)).w = runAll S w0 L := by
  obtain ⟨X, i⟩ := run_conv fp S C w0 ok hS (arrivals ops) hc ops hops (fun _ h => h) (Handler.init w0 horizon) [] []
    ⟨rfl, abs_nonneg _, MInv.nil fp _, rfl, by simp⟩ (by simp)
  simp only [List.nil_append] at i
  have hch := i.inv.chronological
  refine ⟨⟨_, hch⟩, ?_⟩
  intro L hL
  rw [i.w]
  congr 1
  apply chronological_unique _ _ _ _ hch hL
  intro m hm
  have := hch.1.symm.subset hm
  obtain ⟨e, he, rfl⟩ := List.mem_map.mp this
  exact i.inv.known e he

/-- C78. Under RELAXED, and in general under either order strategy and any redo strategy: the state is that of processing all
accepted measurements once, in order of time, propagations first among those of equal time, those of equal time and type in
the order of arrival. Only the order of private and joint observations of equal time is not fixed. -/
theorem c78_time_ordered (fp : FP) (S : Insts W P) (C : Coll W) (w0 : W) (ok : Meas P → Prop)
    (hS : WellBehavedBy Meas.beforeR S w0 ok) (horizon : ℚ) (ops : List (HOp P))
    (hops : ∀ m ∈ arrivals ops, MeasOk m ∧ (S.known w0 m.id = true → ok m)) :
    ∃ L, TimeOrdered (acceptedC fp S C (Handler.init w0 horizon) ops) L ∧
      (ops.foldl (hStepC fp S C) (Handler.init w0 horizon)).w = runAll S w0 L := by
  have gen : ∀ (ops : List (HOp P)), (∀ m ∈ arrivals ops, MeasOk m ∧ (S.known w0 m.id = true → ok m)) →
      ∀ (h : HState W P) (A : List (Meas P)) (D : Buf (Meas P)), RConv fp S w0 ok A D h →
      ∃ X, RConv fp S w0 ok (A ++ acceptedC fp S C h ops) (D ++ X) (ops.foldl (hStepC fp S C) h) := by
    intro ops
    induction ops with
    | nil => exact fun _ h A D c => ⟨[], by simpa [acceptedC] using c⟩
    | cons op ops ih =>
      intro hops h A D c
      cases op with
      | request t a =>
        exact ih (by simpa [arrivals] using hops) (Handler.schedule fp h t a) A D ⟨c.ooo, c.max, c.inv, c.w, c.ok⟩
      | meas m =>
        have harr : arrivals (HOp.meas m :: ops) = m :: arrivals ops := rfl
        obtain ⟨hm1, hm2⟩ := hops m (by rw [harr]; simp)
        have hrest : ∀ x ∈ arrivals ops, MeasOk x ∧ (S.known w0 x.id = true → ok x) := fun x hx => hops x (by rw [harr]; simp [hx])
        have hst : hStepC fp S C h (.meas m) = (processC fp S C h m).1 := rfl
        rw [List.foldl_cons]
        unfold acceptedC
        rw [hst]
        rcases c.process C hS m hm1 hm2 with ⟨h1, c1⟩ | ⟨h1, X, -, c1⟩
        · rw [if_pos h1]
          exact ih hrest _ A D c1
        · rw [if_neg h1]
          obtain ⟨X', i⟩ := ih hrest _ (A ++ [m]) (D ++ X) c1
          refine ⟨X ++ X', ?_⟩
          simp only [List.append_assoc, List.singleton_append] at i ⊢
          exact i
  obtain ⟨X, i⟩ := gen ops hops (Handler.init w0 horizon) [] [] ⟨rfl, abs_nonneg _, RInv.nil fp _, rfl, by simp⟩
  simp only [List.nil_append] at i
  exact ⟨_, i.inv.chronological, i.w⟩

end Ikf.Agents
