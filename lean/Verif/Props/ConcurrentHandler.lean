import Verif.Props.Concurrent
import Verif.Props.Handler

/-!
# C105 for `process_measurement` and its companions
-/

namespace Ikf.Conc

open Ikf.Lock (Mutex)

section
variable {W P : Type} {fp : FP} {S : Insts W P}

/-- The members as the state of the handler (Model/Handler). -/
def whole (s : Store (HV W P)) : HState W P :=
  { (show HState W P from s .core) with redo := (show Buf Bool × ℚ from s .requests).1, hRedo := (show Buf Bool × ℚ from s .requests).2 }

/-- Replacing the requests of a state. -/
def withReq (h : HState W P) (r : Buf Bool) (q : ℚ) : HState W P := { h with redo := r, hRedo := q }

theorem redoFrom_req (h : HState W P) (r : Buf Bool) (q : ℚ) (t : Int) :
    Handler.redoFrom S (withReq h r q) t = (withReq (Handler.redoFrom S h t).1 r q, (Handler.redoFrom S h t).2) := by
  unfold Handler.redoFrom withReq
  simp only
  cases h.meas.latest <;> rfl

theorem redoAfter_req (h : HState W P) (r : Buf Bool) (q : ℚ) (t : Int) :
    Handler.redoAfter S (withReq h r q) t = (withReq (Handler.redoAfter S h t).1 r q, (Handler.redoAfter S h t).2) := by
  unfold Handler.redoAfter withReq
  simp only
  cases h.meas.getAfter t <;> cases h.meas.latest <;> rfl

theorem processTail_req (h : HState W P) (r : Buf Bool) (q : ℚ) (m : Meas P) :
    Handler.processTail fp S (withReq h r q) m = (withReq (Handler.processTail fp S h m).1 r q, (Handler.processTail fp S h m).2) := by
  obtain ⟨w, ms, ooo, redo, h1, h2, h3⟩ := h
  unfold Handler.processTail withReq
  simp only
  generalize Buf.checkHorizonFrom fp h2 ooo (fp.secOfKey m.t) = oo
  cases hx : (oo.existBefore m.t || oo.existAt m.t) with
  | true =>
    simp only [Bool.or_true, if_true, Handler.trim, Handler.insertMeas]
    exact redoFrom_req ⟨w, _, [], redo, h1, h2, h3⟩ r q _
  | false =>
    simp only [Bool.or_false, Bool.false_eq_true, if_false]
    cases Handler.isOrderViolated ms m with
    | true =>
      simp only [if_true, Handler.trim, Handler.insertMeas]
      exact redoFrom_req ⟨w, _, oo, redo, h1, h2, h3⟩ r q _
    | false =>
      simp only [Bool.false_eq_true, if_false]
      split <;> split <;> rfl

theorem serveOne_req (h : HState W P) (r : Buf Bool) (q : ℚ) (o : Int × Bool) :
    serveOne S o (withReq h r q) = withReq (serveOne S o h) r q := by
  unfold serveOne
  show (match h.meas.oldest with | some om => _ | none => _) = _
  cases h.meas.oldest with
  | none => rfl
  | some om =>
    simp only
    split
    · split
      · rw [redoAfter_req]
      · rw [redoFrom_req]
    · rfl

theorem whole_req (s : Store (HV W P)) : whole s = withReq (s .core) (Prod.fst (s .requests)) (Prod.snd (s .requests)) := rfl

theorem tail_run (m : Meas P) (s : Store (HV W P)) : ∃ s', (tailProg fp S m).run s = .ok (s', (Handler.processTail fp S (whole s) m).2) ∧
    whole s' = (Handler.processTail fp S (whole s) m).1 := by
  have h : Handler.processTail fp S (whole s) m = _ := processTail_req (s .core) (Prod.fst (s .requests)) (Prod.snd (s .requests)) m
  rw [h]
  exact ⟨Function.update s Loc.core (Handler.processTail fp S (s .core) m).1, rfl, rfl⟩

/-- C105 (8): `process_measurement`, cut into its accesses to the members, is the function of Model/Handler when nobody else calls. -/
theorem c105_process_alone (m : Meas P) (s : Store (HV W P)) : ∃ s', (procProg fp S m).run s = .ok (s', (Handler.process fp S (whole s) m).2) ∧
    whole s' = (Handler.process fp S (whole s) m).1 := by
  unfold Handler.process
  show ∃ s' : Store (HV W P), (if !(S.known (HState.w (s .core)) m.id) then _ else _ : Prog (HV W P) (List Status)).run s = _ ∧ _
  have hk : S.known (whole s).w m.id = S.known (HState.w (s .core)) m.id := rfl
  rw [hk]
  cases hkn : S.known (HState.w (s .core)) m.id with
  | false => exact ⟨s, rfl, rfl⟩
  | true =>
    simp only [Bool.not_true, Bool.false_eq_true, if_false]
    have ho : Handler.tooOld fp (whole s) m = Handler.tooOld fp (s .core) m := rfl
    rw [ho]
    show ∃ s' : Store (HV W P), (if Handler.tooOld fp (s .core) m = true then _ else _ : Prog (HV W P) (List Status)).run s = _ ∧ _
    cases hold : Handler.tooOld fp (s .core) m with
    | true => exact ⟨s, rfl, rfl⟩
    | false =>
      simp only [Bool.false_eq_true, if_false, Handler.discardMeasurement]
      let tl : ℚ := match (HState.meas (s .core)).latest with
        | some l => fp.secOfKey l.1
        | none => fp.toSec ⟨0, 0⟩
      let r1 : Buf Bool := Buf.checkHorizonFrom fp (Prod.snd (s .requests)) (Prod.fst (s .requests)) tl
      let s1 : Store (HV W P) := Function.update s Loc.requests (r1, Prod.snd (s .requests))
      have hs1 : whole s1 = { whole s with redo := r1 } := rfl
      show ∃ s' : Store (HV W P), (countProg fp S m r1).run s1 = _ ∧ _
      generalize hr1 : r1 = r2
      cases r2 with
      | nil =>
        have hserve : Handler.serveRequests fp S (whole s) = whole s1 := by
          rw [hs1]
          show (match Buf.oldest r1 with | none => _ | some o => _) = _
          rw [hr1]
          show { whole s with redo := r1 } = _
          rw [hr1]
        rw [hserve]
        exact tail_run m s1
      | cons o rest =>
        let s2 : Store (HV W P) := Function.update s1 Loc.requests ([], Prod.snd (s .requests))
        let s3 : Store (HV W P) := Function.update s2 Loc.core (serveOne S o (s .core))
        have hserve : Handler.serveRequests fp S (whole s) = whole s3 := by
          have h3 : whole s3 = serveOne S o { whole s with redo := [] } :=
            (serveOne_req (show HState W P from s .core) [] (Prod.snd (s .requests)) o).symm
          rw [h3]
          show (match Buf.oldest r1 with | none => _ | some o => _) = _
          rw [hr1]
          rfl
        rw [hserve]
        have hgo : (countProg fp S m (o :: rest)).run s1 = (tailProg fp S m).run s3 := by
          show (match Buf.oldest r1 with
            | some o => .wr .core (serveOne S o) fun _ => tailProg fp S m
            | none => tailProg fp S m : Prog (HV W P) (List Status)).run s2 = _
          rw [hr1]
          rfl
        rw [hgo]
        exact tail_run m s3

theorem inside_tail (m : Meas P) : Inside 1 false (tailProg fp S m) := .wr fun _ => .unlockMain (.ret _)

/-- `process_measurement` keeps to the lock. -/
theorem timed_process (m : Meas P) : Timed (procProg fp S m) := by
  refine ⟨_, _, rfl, .tryLock (.rd fun v => .unlockMain ?_)⟩
  simp only
  split
  · exact .unlockMain (.ret _)
  · refine .rd fun h => ?_
    unfold ageProg
    split
    · exact .unlockMain (.ret _)
    · refine .wr fun _ => .rd fun q => ?_
      unfold countProg
      split
      · exact inside_tail m
      · refine .lockRur (.rd fun q => .wr fun _ => .unlockRur ?_)
        split
        · exact .wr fun _ => inside_tail m
        · exact inside_tail m

theorem feed_of (s0 : Store (HV W P)) (hist : List (ℕ × Prog (HV W P) (List Status) × List Status)) (s' : Store (HV W P)) (h : OneByOne s0 hist s') :
    ∀ feed : ℕ → List (Meas P), (∀ th, (callsOf th hist).map (·.1) = (feed th).map (procProg fp S)) →
      ∃ l, Fed fp S (whole s0) l (whole s') ∧ ∀ th, (l.filter (fun e => e.1 == th)).map (·.2.1) = feed th ∧
        (l.filter (fun e => e.1 == th)).map (·.2.2) = (callsOf th hist).map (·.2) := by
  induction h with
  | nil s =>
    intro feed hf
    refine ⟨[], .nil _, fun th => ⟨?_, rfl⟩⟩
    have := hf th
    simp only [callsOf, List.filter_nil, List.map_nil] at this
    rw [List.eq_nil_of_map_eq_nil this.symm]
    rfl
  | @cons s s1 s' th p a rest hp _ ih =>
    intro feed hf
    have hcons : ∀ y, callsOf y ((th, p, a) :: rest) = (if th = y then [(p, a)] else []) ++ callsOf y rest := by
      intro y
      by_cases hy : th = y <;> simp [callsOf, hy]
    have h1 := hf th
    rw [hcons, if_pos rfl] at h1
    obtain ⟨m, ms, hm, hpm, hms⟩ : ∃ m ms, feed th = m :: ms ∧ p = procProg fp S m ∧ (callsOf th rest).map (·.1) = ms.map (procProg fp S) := by
      cases hfe : feed th with
      | nil => rw [hfe] at h1; simp at h1
      | cons m ms =>
        rw [hfe] at h1
        simp only [List.singleton_append, List.map_cons, List.cons.injEq] at h1
        exact ⟨m, ms, rfl, h1⟩
    obtain ⟨l, hl, hl'⟩ := ih (Function.update feed th ms) (fun y => by
      by_cases hy : y = th
      · subst hy; rw [Function.update_self]; exact hms
      · rw [Function.update_of_ne hy, ← hf y, hcons, if_neg (Ne.symm hy)]; rfl)
    obtain ⟨s2, hs2, hw⟩ := c105_process_alone (fp := fp) (S := S) m s
    rw [hpm, hs2] at hp
    cases hp
    refine ⟨(th, m, (Handler.process fp S (whole s) m).2) :: l, .cons (h1 := whole s1) (by rw [hw]) hl, fun y => ?_⟩
    have hy1 := hl' y
    rw [hcons]
    by_cases hy : y = th
    · subst hy
      rw [Function.update_self] at hy1
      simp [hy1.1, hy1.2, hm]
    · rw [Function.update_of_ne hy] at hy1
      simp [hy1.1, hy1.2, Ne.symm hy]

/-- C105 (9): any number of threads feed measurements to one handler at the same time. If no lock timed out (no undefined behaviour) and all calls have returned,
the handler is in the state, and has given the answers, of one thread that feeds the same measurements one after another, in an order that keeps the order of each
thread. -/
theorem c105_streams_partial {s0 : Store (HV W P)} {feed : ℕ → List (Meas P)} {es : List Ev} {c : Conf (HV W P) (List Status)}
    (hr : Run (start s0 (fun th => (feed th).map (procProg fp S))) es (.ok c)) (hq : c.Quiet) (hdone : ∀ th, (c.thr th).todo = []) :
    ∃ l : List (ℕ × Meas P × List Status), Fed fp S (whole s0) l (whole c.store) ∧
      ∀ th, (l.filter (fun e => e.1 == th)).map (·.2.1) = feed th ∧ (l.filter (fun e => e.1 == th)).map (·.2.2) = (c.thr th).past.map (·.2) := by
  have hl : ∀ th, ∀ p ∈ (feed th).map (procProg fp S), Locked p := by
    intro th p hp
    obtain ⟨m, -, rfl⟩ := List.mem_map.mp hp
    exact Or.inl (timed_process m)
  obtain ⟨hist, hs, hm⟩ := c105_one_by_one_partial hl hr hq
  obtain ⟨l, h1, h2⟩ := feed_of (fp := fp) (S := S) s0 hist c.store hs feed (fun th => by
    have := (hm th).2
    rw [hdone th, List.append_nil] at this
    rw [(hm th).1, this])
  refine ⟨l, h1, fun th => ⟨(h2 th).1, ?_⟩⟩
  rw [(h2 th).2, (hm th).1]

/-- ... in particular the state is that of `runStream` (C04 and the other properties of streams apply). -/
theorem Fed.runStream {h h' : HState W P} {l : List (ℕ × Meas P × List Status)} (hf : Fed fp S h l h') :
    h' = Handler.runStream fp S h (l.map (·.2.1)) := by
  induction hf with
  | nil h => rfl
  | @cons h h1 h' th m a l hp _ ih =>
    rw [ih]
    show _ = List.foldl _ (Handler.process fp S h m).1 _
    rw [hp]
    rfl

end

/-! ### Every order is possible -/

section
variable {V : Loc → Type} {α : Type}

theorem Run.append {c c1 : Conf V α} {es es' : List Ev} {r r' : Res (Conf V α)} (h : Run c es r) (hc : r = .ok c1) (h' : Run c1 es' r') : Run c (es ++ es') r' := by
  induction h with
  | nil c => cases hc; exact h'
  | cons h1 _ ih => exact .cons h1 (ih hc)
  | ub => cases hc

/-- The main mutex locked `d` times by `th`. -/
def heldBy (th : ℕ) : ℕ → Mutex
  | 0 => .free
  | d + 1 => .held th d

theorem finish {th : ℕ} {d : ℕ} {r : Bool} {q : Prog V α} (hi : Inside d r q) : ∀ (c : Conf V α) (p : Prog V α) (s' : Store V) (a : α),
    (c.thr th).now = some (p, q) → c.main = heldBy th d → c.rur = (if r then .held th 0 else .free) → q.run c.store = .ok (s', a) →
    ∃ es, Run c es (.ok ⟨s', .free, .free, c.put th { c.thr th with past := (c.thr th).past ++ [(p, a)], now := none }⟩) := by
  have fold : ∀ (c c1 : Conf V α) (p q1 : Prog V α) (s' : Store V) (a : α) (e : Ev), Step c e (.ok c1) → c1.thr = c.put th ((c.thr th).go p q1) →
      (∃ es, Run c1 es (.ok ⟨s', .free, .free, c1.put th { c1.thr th with past := (c1.thr th).past ++ [(p, a)], now := none }⟩)) →
      ∃ es, Run c es (.ok ⟨s', .free, .free, c.put th { c.thr th with past := (c.thr th).past ++ [(p, a)], now := none }⟩) := by
    rintro c c1 p q1 s' a e hs ht ⟨es, h⟩
    refine ⟨e :: es, .cons hs ?_⟩
    have h1 : c1.thr th = (c.thr th).go p q1 := by rw [ht, put_same]
    have h2 : c1.put th { c1.thr th with past := (c1.thr th).past ++ [(p, a)], now := none } =
        c.put th { c.thr th with past := (c.thr th).past ++ [(p, a)], now := none } := by
      rw [h1]
      unfold Conf.put
      rw [ht]
      unfold Conf.put
      rw [Function.update_idem]
      rfl
    rw [h2] at h
    exact h
  induction hi with
  | ret a =>
    intro c p s' a' hn hm hr hrun
    cases hrun
    refine ⟨[.step th], .cons (.ret c th _ p a rfl hn) ?_⟩
    have : ({ c with thr := c.put th { c.thr th with past := (c.thr th).past ++ [(p, a)], now := none } } : Conf V α) =
        ⟨c.store, .free, .free, c.put th { c.thr th with past := (c.thr th).past ++ [(p, a)], now := none }⟩ := by
      rw [hm, hr]; rfl
    rw [this]
    exact .nil _
  | @rd d r l k _ ih =>
    intro c p s' a hn hm hr hrun
    exact fold c _ p _ s' a _ (.rd c th _ p l k rfl hn) rfl (ih _ _ p s' a (by simp only [put_same]; rfl) hm hr hrun)
  | @wr d r l f k _ ih =>
    intro c p s' a hn hm hr hrun
    exact fold c _ p _ s' a _ (.wr c th _ p l f k rfl hn) rfl (ih _ _ p s' a (by simp only [put_same]; rfl) hm hr hrun)
  | @tryLock d r k kt _ ih =>
    intro c p s' a hn hm hr hrun
    exact fold c _ p _ s' a _ (.tryOk c th _ p k kt (.held th (d + 1)) rfl hn (by rw [hm]; simp [acquire, heldBy])) rfl
      (ih _ p s' a (by simp only [put_same]; rfl) rfl hr hrun)
  | @lockMain d r k _ ih =>
    intro c p s' a hn hm hr hrun
    exact fold c _ p _ s' a _ (.lockMain c th _ p k (.held th (d + 1)) rfl hn (by rw [hm]; simp [acquire, heldBy])) rfl
      (ih _ p s' a (by simp only [put_same]; rfl) rfl hr hrun)
  | @unlockMain d r k _ ih =>
    intro c p s' a hn hm hr hrun
    exact fold c _ p _ s' a _ (.unlockMain c th _ p k (heldBy th d) rfl hn (by rw [hm]; cases d <;> simp [Lock.unlock, heldBy])) rfl
      (ih _ p s' a (by simp only [put_same]; rfl) rfl hr hrun)
  | @lockRur d k _ ih =>
    intro c p s' a hn hm hr hrun
    exact fold c _ p _ s' a _ (.lockRur c th _ p k (.held th 0) rfl hn (by rw [hr]; rfl)) rfl
      (ih _ p s' a (by simp only [put_same]; rfl) hm rfl hrun)
  | @unlockRur d k _ ih =>
    intro c p s' a hn hm hr hrun
    exact fold c _ p _ s' a _ (.unlockRur c th _ p k .free rfl hn (by rw [hr]; simp [Lock.unlock])) rfl
      (ih _ p s' a (by simp only [put_same]; rfl) hm rfl hrun)
  | crash =>
    intro c p s' a hn hm hr hrun
    simp [Prog.run] at hrun

/-- C105 (10), the other direction: every order of calls that respects the order of each thread comes about in some schedule. -/
theorem c105_any_order {s0 s' : Store V} {hist : List (ℕ × Prog V α × α)} (h : OneByOne s0 hist s') (hl : ∀ e ∈ hist, Locked e.2.1) :
    ∃ es c, Run (start s0 (fun th => (callsOf th hist).map (·.1))) es (.ok c) ∧ c.Quiet ∧ c.store = s' ∧
      ∀ th, (c.thr th).past = callsOf th hist ∧ (c.thr th).todo = [] := by
  have key : ∀ (c : Conf V α), c.main = .free → c.rur = .free → c.store = s0 → c.Quiet → (∀ th, (c.thr th).todo = (callsOf th hist).map (·.1)) →
      ∃ es c', Run c es (.ok c') ∧ c'.Quiet ∧ c'.store = s' ∧ ∀ th, (c'.thr th).past = (c.thr th).past ++ callsOf th hist ∧ (c'.thr th).todo = [] := by
    induction h with
    | nil s =>
      intro c hm hr hs hq ht
      exact ⟨[], c, .nil c, hq, hs, fun th => ⟨by simp [callsOf], ht th⟩⟩
    | @cons s s1 s' th p a rest hp _ ih =>
      intro c hm hr hs hq ht
      have hcons : ∀ y, callsOf y ((th, p, a) :: rest) = (if th = y then [(p, a)] else []) ++ callsOf y rest := by
        intro y
        by_cases hy : th = y <;> simp [callsOf, hy]
      have h1 : (c.thr th).todo = p :: (callsOf th rest).map (·.1) := by rw [ht th, hcons, if_pos rfl]; rfl
      let x1 : Thread V α := { c.thr th with now := some (p, p), todo := (callsOf th rest).map (·.1) }
      have hcall := Step.call c th _ p _ rfl (hq th) h1
      obtain ⟨es1, hrun1⟩ : ∃ es1, Run c es1 (.ok ⟨s1, .free, .free,
          c.put th { x1 with past := x1.past ++ [(p, a)], now := none }⟩) := by
        let c1 : Conf V α := { c with thr := c.put th x1 }
        have fin : ∀ (body : Prog V α), Inside 1 false body → body.run c.store = .ok (s1, a) →
            (∃ e, Step c1 e (.ok { c1 with main := .held th 0, thr := c1.put th (x1.go p body) })) →
            ∃ es1, Run c es1 (.ok ⟨s1, .free, .free, c.put th { x1 with past := x1.past ++ [(p, a)], now := none }⟩) := by
          rintro body hb hbr ⟨e, he⟩
          obtain ⟨es, hes⟩ := finish hb { c1 with main := .held th 0, thr := c1.put th (x1.go p body) } p s1 a (by simp only [put_same]; rfl) rfl hr hbr
          refine ⟨_ :: e :: es, .cons hcall (.cons he ?_)⟩
          have : ({ c1 with main := .held th 0, thr := c1.put th (x1.go p body) } : Conf V α).put th
              { (c1.put th (x1.go p body) th) with past := (c1.put th (x1.go p body) th).past ++ [(p, a)], now := none } =
              c.put th { x1 with past := x1.past ++ [(p, a)], now := none } := by
            rw [put_same]
            unfold Conf.put
            simp only [c1, Conf.put, Function.update_idem]
            rfl
          rw [← this]
          exact hes
        have hnow : (c1.thr th).now = some (p, p) := by simp only [c1, put_same]; rfl
        have hx : c1.thr th = x1 := put_same _ _ _
        rcases hl _ List.mem_cons_self with ⟨body, b, hpb, hb⟩ | ⟨body, hpb, hb⟩
        · simp only at hpb
          refine fin body hb ?_ ⟨.step th, .tryOk c1 th x1 p body _ (.held th 0) hx (by simp only [x1]; rw [← hpb]) (by show acquire c.main th = _; rw [hm]; rfl)⟩
          rw [hs, ← hp, hpb]; rfl
        · simp only at hpb
          refine fin body hb ?_ ⟨.step th, .lockMain c1 th x1 p body (.held th 0) hx (by simp only [x1]; rw [← hpb]) (by show acquire c.main th = _; rw [hm]; rfl)⟩
          rw [hs, ← hp, hpb]; rfl
      obtain ⟨es2, c2, hrun2, hq2, hs2, hp2⟩ := ih (fun e he => hl e (List.mem_cons_of_mem _ he))
        ⟨s1, .free, .free, c.put th { x1 with past := x1.past ++ [(p, a)], now := none }⟩ rfl rfl rfl
        (fun y => by
          by_cases hy : y = th
          · subst hy; simp only [put_same]
          · simp only [put_other _ _ hy]; exact hq y)
        (fun y => by
          by_cases hy : y = th
          · subst hy; simp only [put_same, x1]
          · simp only [put_other _ _ hy]; rw [ht y, hcons, if_neg (Ne.symm hy)]; rfl)
      refine ⟨_, c2, hrun1.append rfl hrun2, hq2, hs2, fun y => ⟨?_, (hp2 y).2⟩⟩
      rw [(hp2 y).1, hcons]
      by_cases hy : y = th
      · subst hy; simp only [put_same, x1, if_true]; simp
      · simp only [put_other _ _ hy, if_neg (Ne.symm hy)]; simp
  obtain ⟨es, c, h1, h2, h3, h4⟩ := key (start s0 _) rfl rfl rfl (fun _ => rfl) (fun _ => rfl)
  exact ⟨es, c, h1, h2, h3, fun th => ⟨by rw [(h4 th).1]; rfl, (h4 th).2⟩⟩

/-- C105 fails for any two functions with `lock_guard_timed`: one thread is inside, the other waits longer than 25 ms and leaves. -/
theorem c105_two_calls_fails {p q : Prog V α} (hp : Timed p) (hq : Timed q) (s0 : Store V) :
    Run (start s0 (fun th => if th = 0 then [p] else if th = 1 then [q] else [])) [.step 0, .step 0, .step 1, .timeout 1, .step 1] .ub := by
  obtain ⟨b, a, rfl, -⟩ := hp
  obtain ⟨b', a', rfl, -⟩ := hq
  exact .cons (.call _ 0 _ _ _ rfl rfl rfl) (.cons (.tryOk _ 0 _ _ _ _ _ rfl rfl rfl) (.cons (.call _ 1 _ _ _ rfl rfl rfl)
    (.cons (.tryLate _ 1 _ _ _ _ rfl rfl rfl) (.ub (.unlockMainUb _ 1 _ _ _ rfl rfl rfl)))))

end

/-! ### What is not under the lock -/

section
variable {W P : Type} {fp : FP} {S : Insts W P}

/-- Two threads with one call each. -/
def two (p q : Prog (HV W P) (List Status)) : ℕ → List (Prog (HV W P) (List Status)) := fun th => if th = 0 then [p] else if th = 1 then [q] else []

/-- C105 fails for `schedule_redo_update`, which other agents call through the user's network code at any time: it races with `process_measurement`, which
trims the requests without `m_mtx_histRUR` (DH:210). For every measurement that gets that far and every request. -/
theorem c105_requests_fails (s0 : Store (HV W P)) (m : Meas P) (t : Int) (after : Bool) (hk : S.known (whole s0).w m.id = true)
    (ho : Handler.tooOld fp (whole s0) m = false) :
    ∃ es c, Run (start s0 (two (procProg fp S m) (schedProg fp t after))) es (.ok c) ∧ c.Race := by
  have hk' : S.known (HState.w (s0 .core)) m.id = true := hk
  have ho' : Handler.tooOld fp (s0 .core) m = false := ho
  refine ⟨[.step 1, .step 1, .step 0, .step 0, .step 0, .step 0, .step 0, .step 0], _, .cons (.call _ 1 _ _ _ rfl rfl rfl) (.cons (.lockRur _ 1 _ _ _ _ rfl rfl rfl)
    (.cons (.call _ 0 _ _ _ rfl rfl rfl) (.cons (.tryOk _ 0 _ _ _ _ _ rfl rfl rfl) (.cons (.tryOk _ 0 _ _ _ _ _ rfl rfl rfl) (.cons (.rd _ 0 _ _ _ _ rfl rfl)
    (.cons (.unlockMain _ 0 _ _ _ _ rfl rfl rfl) (.cons (.rd _ 0 _ (procProg fp S m) .core (ageProg fp S m) rfl ?_) (.nil _)))))))),
    0, 1, .requests, true, true, by decide, ⟨procProg fp S m, ageProg fp S m (s0 .core), rfl, ?_⟩, ⟨_, _, rfl, rfl⟩, Or.inl rfl⟩
  · show some (procProg fp S m, if !(S.known (HState.w (s0 .core)) m.id) then _ else _) = _
    rw [hk']
    rfl
  · unfold ageProg
    rw [ho']
    rfl

/-- C105 fails for `set_propagation_sensor_ID`/`get_propagation_sensor_ID`: no lock at all. -/
theorem c105_sensor_id_fails (s0 : Store (HV W P)) (id : ℕ) : ∃ es c, Run (start s0 (two (setSensorProg id) getSensorProg)) es (.ok c) ∧ c.Race :=
  ⟨[.step 0, .step 1], _, .cons (.call _ 0 _ _ _ rfl rfl rfl) (.cons (.call _ 1 _ _ _ rfl rfl rfl) (.nil _)), 0, 1, .propSensor, true, false, by decide,
    ⟨_, _, rfl, rfl⟩, ⟨_, _, rfl, rfl⟩, Or.inl rfl⟩

/-- C105 fails for calls on an instance obtained by `get(ID)`: they race with every `process_measurement`. -/
theorem c105_instance_fails (s0 : Store (HV W P)) (m : Meas P) (f : W → W) :
    ∃ es c, Run (start s0 (two (procProg fp S m) (instProg f))) es (.ok c) ∧ c.Race :=
  ⟨[.step 1, .step 1, .step 1, .step 1, .step 0, .step 0, .step 0], _, .cons (.call _ 1 _ _ _ rfl rfl rfl) (.cons (.tryOk _ 1 _ _ _ _ _ rfl rfl rfl)
    (.cons (.rd _ 1 _ _ _ _ rfl rfl) (.cons (.unlockMain _ 1 _ _ _ _ rfl rfl rfl) (.cons (.call _ 0 _ _ _ rfl rfl rfl) (.cons (.tryOk _ 0 _ _ _ _ _ rfl rfl rfl)
    (.cons (.tryOk _ 0 _ _ _ _ _ rfl rfl rfl) (.nil _))))))), 0, 1, .core, false, true, by decide, ⟨_, _, rfl, rfl⟩, ⟨_, _, rfl, rfl⟩, Or.inr rfl⟩

theorem nil_of_callsOf {V : Loc → Type} {α : Type} {hist : List (ℕ × Prog V α × α)} (h : ∀ th, callsOf th hist = []) : hist = [] := by
  cases hist with
  | nil => rfl
  | cons e l => have := h e.1; simp [callsOf] at this

/-- ... and even if single accesses do not tear, the outcome is that of no order: a call on an instance that reads and then writes undoes what a delegated
measurement did in between. For every measurement and every such call that do change the instances. -/
theorem c105_lost_update_fails (s0 : Store (HV W P)) (m : Meas P) (f : W → W) (h1 : f (Handler.delegate S (whole s0).w m).1 ≠ f (whole s0).w)
    (h2 : (Handler.delegate S (f (whole s0).w) m).1 ≠ f (whole s0).w) :
    ∃ es c, Run (start s0 (two (delegateProg S m) (instReadWrite f))) es (.ok c) ∧ c.Quiet ∧ (∀ th, (c.thr th).todo = []) ∧
      ¬ ∃ hist, OneByOne s0 hist c.store ∧ ∀ th, (callsOf th hist).map (·.1) = two (delegateProg S m) (instReadWrite f) th := by
  refine ⟨[.step 1, .step 1, .step 0, .step 0, .step 0, .step 0, .step 0, .step 1, .step 1], _, .cons (.call _ 1 _ _ _ rfl rfl rfl) (.cons (.rd _ 1 _ _ _ _ rfl rfl)
    (.cons (.call _ 0 _ _ _ rfl rfl rfl) (.cons (.tryOk _ 0 _ _ _ _ _ rfl rfl rfl) (.cons (.wr _ 0 _ _ _ _ _ rfl rfl) (.cons (.unlockMain _ 0 _ _ _ _ rfl rfl rfl)
    (.cons (.ret _ 0 _ _ _ rfl rfl) (.cons (.wr _ 1 _ _ _ _ _ rfl rfl) (.cons (.ret _ 1 _ _ _ rfl rfl) (.nil _))))))))), ?_, ?_, ?_⟩
  · intro th
    match th with
    | 0 => rfl
    | 1 => rfl
    | n + 2 => rfl
  · intro th
    match th with
    | 0 => rfl
    | 1 => rfl
    | n + 2 => rfl
  · rintro ⟨hist, ho, hc⟩
    have hcons : ∀ y (e : ℕ × Prog (HV W P) (List Status) × List Status) l, callsOf y (e :: l) = (if e.1 = y then [e.2] else []) ++ callsOf y l := by
      intro y e l
      by_cases hy : e.1 = y <;> simp [callsOf, hy]
    generalize hst : (_ : Conf (HV W P) (List Status)).store = st at ho
    have hw : (whole st).w = f (whole s0).w := by rw [← hst]; rfl
    clear hst
    have c0 : (callsOf 0 hist).map (·.1) = [delegateProg S m] := hc 0
    have c1 : (callsOf 1 hist).map (·.1) = [instReadWrite f] := hc 1
    cases ho with
    | nil s => simp [callsOf] at c0
    | @cons s s1 s' th p a l hp hrest =>
      obtain rfl | rfl | ⟨n, rfl⟩ : th = 0 ∨ th = 1 ∨ ∃ n, th = n + 2 := by
        rcases th with _ | _ | n
        · exact Or.inl rfl
        · exact Or.inr (Or.inl rfl)
        · exact Or.inr (Or.inr ⟨n, rfl⟩)
      · rw [hcons] at c0 c1
        simp at c0 c1
        obtain ⟨rfl, c0⟩ := c0
        cases hp
        cases hrest with
        | nil s => simp [callsOf] at c1
        | @cons s s1 s' th p a l hp hrest =>
          have hth : th = 1 := by
            by_contra hne
            have : callsOf 0 ((th, p, a) :: l) = [] := c0
            have h3 := hc th
            rw [hcons, hcons, if_pos rfl] at h3
            match th with
            | 0 => rw [hcons] at this; simp at this
            | n + 2 => simp [two] at h3
          subst hth
          rw [hcons] at c1 c0
          simp at c1 c0
          obtain ⟨rfl, c1⟩ := c1
          have : l = [] := by
            refine nil_of_callsOf fun y => ?_
            have h3 := hc y
            rw [hcons, hcons] at h3
            match y with
            | 0 => exact c0
            | 1 => exact c1
            | n + 2 => simpa [two] using h3
          subst this
          cases hp
          cases hrest
          exact h1 hw
      · rw [hcons] at c0 c1
        simp at c0 c1
        obtain ⟨rfl, c1⟩ := c1
        cases hp
        cases hrest with
        | nil s => simp [callsOf] at c0
        | @cons s s1 s' th p a l hp hrest =>
          have hth : th = 0 := by
            by_contra hne
            have : callsOf 1 ((th, p, a) :: l) = [] := c1
            have h3 := hc th
            rw [hcons, hcons, if_pos rfl] at h3
            match th with
            | 1 => rw [hcons] at this; simp at this
            | n + 2 => simp [two] at h3
          subst hth
          rw [hcons] at c1 c0
          simp at c1 c0
          obtain ⟨rfl, c0⟩ := c0
          have : l = [] := by
            refine nil_of_callsOf fun y => ?_
            have h3 := hc y
            rw [hcons, hcons] at h3
            match y with
            | 0 => exact c0
            | 1 => exact c1
            | n + 2 => simpa [two] using h3
          subst this
          cases hp
          cases hrest
          exact h2 hw
      · have h3 := hc (n + 2)
        rw [hcons] at h3
        simp [two] at h3

/-- C105 (11): measurements fed by several threads can be processed in every order that keeps the order of each thread (so which one it is depends on the
schedule). -/
theorem c105_every_feed (s0 : Store (HV W P)) (ms : List (ℕ × Meas P)) :
    ∃ es c, Run (start s0 (fun th => ((ms.filter (fun e => e.1 == th)).map (·.2)).map (procProg fp S))) es (.ok c) ∧ c.Quiet ∧ (∀ th, (c.thr th).todo = []) ∧
      whole c.store = Handler.runStream fp S (whole s0) (ms.map (·.2)) := by
  obtain ⟨hist, s', h1, h2, h3⟩ : ∃ hist s', OneByOne s0 hist s' ∧ hist.map (fun e => (e.1, e.2.1)) = ms.map (fun e => (e.1, procProg fp S e.2)) ∧
      whole s' = Handler.runStream fp S (whole s0) (ms.map (·.2)) := by
    induction ms generalizing s0 with
    | nil => exact ⟨[], s0, .nil _, rfl, rfl⟩
    | cons e ms ih =>
      obtain ⟨s1, h1, h2⟩ := c105_process_alone (fp := fp) (S := S) e.2 s0
      obtain ⟨hist, s', h3, h4, h5⟩ := ih s1
      refine ⟨(e.1, procProg fp S e.2, _) :: hist, s', .cons h1 h3, by simp [h4], ?_⟩
      rw [h5, h2]
      rfl
  have hcalls : ∀ th, (callsOf th hist).map (·.1) = ((ms.filter (fun e => e.1 == th)).map (·.2)).map (procProg fp S) := by
    intro th
    have h4 := congrArg (fun l => (l.filter (fun e => e.1 == th)).map (·.2)) h2
    simp only [List.filter_map, List.map_map] at h4
    rw [callsOf, List.map_map, List.map_map]
    exact h4
  obtain ⟨es, c, h4, h5, h6, h7⟩ := c105_any_order h1 (fun e he => by
    have : (e.1, e.2.1) ∈ ms.map (fun e => (e.1, procProg fp S e.2)) := by rw [← h2]; exact List.mem_map.mpr ⟨e, he, rfl⟩
    obtain ⟨x, -, hx⟩ := List.mem_map.mp this
    rw [← (Prod.mk.inj hx).2]
    exact Or.inl (timed_process x.2))
  refine ⟨es, c, ?_, h5, fun th => (h7 th).2, by rw [h6, h3]⟩
  rw [← funext hcalls]
  exact h4

/-- The hypotheses of C105 (9) are met: two threads feed three measurements to a filter that counts. -/
example : ∃ (S : Insts ℕ ℕ) (s0 : Store (HV ℕ ℕ)) (feed : ℕ → List (Meas ℕ)) (es : List Ev) (c : Conf (HV ℕ ℕ) (List Status)),
    Run (start s0 (fun th => (feed th).map (procProg FP.exact S))) es (.ok c) ∧ c.Quiet ∧ (∀ th, (c.thr th).todo = []) ∧
      feed 0 = [⟨1, 1, .priv, 7⟩, ⟨1, 3, .priv, 7⟩] ∧ feed 1 = [⟨1, 2, .priv, 8⟩] := by
  obtain ⟨es, c, h1, h2, h3, -⟩ := c105_every_feed (fp := FP.exact)
    (S := ⟨fun _ _ => true, fun _ _ => true, fun w _ => (w + 1, .processed), fun w _ => w, fun w _ => w⟩)
    (fun l => match l with
      | .core => Handler.init 0 10
      | .requests => ([], 5)
      | .propSensor => (0 : ℕ)
      | .horizonSec => (10 : ℚ)) ([(0, ⟨1, 1, .priv, 7⟩), (1, ⟨1, 2, .priv, 8⟩), (0, ⟨1, 3, .priv, 7⟩)] : List (ℕ × Meas ℕ))
  exact ⟨_, _, _, es, c, h1, h2, h3, rfl, rfl⟩

/-- ... those of C105 (lost update), too. -/
example : ∃ (S : Insts ℕ ℕ) (m : Meas ℕ) (f : ℕ → ℕ) (w : ℕ), f (Handler.delegate S w m).1 ≠ f w ∧ (Handler.delegate S (f w) m).1 ≠ f w :=
  ⟨⟨fun _ _ => true, fun _ _ => true, fun w _ => (w + 1, .processed), fun w _ => w, fun w _ => w⟩, ⟨1, 1, .priv, 7⟩, fun w => 2 * w, 3, by decide, by decide⟩

/-! ## Only requests -/

/-- What `schedule_redo_update` does to the requests. -/
def schedF (fp : FP) (t : Int) (after : Bool) : HV W P .requests → HV W P .requests := fun q => (Buf.checkHorizon fp (Prod.snd q) (Buf.insertMap (Prod.fst q) t after), Prod.snd q)

theorem sched_run (fp : FP) (t : Int) (after : Bool) (s : Store (HV W P)) :
    (schedProg fp t after).run s = .ok (Function.update s .requests (schedF fp t after (s .requests)), []) := rfl

/-- Where a thread that calls only `schedule_redo_update` can be, and which of its calls have had their effect; inside, it holds `m_mtx_histRUR`. -/
inductive SchedAt (fp : FP) (rur : Lock.Mutex) (th : ℕ) : Thread (HV W P) (List Status) → List (Prog (HV W P) (List Status) × List Status) → Prop
  | idle (past todo) : SchedAt fp rur th ⟨past, none, todo⟩ past
  | enter (past todo t after) : SchedAt fp rur th ⟨past, some (schedProg fp t after, schedProg fp t after), todo⟩ past
  | write (past todo t after) : rur = .held th 0 →
      SchedAt fp rur th ⟨past, some (schedProg fp t after, .wr .requests (schedF fp t after) fun _ => .unlock .rur (.ret [])), todo⟩ past
  | leave (past todo t after) : rur = .held th 0 →
      SchedAt fp rur th ⟨past, some (schedProg fp t after, .unlock .rur (.ret [])), todo⟩ (past ++ [(schedProg fp t after, [])])
  | back (past todo t after) : SchedAt fp rur th ⟨past, some (schedProg fp t after, .ret []), todo⟩ (past ++ [(schedProg fp t after, [])])

theorem SchedAt.other {fp : FP} {rur rur' : Lock.Mutex} {o : ℕ} {x : Thread (HV W P) (List Status)} {l} (h : SchedAt fp rur o x l) (hn : rur ≠ .held o 0) : SchedAt fp rur' o x l := by
  cases h with
  | idle past todo => exact .idle _ _
  | enter past todo t after => exact .enter _ _ _ _
  | write past todo t after h => exact absurd h hn
  | leave past todo t after h => exact absurd h hn
  | back past todo t after => exact .back _ _ _ _

/-- All threads together: the members are those of the calls that have had their effect, made one after another. -/
structure SchedInv (fp : FP) (s0 : Store (HV W P)) (c : Conf (HV W P) (List Status)) (hist : List (ℕ × Prog (HV W P) (List Status) × List Status)) : Prop where
  at_ : ∀ th, SchedAt fp c.rur th (c.thr th) (callsOf th hist)
  todo : ∀ th, ∀ p ∈ (c.thr th).todo, ∃ t after, p = schedProg fp t after
  one : OneByOne s0 hist c.store

theorem sched_step {fp : FP} {s0 : Store (HV W P)} {c : Conf (HV W P) (List Status)} {hist} {e : Ev} {r : Res (Conf (HV W P) (List Status))} (hi : SchedInv fp s0 c hist) (hs : Step c e r) :
    ∃ c' hist', r = .ok c' ∧ SchedInv fp s0 c' hist' := by
  have upd : ∀ (th : ℕ) (x : Thread (HV W P) (List Status)) (m : Lock.Mutex) (hist' : List (ℕ × Prog (HV W P) (List Status) × List Status)),
      SchedAt fp m th x (callsOf th hist') → (∀ o, o ≠ th → SchedAt fp m o (c.thr o) (callsOf o hist')) → ∀ o, SchedAt fp m o (c.put th x o) (callsOf o hist') := by
    intro th x m hist' h1 h2 o
    by_cases ho : o = th
    · subst ho; rw [put_same]; exact h1
    · rw [put_other _ _ ho]; exact h2 o ho
  have updT : ∀ (th : ℕ) (x : Thread (HV W P) (List Status)), (∀ p ∈ x.todo, ∃ t after, p = schedProg fp t after) →
      ∀ o, ∀ p ∈ (c.put th x o).todo, ∃ t after, p = schedProg fp t after := by
    intro th x h1 o
    by_cases ho : o = th
    · subst ho; rw [put_same]; exact h1
    · rw [put_other _ _ ho]; exact hi.todo o
  have none' : ∀ th x p q, c.thr th = x → x.now = some (p, q) → (∃ t af, q = schedProg fp t af) ∨ (q = .ret []) ∨ (∃ t af, q = .wr .requests (schedF fp t af) fun _ => .unlock .rur (.ret [])) ∨
      (c.rur = .held th 0 ∧ q = .unlock .rur (.ret [])) := by
    intro th x p q hx hn
    have h := hi.at_ th
    rw [hx] at h
    generalize callsOf th hist = g at h
    cases h with
    | idle past todo => simp at hn
    | enter past todo t af => simp at hn; exact Or.inl ⟨t, af, hn.2.symm⟩
    | write past todo t af hm => simp at hn; exact Or.inr (Or.inr (Or.inl ⟨t, af, hn.2.symm⟩))
    | leave past todo t af hm => simp at hn; exact Or.inr (Or.inr (Or.inr ⟨hm, hn.2.symm⟩))
    | back past todo t af => simp at hn; exact Or.inr (Or.inl hn.2.symm)
  cases hs with
  | call th x p ps hx hn ht =>
    have h := hi.at_ th
    have hT := hi.todo th
    rw [hx] at h hT
    rw [ht] at hT
    obtain ⟨t, af, rfl⟩ := hT p List.mem_cons_self
    generalize hg : callsOf th hist = g at h
    cases h with
    | idle past todo =>
      subst hg
      exact ⟨_, hist, rfl, ⟨upd th _ _ _ (.enter _ _ _ _) fun o _ => hi.at_ o, updT th _ fun q hq => hT q (List.mem_cons_of_mem _ hq), hi.one⟩⟩
    | _ => simp at hn
  | ret th x p a hx hn =>
    have h := hi.at_ th
    have hT := hi.todo th
    rw [hx] at h hT
    generalize hg : callsOf th hist = g at h
    cases h with
    | back past todo t af =>
      simp at hn
      obtain ⟨rfl, rfl⟩ := hn
      refine ⟨_, hist, rfl, ⟨upd th _ _ _ ?_ fun o _ => hi.at_ o, updT th _ hT, hi.one⟩⟩
      rw [hg]
      exact .idle _ _
    | _ => simp [schedProg] at hn
  | lockRur th x p k m hx hn ha =>
    have h := hi.at_ th
    have hT := hi.todo th
    rw [hx] at h hT
    have hfree : c.rur = .free ∧ m = .held th 0 := by
      cases hc : c.rur with
      | free => rw [hc] at ha; exact ⟨rfl, by simpa [acquireR] using ha.symm⟩
      | held o d => rw [hc] at ha; simp [acquireR] at ha
    obtain ⟨hf, rfl⟩ := hfree
    generalize hg : callsOf th hist = g at h
    cases h with
    | enter past todo t af =>
      subst hg
      simp only [Option.some.injEq, Prod.mk.injEq] at hn
      obtain ⟨rfl, e⟩ := hn
      unfold schedProg at e
      injection e with _ e
      subst e
      exact ⟨_, hist, rfl, ⟨upd th _ _ _ (.write _ _ t af rfl) fun o _ => (hi.at_ o).other (by rw [hf]; simp), updT th _ hT, hi.one⟩⟩
    | _ => simp at hn
  | wr th x p l f k hx hn =>
    have h := hi.at_ th
    have hT := hi.todo th
    rw [hx] at h hT
    generalize hg : callsOf th hist = g at h
    cases h with
    | write past todo t af hm =>
      simp only [Option.some.injEq, Prod.mk.injEq] at hn
      obtain ⟨rfl, e⟩ := hn
      cases e
      refine ⟨_, hist ++ [(th, schedProg fp t af, [])], rfl, ⟨upd th _ _ _ ?_ fun o ho => ?_, updT th _ hT, ?_⟩⟩
      · rw [callsOf_append, callsOf_one, if_pos rfl, hg]
        exact .leave _ _ _ _ hm
      · rw [callsOf_append, callsOf_one, if_neg (Ne.symm ho), List.append_nil]
        exact hi.at_ o
      · exact hi.one.append (.cons (sched_run fp t af _) (.nil _))
    | _ => simp [schedProg] at hn
  | unlockRur th x p k m hx hn hu =>
    have h := hi.at_ th
    have hT := hi.todo th
    rw [hx] at h hT
    generalize hg : callsOf th hist = g at h
    cases h with
    | leave past todo t af hm =>
      simp only [Option.some.injEq, Prod.mk.injEq] at hn
      obtain ⟨rfl, e⟩ := hn
      cases e
      refine ⟨_, hist, rfl, ⟨upd th _ _ _ ?_ fun o ho => (hi.at_ o).other ?_, updT th _ hT, hi.one⟩⟩
      · rw [hg]; exact .back _ _ _ _
      · rw [hm]; simpa using Ne.symm ho
    | _ => simp [schedProg] at hn
  | unlockRurUb th x p k hx hn hu =>
    exfalso
    rcases none' th x _ _ hx hn with ⟨t, af, e⟩ | e | ⟨t, af, e⟩ | ⟨hm, e⟩
    · simp [schedProg] at e
    · simp at e
    · simp at e
    · rw [hm] at hu; simp [Lock.unlock] at hu
  | rd th x p l k hx hn =>
    rcases none' th x _ _ hx hn with ⟨t, af, e⟩ | e | ⟨t, af, e⟩ | ⟨hm, e⟩ <;> simp [schedProg] at e
  | tryOk th x p k kt m hx hn ha =>
    rcases none' th x _ _ hx hn with ⟨t, af, e⟩ | e | ⟨t, af, e⟩ | ⟨hm, e⟩ <;> simp [schedProg] at e
  | tryLate th x p k kt hx hn ha =>
    rcases none' th x _ _ hx hn with ⟨t, af, e⟩ | e | ⟨t, af, e⟩ | ⟨hm, e⟩ <;> simp [schedProg] at e
  | lockMain th x p k m hx hn ha =>
    rcases none' th x _ _ hx hn with ⟨t, af, e⟩ | e | ⟨t, af, e⟩ | ⟨hm, e⟩ <;> simp [schedProg] at e
  | unlockMain th x p k m hx hn hu =>
    rcases none' th x _ _ hx hn with ⟨t, af, e⟩ | e | ⟨t, af, e⟩ | ⟨hm, e⟩ <;> simp [schedProg] at e
  | unlockMainUb th x p k hx hn hu =>
    rcases none' th x _ _ hx hn with ⟨t, af, e⟩ | e | ⟨t, af, e⟩ | ⟨hm, e⟩ <;> simp [schedProg] at e
  | crash th x p hx hn =>
    rcases none' th x _ _ hx hn with ⟨t, af, e⟩ | e | ⟨t, af, e⟩ | ⟨hm, e⟩ <;> simp [schedProg] at e

theorem sched_runs {fp : FP} {s0 : Store (HV W P)} {c : Conf (HV W P) (List Status)} {hist} {es : List Ev} {r : Res (Conf (HV W P) (List Status))} (hi : SchedInv fp s0 c hist) (hr : Run c es r) :
    ∃ c' hist', r = .ok c' ∧ SchedInv fp s0 c' hist' := by
  induction hr generalizing hist with
  | nil c => exact ⟨c, hist, rfl, hi⟩
  | cons hs _ ih =>
    obtain ⟨c1, h1, e, hi1⟩ := sched_step hi hs
    cases e
    exact ih hi1
  | ub hs =>
    obtain ⟨c1, h1, e, -⟩ := sched_step hi hs
    cases e

/-- C105: any number of threads that call only `schedule_redo_update`: whatever the schedule, nothing is undefined, there is no race, and when all have returned the
requests are those of the same calls made one after another, in an order that keeps the order of each thread. -/
theorem c105_schedule_partial {s0 : Store (HV W P)} {calls : ℕ → List (Prog (HV W P) (List Status))} {es : List Ev} {r : Res (Conf (HV W P) (List Status))}
    (hl : ∀ th, ∀ p ∈ calls th, ∃ t after, p = schedProg fp t after) (hr : Run (start s0 calls) es r) :
    ∃ c, r = .ok c ∧ ¬ c.Race ∧ (c.Quiet → ∃ hist, OneByOne s0 hist c.store ∧ ∀ th, callsOf th hist = (c.thr th).past) := by
  have h0 : SchedInv fp s0 (start s0 calls) [] := ⟨fun th => .idle _ _, hl, .nil _⟩
  obtain ⟨c, hist, rfl, hi⟩ := sched_runs h0 hr
  refine ⟨c, rfl, ?_, fun hq => ⟨hist, hi.one, fun th => ?_⟩⟩
  · rintro ⟨a, b, l, wa, wb, hne, ⟨p, q, h1, h2⟩, ⟨p', q', h3, h4⟩, -⟩
    have key : ∀ th p q l w, (c.thr th).now = some (p, q) → q.access = some (l, w) → c.rur = .held th 0 := by
      intro th p q l w h1 h2
      have h := hi.at_ th
      generalize c.thr th = x at h h1
      generalize callsOf th hist = g at h
      cases h with
      | write past todo t af hm => exact hm
      | leave past todo t af hm => exact hm
      | idle past todo => simp at h1
      | enter past todo t af =>
        simp only [Option.some.injEq, Prod.mk.injEq] at h1
        rw [← h1.2] at h2
        simp [schedProg, Prog.access] at h2
      | back past todo t af =>
        simp only [Option.some.injEq, Prod.mk.injEq] at h1
        rw [← h1.2] at h2
        simp [Prog.access] at h2
    have e1 := key a p q l wa h1 h2
    have e2 := key b p' q' l wb h3 h4
    rw [e1] at e2
    exact hne (by injection e2)
  · have h := hi.at_ th
    have hn := hq th
    generalize c.thr th = x at h hn
    generalize callsOf th hist = g at h
    cases h with
    | idle past todo => rfl
    | _ => simp at hn

/-- Two threads, the second between the first one's entry and its access: the premises of `c105_schedule_partial` are met. -/
example (s0 : Store (HV W P)) (t t' : Int) : (∀ th, ∀ p ∈ two (schedProg fp t false) (schedProg (W := W) (P := P) fp t' true) th, ∃ t after, p = schedProg fp t after) ∧
    ∃ c, Run (start s0 (two (schedProg fp t false) (schedProg fp t' true))) [.step 0, .step 1, .step 1, .step 1, .step 1, .step 1, .step 0, .step 0, .step 0, .step 0] (.ok c) ∧
      c.store .requests = schedF fp t false (schedF fp t' true (s0 .requests)) := by
  constructor
  · intro th p hp
    unfold two at hp
    split at hp
    · exact ⟨t, false, by simpa using hp⟩
    · split at hp
      · exact ⟨t', true, by simpa using hp⟩
      · simp at hp
  · refine ⟨_, .cons (.call _ 0 _ _ _ rfl rfl rfl) (.cons (.call _ 1 _ _ _ rfl rfl rfl) (.cons (.lockRur _ 1 _ _ _ _ rfl rfl rfl) (.cons (.wr _ 1 _ _ _ _ _ rfl rfl)
      (.cons (.unlockRur _ 1 _ _ _ _ rfl rfl rfl) (.cons (.ret _ 1 _ _ _ rfl rfl) (.cons (.lockRur _ 0 _ _ _ _ rfl rfl rfl) (.cons (.wr _ 0 _ _ _ _ _ rfl rfl)
      (.cons (.unlockRur _ 0 _ _ _ _ rfl rfl rfl) (.cons (.ret _ 0 _ _ _ rfl rfl) (.nil _)))))))))), rfl⟩

end
end Ikf.Conc
