import Verif.Props.CollabRedo
import Verif.Props.HandlerExamples

/-! Concrete cases for C76–C78, and the order strategy RELAXED without the restriction of C78. -/

namespace Ikf.Agents
open Handler HandlerExample

/-! ## C76, C77 -/

/-- Instances 1, 2 are local; 1 is correlated with 2 (local) and with 20 of agent 2 (last at time 9); 2 with 30 of agent 3
(last at time 4). -/
def exH : Hdl :=
  [(1, ⟨[], [(2, [(9, Mat.one 1)]), (20, [(4, Mat.one 1), (9, Mat.one 1)])], 10⟩), (2, ⟨[], [(1, [(9, Mat.one 1)]), (30, [(4, Mat.one 1)])], 10⟩)]

def exTables : Tables := ⟨[(1, [(1, "a"), (2, "a")]), (2, [(20, "b")]), (3, [(30, "c")])], [(1, 1), (2, 1), (20, 2), (30, 3)]⟩

def exC (r : Names.RedoStrategy) : Coll Hdl := ⟨r, .strict, exTables, fun w => w⟩

theorem exH_sane : Sane exH := by
  have key : ∀ i : Inst, i = ⟨[], [(2, [(9, Mat.one 1)]), (20, [(4, Mat.one 1), (9, Mat.one 1)])], 10⟩ ∨
      i = ⟨[], [(1, [(9, Mat.one 1)]), (30, [(4, Mat.one 1)])], 10⟩ → i.Ord := by
    rintro i (rfl | rfl)
    · refine ⟨by simp [Buf.StrictKeys], by simp [SMap.Sorted], ?_⟩
      intro J b hJ
      have := SMap.mem_of_find hJ
      simp only [List.mem_cons, Prod.mk.injEq, List.not_mem_nil, or_false] at this
      rcases this with ⟨-, rfl⟩ | ⟨-, rfl⟩ <;> simp [Buf.StrictKeys]
    · refine ⟨by simp [Buf.StrictKeys], by simp [SMap.Sorted], ?_⟩
      intro J b hJ
      have := SMap.mem_of_find hJ
      simp only [List.mem_cons, Prod.mk.injEq, List.not_mem_nil, or_false] at this
      rcases this with ⟨-, rfl⟩ | ⟨-, rfl⟩ <;> simp [Buf.StrictKeys]
  refine ⟨by simp [exH, SMap.Sorted], ?_⟩
  intro p i hp
  have := SMap.mem_of_find hp
  unfold exH at this
  simp only [List.mem_cons, Prod.mk.injEq, List.not_mem_nil, or_false] at this
  rcases this with ⟨-, h⟩ | ⟨-, h⟩
  · exact key i (Or.inl h)
  · exact key i (Or.inr h)

/-- From time 5 on only agent 2 is asked, from time 3 on agents 2 and 3, from time 9 on nobody. -/
example : requests (exC .postcorrelated) exH 5 false = [⟨2, 5, false⟩] ∧
    requests (exC .postcorrelated) exH 3 false = [⟨2, 3, false⟩, ⟨3, 3, false⟩] ∧
    requests (exC .postcorrelated) exH 9 false = [] ∧ requests (exC .exact) exH 3 false = [] := by
  refine ⟨?_, ?_, ?_, ?_⟩ <;> with_unfolding_all rfl

/-- Instances that process everything and keep their state. -/
def exS : Insts Hdl Unit := ⟨fun _ k => k == 1 || k == 2, fun _ _ => true, fun w _ => (w, .processed), fun w _ => w, fun w _ => w⟩

def exState : HState Hdl Unit :=
  { w := exH, meas := [(2, ⟨1, 2, .propagation, ()⟩), (9, ⟨1, 9, .propagation, ()⟩)], ooo := [], redo := [], hMeas := 100, hOoo := 25, hRedo := 50 }

/-- C76: a delayed private observation at time 3 asks agents 2 and 3; one at time 10 asks nobody. -/
example : (processC FP.exact exS (exC .postcorrelated) exState ⟨1, 3, .priv, ()⟩).2 =
      ([.processed, .processed], [⟨2, 3, false⟩, ⟨3, 3, false⟩]) ∧
    (processC FP.exact exS (exC .postcorrelated) exState ⟨1, 10, .priv, ()⟩).2 = ([.processed], []) := by
  constructor <;> with_unfolding_all decide

/-- C77: under DISCARD it is thrown away, and one at time 9 is not. -/
example : (processC FP.exact exS (exC .discard) exState ⟨1, 3, .priv, ()⟩).2 = ([.discarded], []) ∧
    (processC FP.exact exS (exC .discard) exState ⟨1, 9, .priv, ()⟩).2 = ([.processed], []) := by
  constructor <;> with_unfolding_all decide

/-- Agent 2 gets the request for time 5 while it has measurements of times 2 and 9: the one of time 9 is processed again. -/
example : let s : Team Hdl Unit := { w := exH, st := fun _ => exState, wire := [⟨2, 5, false⟩] }
    s.wire[0]? = some ⟨2, 5, false⟩ ∧ (s.st 2).redo = [] ∧ (∃ om, (s.st 2).meas.head? = some om ∧ om.1 < 5) :=
  ⟨rfl, rfl, _, rfl, by decide⟩

/-- The hypotheses of `c76_measurement` and `c77_discard` hold here. -/
example : (serveRequests FP.exact exS exState).ooo.SortedKeys ∧ Sane ((exC .discard).hdl (serveRequests FP.exact exS exState).w) ∧
    exS.known exState.w 1 = true ∧ tooOld FP.exact exState ⟨1, 3, .priv, ()⟩ = false := by
  have h : serveRequests FP.exact exS exState = exState := by with_unfolding_all rfl
  rw [h]
  refine ⟨by simp [exState, Buf.SortedKeys], exH_sane, rfl, by with_unfolding_all decide⟩

/-! ## C78 -/

def mJ : Meas Int := ⟨1, 2000000000, .joint, 3⟩

/-- The collaborative handler as constructed: RELAXED, POSTCORRELATED. The toy instances have no factors. -/
def toyC (o : Names.OrderStrategy) : Coll (World Int Unit) := ⟨.postcorrelated, o, ⟨[], []⟩, fun _ => []⟩

/-- C78. The restriction of `c78_converges` is needed under RELAXED: two observations of the same time are processed in the order of their
arrival. All hypotheses of `c78_converges` but that on concurrent observations hold, everything is accepted, and the
state is not that of in-order processing; with the other order of arrival it is. -/
theorem c78_arrival_order :
    WellBehaved toyS toyInit (fun m => 0 < m.t ∧ toyInit.ids.contains m.id = true ∧ toyInit.on m.id = true) ∧
    (∀ m ∈ [mA, mJ, mD], MeasOk m ∧ (0 < m.t ∧ toyInit.ids.contains m.id = true ∧ toyInit.on m.id = true)) ∧
    acceptedC FP.exact toyS (toyC .relaxed) (Handler.init toyInit 100) ([mA, mJ, mD].map HOp.meas) = [mA, mJ, mD] ∧
    acceptedC FP.exact toyS (toyC .relaxed) (Handler.init toyInit 100) ([mA, mD, mJ].map HOp.meas) = [mA, mD, mJ] ∧
    Chronological [mA, mJ, mD] [mA, mD, mJ] ∧
    (([mA, mJ, mD].map HOp.meas).foldl (hStepC FP.exact toyS (toyC .relaxed)) (Handler.init toyInit 100)).w ≠
      runAll toyS toyInit [mA, mD, mJ] ∧
    (([mA, mD, mJ].map HOp.meas).foldl (hStepC FP.exact toyS (toyC .relaxed)) (Handler.init toyInit 100)).w =
      runAll toyS toyInit [mA, mD, mJ] := by
  refine ⟨toy_wb, ?_, ?_, ?_, ?_, ?_, ?_⟩
  · intro m hm
    simp at hm
    rcases hm with rfl | rfl | rfl <;> refine ⟨⟨?_, ?_, ?_⟩, ?_, ?_, ?_⟩ <;> decide
  · with_unfolding_all decide
  · with_unfolding_all decide
  · have hc : ∀ t K, ofClass [mA, mD, mJ] t K = ofClass [mA, mJ, mD] t K := by
      intro t K
      unfold ofClass
      by_cases h1 : t = 1000000000
      · subst h1; cases K <;> decide
      · by_cases h2 : t = 2000000000
        · subst h2; cases K <;> decide
        · have e1 : ¬ (1000000000 : Int) = t := fun h => h1 h.symm
          have e2 : ¬ (2000000000 : Int) = t := fun h => h2 h.symm
          simp [mA, mD, mJ, e1, e2]
    refine ⟨perm_of_classes _ _ hc, ?_, hc⟩
    simp [Meas.before, mA, mD, mJ, ObsType.prio]
  · intro h
    have := congrArg (fun w => w.bel 1) h
    revert this
    with_unfolding_all decide
  · with_unfolding_all rfl

/-- The hypothesis of `c78_time_ordered` for the toy filter. -/
example : WellBehavedBy Meas.beforeR toyS toyInit (fun m => 0 < m.t ∧ toyInit.ids.contains m.id = true ∧ toyInit.on m.id = true) :=
  causal_wellBehavedBy (fun a b h => by rcases h with h | h <;> omega) toy_causal toy_initAt

/-- C78 under STRICT on the same arrivals. -/
example : (([mA, mJ, mD].map HOp.meas).foldl (hStepC FP.exact toyS (toyC .strict)) (Handler.init toyInit 100)).w.bel 1 =
    (runAll toyS toyInit [mA, mD, mJ]).bel 1 := by with_unfolding_all decide

end Ikf.Agents
