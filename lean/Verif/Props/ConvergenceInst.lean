import Verif.Model.Instances
import Verif.Props.Convergence

/-! # Property C36 for instances with belief and factor histories; acceptance; examples -/

namespace Ikf
open Handler
variable {B C P : Type _}

/-- All histories sorted, nothing stored later than `t`. -/
def World.UpTo (w : World B C) (t : Int) : Prop :=
  (∀ i, (w.bel i).SortedKeys ∧ ∀ e ∈ w.bel i, e.1 ≤ t) ∧
  (∀ i j, (w.ccf i j).SortedKeys ∧ ∀ e ∈ w.ccf i j, e.1 ≤ t)

/-- A causal filter: processing a measurement that is not older than anything stored changes only what
is stored at its own time, of registered instances, and answers processed or rejected. It may use
everything stored, of all instances. -/
structure CausalStep (step : World B C → Meas P → World B C × Status) : Prop where
  ids : ∀ w m, (step w m).1.ids = w.ids
  on : ∀ w m, (step w m).1.on = w.on
  upTo : ∀ w m, w.UpTo m.t → (step w m).1.UpTo m.t
  bel : ∀ w m i, w.UpTo m.t →
    ((step w m).1.bel i).filter (fun e => decide (e.1 < m.t)) = (w.bel i).filter (fun e => decide (e.1 < m.t))
  ccf : ∀ w m i j, w.UpTo m.t →
    ((step w m).1.ccf i j).filter (fun e => decide (e.1 < m.t)) = (w.ccf i j).filter (fun e => decide (e.1 < m.t))
  others : ∀ w m i, i ∉ w.ids → (step w m).1.bel i = w.bel i ∧ ∀ j, (step w m).1.ccf i j = w.ccf i j
  status : ∀ w m, w.UpTo m.t → (step w m).2 = .processed ∨ (step w m).2 = .rejected

/-- Registered instances are initialised not after `t0`; nothing else is stored. -/
structure InitAt (w : World B C) (t0 : Int) : Prop where
  upTo : w.UpTo t0
  init : ∀ i ∈ w.ids, w.bel i ≠ []
  rest : ∀ i, i ∉ w.ids → w.bel i = [] ∧ ∀ j, w.ccf i j = []

theorem World.UpTo.mono {w : World B C} {t t' : Int} (h : w.UpTo t) (ht : t ≤ t') : w.UpTo t' :=
  ⟨fun i => ⟨(h.1 i).1, fun e he => le_trans ((h.1 i).2 e he) ht⟩,
   fun i j => ⟨(h.2 i j).1, fun e he => le_trans ((h.2 i j).2 e he) ht⟩⟩

theorem filt_trans {α : Type _} {s t : Int} (a b : Buf α) (hts : t ≤ s)
    (hab : a.filter (fun e => decide (e.1 < s)) = b.filter (fun e => decide (e.1 < s))) :
    a.filter (fun e => decide (e.1 < t)) = b.filter (fun e => decide (e.1 < t)) := by
  have h2 : ∀ c : Buf α, (c.filter (fun e => decide (e.1 < s))).filter (fun e => decide (e.1 < t)) =
      c.filter (fun e => decide (e.1 < t)) := by
    intro c
    rw [List.filter_filter]
    apply List.filter_congr
    intro x _; rw [Bool.eq_iff_iff]; simp; omega
  rw [← h2 a, hab, h2]

theorem filt_self {α : Type _} {s t : Int} (b : Buf α) (hst : s < t) (hb : ∀ e ∈ b, e.1 ≤ s) :
    b.filter (fun e => decide (e.1 < t)) = b := by
  rw [List.filter_eq_self]; intro e he; have := hb e he; simp; omega

theorem filt_le {α : Type _} {t : Int} (b : Buf α) :
    b.filter (fun e => decide (e.1 ≤ t)) = b.filter (fun e => decide (e.1 < t + 1)) := by
  apply List.filter_congr; intro e _; rw [Bool.eq_iff_iff]; simp; omega

section
variable {step : World B C → Meas P → World B C × Status} {w0 : World B C} {t0 : Int}

/-- After an ordered run everything is stored up to the last time, and what is stored before a time not
later than the whole run is unchanged. -/
theorem run_frame {R : Meas P → Meas P → Prop} (hR : ∀ a b, R a b → a.t ≤ b.t) (hS : CausalStep step) (L : List (Meas P)) (hp : L.Pairwise R)
    (w : World B C) (s : Int) (hw : w.UpTo s) (hL : ∀ m ∈ L, s ≤ m.t) :
    (runAll (World.insts step) w L).ids = w.ids ∧ (runAll (World.insts step) w L).on = w.on ∧
    (∀ i, i ∉ w.ids → (runAll (World.insts step) w L).bel i = w.bel i ∧
      ∀ j, (runAll (World.insts step) w L).ccf i j = w.ccf i j) ∧
    (∀ t, s ≤ t → (∀ m ∈ L, m.t ≤ t) → (runAll (World.insts step) w L).UpTo t) ∧
    (∀ t, (∀ m ∈ L, t ≤ m.t) →
      (∀ i, ((runAll (World.insts step) w L).bel i).filter (fun e => decide (e.1 < t)) =
        (w.bel i).filter (fun e => decide (e.1 < t))) ∧
      (∀ i j, ((runAll (World.insts step) w L).ccf i j).filter (fun e => decide (e.1 < t)) =
        (w.ccf i j).filter (fun e => decide (e.1 < t)))) := by
  induction L generalizing w s with
  | nil =>
    exact ⟨rfl, rfl, fun i _ => ⟨rfl, fun _ => rfl⟩, fun t ht _ => hw.mono ht,
      fun t _ => ⟨fun i => rfl, fun i j => rfl⟩⟩
  | cons m L ih =>
    have hm := hL m (by simp)
    have hwm := hw.mono hm
    obtain ⟨hh, ht⟩ := List.pairwise_cons.mp hp
    obtain ⟨i1, i2, i3, i4, i5⟩ := ih ht (step w m).1 m.t (hS.upTo w m hwm) (by
      intro x hx
      have := hR _ _ (hh x hx); omega)
    have e : runAll (World.insts step) w (m :: L) = runAll (World.insts step) (step w m).1 L := rfl
    rw [e]
    refine ⟨i1.trans (hS.ids w m), i2.trans (hS.on w m), ?_, ?_, ?_⟩
    · intro i hi
      obtain ⟨o1, o2⟩ := hS.others w m i hi
      obtain ⟨p1, p2⟩ := i3 i (by rw [hS.ids]; exact hi)
      exact ⟨p1.trans o1, fun j => (p2 j).trans (o2 j)⟩
    · intro t _ hall
      exact i4 t (hall m (by simp)) (fun x hx => hall x (by simp [hx]))
    · intro t hall
      obtain ⟨b1, b2⟩ := i5 t (fun x hx => hall x (by simp [hx]))
      have htm := hall m (by simp)
      exact ⟨fun i => (b1 i).trans (filt_trans _ _ htm (hS.bel w m i hwm)),
        fun i j => (b2 i j).trans (filt_trans _ _ htm (hS.ccf w m i j hwm))⟩

theorem removeFrom_buf {α : Type _} (b : Buf α) (hs : b.SortedKeys) (t : Int) :
    (b.removeAfter t).removeAt t = b.filter (fun e => decide (e.1 < t)) := by
  rw [Buf.removeAfter_eq b hs]
  unfold Buf.removeAt
  rw [List.filter_filter]
  apply List.filter_congr
  intro e _
  rw [Bool.eq_iff_iff]; simp; omega

/-- The removal functions undo causal filters. -/
theorem causal_wellBehavedBy {R : Meas P → Meas P → Prop} (hR : ∀ a b, R a b → a.t ≤ b.t) (hS : CausalStep step) (h0 : InitAt w0 t0) :
    WellBehavedBy R (World.insts step) w0
      (fun m => t0 < m.t ∧ w0.ids.contains m.id = true ∧ w0.on m.id = true) := by
  have hge : ∀ L : List (Meas P),
      (∀ m ∈ L, t0 < m.t ∧ w0.ids.contains m.id = true ∧ w0.on m.id = true) → ∀ m ∈ L, t0 ≤ m.t :=
    fun L h m hm => le_of_lt (h m hm).1
  refine ⟨?_, ?_, ?_, ?_, ?_⟩
  · intro L hp hok id
    obtain ⟨i1, _⟩ := run_frame hR hS L hp w0 t0 h0.upTo (hge L hok)
    show (runAll (World.insts step) w0 L).ids.contains id = _
    rw [i1]; rfl
  · intro L m hp hok
    have hpL := (List.pairwise_append.mp hp).1
    obtain ⟨_, i2, _⟩ := run_frame hR hS L hpL w0 t0 h0.upTo (hge L (fun x hx => hok x (by simp [hx])))
    refine ⟨(hok m (by simp)).2.1, ?_⟩
    show (runAll (World.insts step) w0 L).on m.id = true
    rw [i2]; exact (hok m (by simp)).2.2
  · intro L m hp hok
    obtain ⟨hpL, _, hb⟩ := List.pairwise_append.mp hp
    obtain ⟨_, _, _, i4, _⟩ := run_frame hR hS L hpL w0 t0 h0.upTo (hge L (fun x hx => hok x (by simp [hx])))
    apply hS.status
    apply i4 m.t (le_of_lt (hok m (by simp)).1)
    intro x hx
    exact hR _ _ (hb x hx m (by simp))
  · intro L1 L2 t hp hok hne hL1 hL2
    obtain ⟨hp1, hp2, hb⟩ := List.pairwise_append.mp hp
    obtain ⟨x, hx⟩ := List.exists_mem_of_ne_nil L1 hne
    have ht0 : t0 < t := lt_trans (hok x (by simp [hx])).1 (hL1 x hx)
    have hge1 := hge L1 (fun x hx => hok x (by simp [hx]))
    obtain ⟨a1, a2, a3, a4, a5⟩ := run_frame hR hS L1 hp1 w0 t0 h0.upTo hge1
    have hup : (runAll (World.insts step) w0 L1).UpTo (t - 1) :=
      a4 (t - 1) (by omega) (fun m hm => by have := hL1 m hm; omega)
    obtain ⟨b1, b2, b3, b4, b5⟩ := run_frame hR hS L2 hp2 (runAll (World.insts step) w0 L1) (t - 1) hup
      (fun m hm => by have := hL2 m hm; omega)
    rw [runAll_append]
    set w1 := runAll (World.insts step) w0 L1 with hw1
    set w2 := runAll (World.insts step) w1 L2 with hw2
    obtain ⟨c1, c2⟩ := b5 t hL2
    -- some big time bound for sortedness of w2
    have hsort : (∀ i, (w2.bel i).SortedKeys) ∧ ∀ i j, (w2.ccf i j).SortedKeys := by
      obtain ⟨M, hM⟩ : ∃ M : Int, t - 1 ≤ M ∧ ∀ m ∈ L2, m.t ≤ M := by
        clear * - L2 t
        induction L2 with
        | nil => exact ⟨t - 1, le_rfl, by simp⟩
        | cons y ys ih =>
          obtain ⟨M, h1, h2⟩ := ih
          refine ⟨max M y.t, by omega, ?_⟩
          intro m hm
          rcases List.mem_cons.mp hm with rfl | hm
          · omega
          · have := h2 m hm; omega
      have := b4 M hM.1 hM.2
      exact ⟨fun i => (this.1 i).1, fun i j => (this.2 i j).1⟩
    have hbef : ∀ i, i ∈ w2.ids → (w2.bel i).existBefore t = true := by
      intro i hi
      rw [Buf.existBefore_iff _ (hsort.1 i)]
      have hi0 : i ∈ w0.ids := by rw [b1, a1] at hi; exact hi
      obtain ⟨e, he⟩ := List.exists_mem_of_ne_nil _ (h0.init i hi0)
      have het := (h0.upTo.1 i).2 e he
      have ha5 := (a5 (t0 + 1) (fun m hm => by have := (hok m (by simp [hm])).1; omega)).1 i
      have hc1 := c1 i
      have hmem : e ∈ (w1.bel i) := by
        have : e ∈ (w0.bel i).filter (fun e => decide (e.1 < t0 + 1)) :=
          List.mem_filter.mpr ⟨he, by simp; omega⟩
        rw [← ha5] at this
        exact (List.mem_filter.mp this).1
      have : e ∈ (w1.bel i).filter (fun e => decide (e.1 < t)) :=
        List.mem_filter.mpr ⟨hmem, by simp; omega⟩
      rw [← hc1] at this
      exact ⟨e, (List.mem_filter.mp this).1, by omega⟩
    show World.removeFrom w2 t = w1
    have hb : (World.removeFrom w2 t).bel = w1.bel := by
      funext i
      unfold World.removeFrom
      simp only
      by_cases hi : i ∈ w2.ids
      · rw [if_pos (by simp [hi, hbef i hi]), removeFrom_buf _ (hsort.1 i), c1 i, filt_self _ (by omega) (hup.1 i).2]
      · rw [if_neg (by simp [hi])]
        exact (b3 i (by rw [← b1]; exact hi)).1
    have hc : (World.removeFrom w2 t).ccf = w1.ccf := by
      funext i j
      unfold World.removeFrom
      simp only
      by_cases hi : i ∈ w2.ids
      · rw [if_pos (by simp [hi, hbef i hi]), removeFrom_buf _ (hsort.2 i j), c2 i j, filt_self _ (by omega) (hup.2 i j).2]
      · rw [if_neg (by simp [hi])]
        exact (b3 i (by rw [← b1]; exact hi)).2 j
    cases hw : w1 with
    | mk ids on bel ccf =>
      rw [hw] at hb hc b1 b2
      simp only at hb hc b1 b2
      have e1 : (World.removeFrom w2 t).ids = ids := b1
      have e2 : (World.removeFrom w2 t).on = on := b2
      rw [← e1, ← e2, ← hb, ← hc]
  · intro L1 L2 t hp hok hne hL1 hL2
    obtain ⟨hp1, hp2, hb⟩ := List.pairwise_append.mp hp
    obtain ⟨x, hx⟩ := List.exists_mem_of_ne_nil L1 hne
    have ht0 : t0 < t := lt_of_lt_of_le (hok x (by simp [hx])).1 (hL1 x hx)
    have hge1 := hge L1 (fun x hx => hok x (by simp [hx]))
    obtain ⟨a1, a2, a3, a4, a5⟩ := run_frame hR hS L1 hp1 w0 t0 h0.upTo hge1
    have hup : (runAll (World.insts step) w0 L1).UpTo t := a4 t (by omega) hL1
    obtain ⟨b1, b2, b3, b4, b5⟩ := run_frame hR hS L2 hp2 (runAll (World.insts step) w0 L1) t hup
      (fun m hm => by have := hL2 m hm; omega)
    rw [runAll_append]
    set w1 := runAll (World.insts step) w0 L1 with hw1
    set w2 := runAll (World.insts step) w1 L2 with hw2
    obtain ⟨c1, c2⟩ := b5 (t + 1) (fun m hm => by have := hL2 m hm; omega)
    have hsort : (∀ i, (w2.bel i).SortedKeys) ∧ ∀ i j, (w2.ccf i j).SortedKeys := by
      obtain ⟨M, hM⟩ : ∃ M : Int, t ≤ M ∧ ∀ m ∈ L2, m.t ≤ M := by
        clear * - L2 t
        induction L2 with
        | nil => exact ⟨t, le_rfl, by simp⟩
        | cons y ys ih =>
          obtain ⟨M, h1, h2⟩ := ih
          refine ⟨max M y.t, by omega, ?_⟩
          intro m hm
          rcases List.mem_cons.mp hm with rfl | hm
          · omega
          · have := h2 m hm; omega
      have := b4 M hM.1 hM.2
      exact ⟨fun i => (this.1 i).1, fun i j => (this.2 i j).1⟩
    have hbef : ∀ i, i ∈ w2.ids → (w2.bel i).existBefore t = true := by
      intro i hi
      rw [Buf.existBefore_iff _ (hsort.1 i)]
      have hi0 : i ∈ w0.ids := by rw [b1, a1] at hi; exact hi
      obtain ⟨e, he⟩ := List.exists_mem_of_ne_nil _ (h0.init i hi0)
      have het := (h0.upTo.1 i).2 e he
      have ha5 := (a5 (t0 + 1) (fun m hm => by have := (hok m (by simp [hm])).1; omega)).1 i
      have hc1 := c1 i
      have hmem : e ∈ (w1.bel i) := by
        have : e ∈ (w0.bel i).filter (fun e => decide (e.1 < t0 + 1)) :=
          List.mem_filter.mpr ⟨he, by simp; omega⟩
        rw [← ha5] at this
        exact (List.mem_filter.mp this).1
      have : e ∈ (w1.bel i).filter (fun e => decide (e.1 < t + 1)) :=
        List.mem_filter.mpr ⟨hmem, by simp; omega⟩
      rw [← hc1] at this
      exact ⟨e, (List.mem_filter.mp this).1, by omega⟩
    show World.removeAfter w2 t = w1
    have hb : (World.removeAfter w2 t).bel = w1.bel := by
      funext i
      unfold World.removeAfter
      simp only
      by_cases hi : i ∈ w2.ids
      · rw [if_pos (by simp [hi, hbef i hi]), Buf.removeAfter_eq _ (hsort.1 i), filt_le, c1 i, filt_self _ (by omega) (hup.1 i).2]
      · rw [if_neg (by simp [hi])]
        exact (b3 i (by rw [← b1]; exact hi)).1
    have hc : (World.removeAfter w2 t).ccf = w1.ccf := by
      funext i j
      unfold World.removeAfter
      simp only
      by_cases hi : i ∈ w2.ids
      · rw [if_pos (by simp [hi, hbef i hi]), Buf.removeAfter_eq _ (hsort.2 i j), filt_le, c2 i j, filt_self _ (by omega) (hup.2 i j).2]
      · rw [if_neg (by simp [hi])]
        exact (b3 i (by rw [← b1]; exact hi)).2 j
    cases hw : w1 with
    | mk ids on bel ccf =>
      rw [hw] at hb hc b1 b2
      simp only at hb hc b1 b2
      have e1 : (World.removeAfter w2 t).ids = ids := b1
      have e2 : (World.removeAfter w2 t).on = on := b2
      rw [← e1, ← e2, ← hb, ← hc]

theorem causal_wellBehaved (hS : CausalStep step) (h0 : InitAt w0 t0) :
    WellBehaved (World.insts step) w0
      (fun m => t0 < m.t ∧ w0.ids.contains m.id = true ∧ w0.on m.id = true) :=
  causal_wellBehavedBy (fun a b h => by rcases h with h | h <;> omega) hS h0

/-- C36 for histories: all belief and factor histories of all instances after any arrival order are
those of in-order processing of the accepted measurements. -/
theorem c36_histories_converge (hS : CausalStep step) (h0 : InitAt w0 t0) (hon : ∀ i ∈ w0.ids, w0.on i = true)
    (fp : FP) (horizon : ℚ) (ops : List (HOp P))
    (hops : ∀ m ∈ arrivals ops, MeasOk m ∧ t0 < m.t)
    (L : List (Meas P))
    (hL : Chronological (accepted fp (World.insts step) (Handler.init w0 horizon) ops) L) :
    (ops.foldl (hStep fp (World.insts step)) (Handler.init w0 horizon)).w =
      L.foldl (fun w m => (step w m).1) w0 := by
  refine (c36_converges fp (World.insts step) w0 _ (causal_wellBehaved hS h0) horizon ops ?_).2 L hL
  intro m hm
  obtain ⟨h1, h2⟩ := hops m hm
  refine ⟨h1, fun hk => ⟨h2, hk, hon m.id ?_⟩⟩
  have : w0.ids.contains m.id = true := hk
  simpa using this

end

/-! ## Acceptance -/

section
variable {W : Type _}

/-- C36. Measurements of known instances that are at least 13 µs newer than the first arrival and span less than the
horizon are all accepted. -/
theorem c36_all_accepted (fp : FP) (S : Insts W P) (w0 : W) (ok : Meas P → Prop) (hS : WellBehaved S w0 ok)
    (horizon : ℚ) (ms : List (Meas P)) (m0 : Meas P)
    (hok : ∀ m ∈ m0 :: ms, MeasOk m ∧ ok m ∧ S.known w0 m.id = true ∧ m.t ≤ 8589934590000000000)
    (hnew : ∀ m ∈ ms, m0.t + 13000 ≤ m.t)
    (hspan : ∀ m ∈ m0 :: ms, ((m.t - m0.t : ℤ) : ℚ) / 1000000000 + 1/100000 ≤ |horizon|) :
    accepted fp S (Handler.init w0 horizon) ((m0 :: ms).map HOp.meas) = m0 :: ms := by
  -- generalised: every stored time is at least that of the first arrival, and nothing was trimmed
  have key : ∀ (ms : List (Meas P)) (A : List (Meas P)) (h : HState W P),
      h.hMeas = |horizon| → Conv fp S w0 ok A [] h →
      (∀ m ∈ A ++ ms, MeasOk m ∧ ok m ∧ S.known w0 m.id = true ∧ m.t ≤ 8589934590000000000) →
      (∀ m ∈ A ++ ms, m0.t ≤ m.t ∧ ((m.t - m0.t : ℤ) : ℚ) / 1000000000 + 1/100000 ≤ |horizon|) →
      (A = [] ∨ (m0 ∈ A ∧ ∀ m ∈ ms, m0.t + 13000 ≤ m.t)) → (A = [] → ms.head? = some m0) →
      (∀ m ∈ ms.tail, m0.t + 13000 ≤ m.t) →
      accepted fp S h (ms.map HOp.meas) = ms := by
    intro ms
    induction ms with
    | nil => intros; rfl
    | cons m ms ih =>
      intro A h hmax c hok hlow hA hA0 htail
      obtain ⟨k1, k2, k3, k4⟩ := hok m (by simp)
      have hstored : ∀ e ∈ h.meas, e.2 ∈ A := by
        intro e he
        apply c.inv.chronological.1.subset
        simp only [List.nil_append]
        exact List.mem_map.mpr ⟨e, he, rfl⟩
      have hkey : ∀ e ∈ h.meas, e.1 = e.2.t := fun e he => c.inv.keyed e (by simp [he])
      have hacc : tooOld fp h m = false := by
        apply c34_accepted fp h m c.sorted
        · intro e he
          rw [hkey e he]
          have := hok e.2 (by simp [hstored e he])
          exact ⟨this.1.2.1, this.2.2.2⟩
        · exact k4
        · intro o ho
          have hom := List.mem_of_head? ho
          rcases hA with hA | ⟨hA1, hA2⟩
          · exfalso; have := hstored o hom; rw [hA] at this; simp at this
          · have : m0 ∈ (h.meas).map (·.2) := by
              have := c.inv.chronological.1.symm.subset hA1
              simpa using this
            obtain ⟨e, he, hee⟩ := List.mem_map.mp this
            have h1 := Buf.SortedKeys.head_le c.sorted ho e he
            rw [hkey e he, hee] at h1
            have := hA2 m (by simp)
            omega
      have hkn : S.known h.w m.id = true := by rw [c.known hS]; exact k3
      have hnoTrim : Buf.checkHorizon fp h.hMeas (Buf.insertMulti h.meas m.t m) =
          Buf.insertMulti h.meas m.t m := by
        apply (c15_newest_kept fp h.hMeas _).2.2
        have hne : Buf.insertMulti h.meas m.t m ≠ [] :=
          List.ne_nil_of_mem ((Buf.mem_insertMulti h.meas m.t m _).mpr (Or.inl rfl))
        obtain ⟨o, l, ho, hl⟩ := head_last_of_ne _ hne
        rw [horizon_eq fp _ o l ho hl]
        have hin : ∀ e ∈ Buf.insertMulti h.meas m.t m, 0 ≤ e.1 ∧ e.1 ≤ 8589934590000000000 ∧ m0.t ≤ e.1 ∧
            ((e.1 - m0.t : ℤ) : ℚ) / 1000000000 + 1/100000 ≤ |horizon| := by
          intro e he
          rw [Buf.mem_insertMulti] at he
          rcases he with rfl | he
          · exact ⟨k1.2.1, k4, (hlow m (by simp)).1, (hlow m (by simp)).2⟩
          · have hs := hstored e he
            rw [hkey e he]
            have a := hok e.2 (by simp [hs])
            have b := hlow e.2 (by simp [hs])
            exact ⟨a.1.2.1, a.2.2.2, b.1, b.2⟩
        obtain ⟨o1, o2, o3, o4⟩ := hin o (List.mem_of_head? ho)
        obtain ⟨l1, l2, l3, l4⟩ := hin l (List.mem_of_getLast? hl)
        have e1 := fp.secOfKey_err o.1 o1 (by omega)
        have e2 := fp.secOfKey_err l.1 l1 (by omega)
        unfold FP.secOfKey
        set so := fp.toSec (Timestamp.ofStampNs o.1)
        set sl := fp.toSec (Timestamp.ofStampNs l.1)
        rw [abs_le] at e1 e2
        have q0 : (0:ℚ) ≤ o.1 := by exact_mod_cast o1
        have q1 : (o.1:ℚ) ≤ 8589934590000000000 := by exact_mod_cast o2
        have q2 : (0:ℚ) ≤ l.1 := by exact_mod_cast l1
        have q3 : (l.1:ℚ) ≤ 8589934590000000000 := by exact_mod_cast l2
        have q4 : (m0.t:ℚ) ≤ o.1 := by exact_mod_cast o3
        have r1 := fp.rnd_err (sl - so) 8589934591 (by rw [abs_le]; constructor <;> linarith)
        rw [abs_le] at r1
        push_cast at l4
        rw [hmax]
        norm_num at r1 ⊢
        linarith [r1.2]
      rcases c.process hS m k1 (fun _ => k2) with ⟨hd, _, _⟩ | ⟨hres, X, hX, c'⟩
      · exfalso
        rcases hd with hd | hd
        · rw [k3] at hd; simp at hd
        · rw [hacc] at hd; simp at hd
      · rw [hnoTrim] at hX
        have hXnil : X = [] := by
          have := congrArg List.length hX
          simp at this; exact this
        rw [hXnil, List.append_nil] at c'
        show accepted fp S h (HOp.meas m :: ms.map HOp.meas) = m :: ms
        unfold accepted
        rw [if_neg hres]
        congr 1
        apply ih (A ++ [m]) _ (by rw [(process_meas fp S h m).1]; exact hmax) c'
        · intro x hx; exact hok x (by simpa using hx)
        · intro x hx; exact hlow x (by simpa using hx)
        · right
          refine ⟨?_, htail⟩
          by_cases hAn : A = []
          · have := hA0 hAn
            simp at this; subst this; simp
          · rcases hA with h | h
            · exact absurd h hAn
            · simp [h.1]
        · intro hc; simp at hc
        · intro x hx; exact htail x (List.mem_of_mem_tail hx)
  apply key (m0 :: ms) [] (Handler.init w0 horizon) rfl
    ⟨rfl, abs_nonneg _, MInv.nil fp _, rfl, by simp⟩
  · simpa using hok
  · intro m hm
    simp only [List.nil_append] at hm
    refine ⟨?_, hspan m hm⟩
    rcases List.mem_cons.mp hm with rfl | hm
    · exact le_rfl
    · have := hnew m hm; omega
  · left; rfl
  · intro _; rfl
  · simpa using hnew
end

end Ikf
