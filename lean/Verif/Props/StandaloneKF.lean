import Verif.Model.StandaloneKF
import Verif.Props.Convergence

/-! # Properties C30–C33: standalone filter -/

namespace Ikf
open SKF
variable {B P : Type _}

/-! ## C30 -/

/-- C30. EXACT. -/
theorem c30_exact (U : KFUser B P) (s : KFState B P) (h : s.bel.StrictKeys) (t : Int) (x : B) :
    (getBelief U s t .exact).2 = some x ↔ (t, x) ∈ s.bel := by
  have hg : (getBelief U s t .exact).2 = (s.bel.getAt t).map (·.2) := by
    unfold getBelief; split <;> rfl
  rw [hg, Option.map_eq_some_iff]
  constructor
  · rintro ⟨e, he, rfl⟩
    obtain ⟨h1, h2⟩ := (Buf.getAt_eq_some _ h t e).mp he
    rw [← h2]; exact h1
  · intro hx
    exact ⟨(t, x), (Buf.getAt_eq_some _ h t _).mpr ⟨hx, rfl⟩, rfl⟩

/-- C30. CLOSEST fails only without any belief, and otherwise returns a stored belief of minimal
distance in time, the older one if two are equally close. -/
theorem c30_closest (U : KFUser B P) (s : KFState B P) (h : s.bel.StrictKeys) (t : Int) :
    ((getBelief U s t .closest).2 = none ↔ s.bel = []) ∧
    ∀ x, (getBelief U s t .closest).2 = some x ↔
      ∃ k, (k, x) ∈ s.bel ∧ ∀ e ∈ s.bel, |t - k| ≤ |t - e.1| ∧ (|t - k| = |t - e.1| → k ≤ e.1) := by
  -- it suffices to exhibit the returned element with its optimality
  have huniq : ∀ k x k' x', ((k, x) ∈ s.bel ∧ ∀ e ∈ s.bel, |t - k| ≤ |t - e.1| ∧ (|t - k| = |t - e.1| → k ≤ e.1)) →
      ((k', x') ∈ s.bel ∧ ∀ e ∈ s.bel, |t - k'| ≤ |t - e.1| ∧ (|t - k'| = |t - e.1| → k' ≤ e.1)) → x = x' := by
    rintro k x k' x' ⟨m1, o1⟩ ⟨m2, o2⟩
    have a1 := o1 _ m2; have a2 := o2 _ m1
    have : k = k' := le_antisymm (a1.2 (le_antisymm a1.1 a2.1)) (a2.2 (le_antisymm a2.1 a1.1))
    subst this
    have e1 := (Buf.getAt_eq_some _ h k (k, x)).mpr ⟨m1, rfl⟩
    have e2 := (Buf.getAt_eq_some _ h k (k, x')).mpr ⟨m2, rfl⟩
    rw [e1] at e2; simpa using e2
  obtain ⟨hb1, hb2⟩ := c06_get_before s.bel h t
  obtain ⟨ha1, ha2⟩ := c06_get_after s.bel h t
  have main : s.bel ≠ [] → ∃ k x, (getBelief U s t .closest).2 = some x ∧
      (k, x) ∈ s.bel ∧ ∀ e ∈ s.bel, |t - k| ≤ |t - e.1| ∧ (|t - k| = |t - e.1| → k ≤ e.1) := by
    intro hne
    by_cases hat : s.bel.existAt t = true
    · obtain ⟨e, he, het⟩ := (Buf.existAt_iff _ t).mp hat
      refine ⟨t, e.2, ?_, ?_, ?_⟩
      · unfold getBelief
        rw [if_neg (by simp [hat]), (Buf.getAt_eq_some _ h t e).mpr ⟨he, het⟩]; rfl
      · rw [← het]; exact he
      · intro e' _
        constructor
        · rw [sub_self, abs_zero]; exact abs_nonneg _
        · intro hh; rw [sub_self, abs_zero] at hh
          have := abs_eq_zero.mp hh.symm; omega
    · have hno : ∀ e ∈ s.bel, e.1 ≠ t := fun e he hc => hat ((Buf.existAt_iff _ t).mpr ⟨e, he, hc⟩)
      have hun : (getBelief U s t .closest) = (match s.bel.getBefore t with
          | some p => match s.bel.getAfter t with
            | some a => if t - p.1 ≤ a.1 - t then (s, some p.2) else (s, some a.2)
            | none => (s, some p.2)
          | none => match s.bel.getAfter t with
            | some a => (s, some a.2)
            | none => (s, none)) := by
        unfold getBelief; rw [if_pos (by simpa using hat)]; rfl
      rw [hun]
      cases hB : s.bel.getBefore t with
      | none =>
        have hge := hb1.mp hB
        cases hA : s.bel.getAfter t with
        | none =>
          have hle := ha1.mp hA
          obtain ⟨x, hx⟩ := List.exists_mem_of_ne_nil _ hne
          have := hge x hx; have := hle x hx
          exact absurd (by omega) (hno x hx)
        | some a =>
          obtain ⟨a1, a2, a3⟩ := (ha2 a).mp hA
          refine ⟨a.1, a.2, rfl, a1, ?_⟩
          intro e he
          have h1 := hge e he; have h2 := hno e he
          have := a3 e he (by omega)
          rw [abs_of_neg (by omega), abs_of_neg (by omega)]
          constructor <;> [omega; (intro _; omega)]
      | some p =>
        obtain ⟨p1, p2, p3⟩ := (hb2 p).mp hB
        cases hA : s.bel.getAfter t with
        | none =>
          have hle := ha1.mp hA
          refine ⟨p.1, p.2, rfl, p1, ?_⟩
          intro e he
          have h1 := hle e he; have h2 := hno e he
          have := p3 e he (by omega)
          rw [abs_of_pos (by omega), abs_of_pos (by omega)]
          constructor <;> [omega; (intro _; omega)]
        | some a =>
          obtain ⟨a1, a2, a3⟩ := (ha2 a).mp hA
          simp only
          have habs : |t - p.1| = t - p.1 ∧ |t - a.1| = a.1 - t := by
            constructor
            · exact abs_of_pos (by omega)
            · rw [abs_of_neg (by omega)]; omega
          split
          · refine ⟨p.1, p.2, rfl, p1, ?_⟩
            intro e he
            rw [habs.1]
            rcases lt_or_gt_of_ne (hno e he) with h1 | h1
            · have := p3 e he h1
              rw [abs_of_pos (by omega)]; constructor <;> [omega; (intro _; omega)]
            · have := a3 e he h1
              rw [abs_of_neg (by omega)]; constructor <;> [omega; (intro _; omega)]
          · refine ⟨a.1, a.2, rfl, a1, ?_⟩
            intro e he
            rw [habs.2]
            rcases lt_or_gt_of_ne (hno e he) with h1 | h1
            · have := p3 e he h1
              rw [abs_of_pos (by omega)]; constructor <;> [omega; (intro _; omega)]
            · have := a3 e he h1
              rw [abs_of_neg (by omega)]; constructor <;> [omega; (intro _; omega)]
  constructor
  · constructor
    · intro hn
      by_contra hne
      obtain ⟨k, x, hx, _⟩ := main hne
      rw [hn] at hx; simp at hx
    · intro he
      unfold getBelief
      rw [he]; simp [Buf.existAt, Buf.getBefore, Buf.getAfter, Buf.lowerBound, Buf.upperBound]
  · intro x
    constructor
    · intro hx
      have hne : s.bel ≠ [] := by
        intro he
        unfold getBelief at hx
        rw [he] at hx; simp [Buf.existAt, Buf.getBefore, Buf.getAfter, Buf.lowerBound, Buf.upperBound] at hx
      obtain ⟨k, y, hy, hk⟩ := main hne
      rw [hx] at hy; simp at hy; subst hy
      exact ⟨k, hk⟩
    · rintro ⟨k, hk⟩
      obtain ⟨k', y, hy, hk'⟩ := main (List.ne_nil_of_mem hk.1)
      rw [hy, huniq k x k' y hk hk']

/-- C30. Only PREDICT, and only where no belief is stored at `t`, may change the history. -/
theorem c30_no_change (U : KFUser B P) (s : KFState B P) (t : Int) (ty : GetBelief)
    (h : ty ≠ .predict ∨ ∃ e ∈ s.bel, e.1 = t) : (getBelief U s t ty).1 = s := by
  unfold getBelief
  split
  · rename_i hno
    cases ty with
    | exact => rfl
    | closest => simp only; split <;> split <;> (try split) <;> rfl
    | predict =>
      rcases h with h | h
      · exact absurd rfl h
      · rw [← Buf.existAt_iff] at h; rw [h] at hno; simp at hno
  · rfl

example : ∃ s : KFState Char Unit, s.bel.StrictKeys ∧ s.bel ≠ [] ∧
    (getBelief ⟨fun b _ => (b, .processed), fun b _ => (b, .processed), fun b _ => (b, false)⟩ s 6 .closest).2 = some 'a'
    ∧ (getBelief ⟨fun b _ => (b, .processed), fun b _ => (b, .processed), fun b _ => (b, false)⟩ s 7 .closest).2 = some 'b' :=
  ⟨⟨[(4, 'a'), (8, 'b')], [], 1, 1, true⟩, by simp [Buf.StrictKeys], by simp, by decide, by decide⟩

/-! ## C31 -/

/-- C31. After `initialize` exactly the given belief is stored; `current_belief`, `current_t` return
it; measurements, horizons and delay handling are kept. -/
theorem c31_initialize (s : KFState B P) (b : B) (t : Int) :
    (doInit s b t).bel = [(t, b)] ∧
    currentBelief (doInit s b t) = some b ∧ currentT (doInit s b t) = t ∧
    (doInit s b t).meas = s.meas ∧ (doInit s b t).delayed = s.delayed ∧
    (doInit s b t).hMeas = s.hMeas ∧ (doInit s b t).hBel = s.hBel ∧
    (∀ (U : KFUser B P) (t' : Int) (x : B),
      (getBelief U (doInit s b t) t' .exact).2 = some x ↔ t' = t ∧ x = b) := by
  have hb : (doInit s b t).bel = [(t, b)] := rfl
  refine ⟨hb, rfl, rfl, rfl, rfl, rfl, rfl, ?_⟩
  intro U t' x
  rw [c30_exact U _ (by rw [hb]; simp [Buf.StrictKeys]), hb]
  simp

/-- C31. Without any belief there is no current belief. -/
theorem c31_no_belief (s : KFState B P) : currentBelief (reset s) = none ∧ currentT (reset s) = 0 := ⟨rfl, rfl⟩

/-- C31. With several beliefs, the current one is the newest. -/
theorem c31_current_is_newest (s : KFState B P) (h : s.bel.StrictKeys) (x : B) :
    currentBelief s = some x ↔ (currentT s, x) ∈ s.bel ∧ ∀ e ∈ s.bel, e.1 ≤ currentT s := by
  unfold currentBelief currentT
  by_cases hne : s.bel = []
  · rw [hne]; simp
  obtain ⟨_, l, _, hl⟩ := head_last_of_ne s.bel hne
  have hlat : s.bel.latest = some l := hl
  have hlen : s.bel.length ≠ 0 := by simpa using hne
  rw [if_pos hlen, if_pos hlen, hlat]
  simp only [Option.map_some, Option.some.injEq, Option.getD_some]
  constructor
  · rintro rfl
    exact ⟨List.mem_of_getLast? hl, h.sorted.le_getLast hl⟩
  · rintro ⟨hm, _⟩
    have e1 := (Buf.getAt_eq_some _ h l.1 (l.1, x)).mpr ⟨hm, rfl⟩
    have e2 := (Buf.getAt_eq_some _ h l.1 l).mpr ⟨List.mem_of_getLast? hl, rfl⟩
    rw [e1] at e2; simp at e2; rw [← e2]

example : (doInit (⟨[(3, 'x'), (9, 'y')], [], 1, 1, true⟩ : KFState Char Unit) 'z' 5).bel = [(5, 'z')] := by decide

/-! ## C32 -/

theorem redoAfter_frame' (U : KFUser B P) (s : KFState B P) (t : Int) :
    (SKF.redoAfter U s t).1.meas = s.meas ∧ (SKF.redoAfter U s t).1.delayed = s.delayed ∧
    (SKF.redoAfter U s t).1.hMeas = s.hMeas := by
  unfold SKF.redoAfter; simp only; split <;> simp

/-- What one call does to the stored measurements. -/
theorem skf_process_meas (fp : FP) (U : KFUser B P) (s : KFState B P) (m : Meas P) :
    (SKF.process fp U s m).1.delayed = s.delayed ∧ (SKF.process fp U s m).1.hMeas = s.hMeas ∧
    (SKF.process fp U s m).1.meas =
      if s.delayed = true ∧ (SKF.process fp U s m).2.head? ≠ some .discarded
      then insertTrim fp s.hMeas s.meas (m.t, m) else s.meas := by
  have key : ∀ (q : KFState B P × List Status) (st : Status),
      q.1.meas = s.meas → q.1.delayed = s.delayed → q.1.hMeas = s.hMeas → s.delayed = true →
      ∀ r : KFState B P × List Status,
      r = (if st ≠ .discarded then
        let s2 := SKF.insertMeas q.1 m
        ({ s2 with meas := Buf.checkHorizon fp s2.hMeas s2.meas }, st :: q.2)
        else (q.1, st :: q.2)) →
      r.1.delayed = s.delayed ∧ r.1.hMeas = s.hMeas ∧ r.1.meas =
        if s.delayed = true ∧ r.2.head? ≠ some .discarded
        then insertTrim fp s.hMeas s.meas (m.t, m) else s.meas := by
    intro q st q1 q2 q3 hd r hr
    by_cases hs : st = .discarded
    · rw [if_neg (by simp [hs])] at hr
      subst hr
      refine ⟨q2, q3, ?_⟩
      rw [if_neg (by simp [hs])]; exact q1
    · rw [if_pos hs] at hr
      have hq : q.1.delayed = true := by rw [q2, hd]
      have : SKF.insertMeas q.1 m = { q.1 with meas := q.1.meas.insertMulti m.t m } := by
        unfold SKF.insertMeas; rw [if_pos hq]
      rw [this] at hr
      subst hr
      refine ⟨q2, q3, ?_⟩
      rw [if_pos (by simp [hs, hd])]
      simp only [q1, q3]; rfl
  by_cases hd : s.delayed = true
  · apply key (if (SKF.delegate U s.bel m).2 = .outOfOrder ∧ s.meas.existAfter m.t = true
          then SKF.redoAfter U { s with bel := (SKF.delegate U s.bel m).1 } m.t
          else ({ s with bel := (SKF.delegate U s.bel m).1 }, [])) (SKF.delegate U s.bel m).2 _ _ _ hd
    · unfold SKF.process
      simp only
      rw [if_pos hd]
    · split
      · exact (redoAfter_frame' U { s with bel := (SKF.delegate U s.bel m).1 } m.t).1
      · rfl
    · split
      · exact (redoAfter_frame' U { s with bel := (SKF.delegate U s.bel m).1 } m.t).2.1
      · rfl
    · split
      · exact (redoAfter_frame' U { s with bel := (SKF.delegate U s.bel m).1 } m.t).2.2
      · rfl
  · have : SKF.process fp U s m =
        ({ s with bel := (SKF.delegate U s.bel m).1 }, [(SKF.delegate U s.bel m).2]) := by
      unfold SKF.process; simp only; rw [if_neg hd]
    rw [this]
    refine ⟨rfl, rfl, ?_⟩
    rw [if_neg (fun h => hd h.1)]

/-- The measurements of a stream that the filter did not discard (first result of each call). -/
def notDiscarded (fp : FP) (U : KFUser B P) (s : KFState B P) : List (Meas P) → List (Meas P)
  | [] => []
  | m :: ms =>
    if (SKF.process fp U s m).2.head? = some .discarded then notDiscarded fp U (SKF.process fp U s m).1 ms
    else m :: notDiscarded fp U (SKF.process fp U s m).1 ms

theorem skf_stream (fp : FP) (U : KFUser B P) (ms : List (Meas P)) (s : KFState B P) (hd : s.delayed = true) :
    (ms.foldl (fun s m => (SKF.process fp U s m).1) s).meas =
      ((notDiscarded fp U s ms).map (fun m => (m.t, m))).foldl (insertTrim fp s.hMeas) s.meas := by
  induction ms generalizing s with
  | nil => rfl
  | cons m ms ih =>
    obtain ⟨h1, h2, h3⟩ := skf_process_meas fp U s m
    simp only [List.foldl_cons]
    rw [ih _ (by rw [h1]; exact hd), h2, h3]
    by_cases hs : (SKF.process fp U s m).2.head? = some .discarded
    · have : notDiscarded fp U s (m :: ms) = notDiscarded fp U (SKF.process fp U s m).1 ms := if_pos hs
      rw [this, if_neg (by simp [hs])]
    · have : notDiscarded fp U s (m :: ms) = m :: notDiscarded fp U (SKF.process fp U s m).1 ms := if_neg hs
      rw [this, if_pos ⟨hd, hs⟩]; rfl

/-- Trimming keeps or drops whole stamps. -/
theorem group_checkHorizon {α : Type _} (fp : FP) (max : ℚ) (b : Buf α) (hs : b.SortedKeys) (k : Int) :
    (Buf.checkHorizon fp max b).filter (fun e => e.1 == k) = b.filter (fun e => e.1 == k) ∨
    (Buf.checkHorizon fp max b).filter (fun e => e.1 == k) = [] := by
  obtain ⟨X, h1, h2, _⟩ := checkHorizon_split fp max b hs
  by_cases hx : ∃ x ∈ X, x.1 = k
  · right
    obtain ⟨x, hx, hxk⟩ := hx
    rw [List.filter_eq_nil_iff]
    intro e he
    have := h2 x hx e he
    simp; omega
  · left
    conv_rhs => rw [h1, List.filter_append]
    have : X.filter (fun e => e.1 == k) = [] := by
      rw [List.filter_eq_nil_iff]
      intro e he hc
      exact hx ⟨e, he, by simpa using hc⟩
    rw [this, List.nil_append]

theorem insertTrim_groups {α : Type _} (fp : FP) (max : ℚ) (hm0 : 1/100000 ≤ max) (hm1 : max ≤ 8589934592)
    (ms : List (Int × α)) (hk : ∀ e ∈ ms, 0 ≤ e.1 ∧ e.1 ≤ 8589934590000000000) (k : Int) :
    ((ms.foldl (insertTrim fp max) []).filter (fun e => e.1 == k)) <:+ (ms.filter (fun e => e.1 == k)) ∧
    ((∀ e ∈ ms, ((e.1 - k : ℤ) : ℚ) / 1000000000 ≤ max - 1/100000) →
      (ms.foldl (insertTrim fp max) []).filter (fun e => e.1 == k) = ms.filter (fun e => e.1 == k)) := by
  induction ms using List.reverseRecOn with
  | nil => simp
  | append_singleton ms m ih =>
    obtain ⟨i1, i2⟩ := ih (fun e he => hk e (by simp [he]))
    obtain ⟨p1, p2, _, _⟩ := foldl_insertTrim fp max ms [] List.Pairwise.nil
    rw [List.foldl_append]
    simp only [List.foldl_cons, List.foldl_nil]
    set b := ms.foldl (insertTrim fp max) [] with hb
    have hs1 := Buf.sorted_insertMulti b p1 m.1 m.2
    have hg := Buf.filter_key_insertMulti b p1 m.1 m.2 k
    have hkb : ∀ x ∈ Buf.insertMulti b m.1 m.2, x ∈ ms ++ [m] := by
      intro x hx
      rw [Buf.mem_insertMulti] at hx
      rcases hx with rfl | hx
      · simp
      · rcases p2 x hx with h | h
        · simp at h
        · simp [h]
    have hgm : (ms ++ [m]).filter (fun e => e.1 == k) =
        ms.filter (fun e => e.1 == k) ++ (if m.1 = k then [m] else []) := by
      rw [List.filter_append]
      congr 1
      by_cases hmk : m.1 = k <;> simp [hmk]
    have hsuf : (Buf.insertMulti b m.1 m.2).filter (fun e => e.1 == k) <:+
        (ms ++ [m]).filter (fun e => e.1 == k) := by
      rw [hg, hgm]
      obtain ⟨r, hr⟩ := i1
      exact ⟨r, by rw [← hr, List.append_assoc]⟩
    constructor
    · unfold insertTrim
      rcases group_checkHorizon fp max _ hs1 k with h | h
      · rw [h]; exact hsuf
      · rw [h]; exact List.nil_suffix
    · intro hin
      have hfull : (Buf.insertMulti b m.1 m.2).filter (fun e => e.1 == k) =
          (ms ++ [m]).filter (fun e => e.1 == k) := by
        rw [hg, hgm, i2 (fun e he => hin e (by simp [he]))]
      unfold insertTrim
      rcases group_checkHorizon fp max _ hs1 k with h | h
      · rw [h]; exact hfull
      · -- an element of this stamp is inside the horizon, hence kept
        by_cases hne : (Buf.insertMulti b m.1 m.2).filter (fun e => e.1 == k) = []
        · rw [h, ← hfull, hne]
        · exfalso
          obtain ⟨x, hx⟩ := List.exists_mem_of_ne_nil _ hne
          have hx' := List.mem_filter.mp hx
          have hxk : x.1 = k := by simpa using hx'.2
          obtain ⟨_, l, _, hl⟩ := head_last_of_ne _ (List.ne_nil_of_mem hx'.1)
          have hlm := hkb l (List.mem_of_getLast? hl)
          have := (c15_span fp max _ hs1 hm0 hm1 (fun e he => hk e (hkb e he)) l hl).2 x hx'.1
            (by rw [hxk]; exact hin l hlm)
          have hc : x ∈ (Buf.checkHorizon fp max (Buf.insertMulti b m.1 m.2)).filter (fun e => e.1 == k) :=
            List.mem_filter.mpr ⟨this, by simp [hxk]⟩
          rw [h] at hc; simp at hc

/-- C32. Any stream into a new filter with delay handling, any user filter: the store is sorted by
time; per stamp it holds, in arrival order, a last part of the measurements that were not discarded,
and all of them for stamps inside the horizon of the newest (10 µs margin for the arithmetic in
double seconds). -/
theorem c32_stored (fp : FP) (U : KFUser B P) (horizon : ℚ) (hm0 : 1/100000 ≤ |horizon|)
    (hm1 : |horizon| ≤ 8589934592) (ms : List (Meas P)) (hk : ∀ m ∈ ms, 0 ≤ m.t ∧ m.t ≤ 8589934590000000000) :
    let st := (ms.foldl (fun s m => (SKF.process fp U s m).1) (SKF.new horizon true)).meas
    let A := notDiscarded fp U (SKF.new horizon true) ms
    A.Sublist ms ∧
    st.Pairwise (fun x y => x.1 ≤ y.1) ∧ (∀ e ∈ st, e.1 = e.2.t ∧ e.2 ∈ A) ∧
    (∀ k, (Buf.getAllAt st k) <:+ A.filter (fun m => m.t == k)) ∧
    (∀ k, (∀ m ∈ A, ((m.t - k : ℤ) : ℚ) / 1000000000 ≤ |horizon| - 1/100000) →
      Buf.getAllAt st k = A.filter (fun m => m.t == k)) ∧
    (∀ e ∈ st, ∀ m ∈ A, ((m.t - e.1 : ℤ) : ℚ) / 1000000000 ≤ |horizon| + 1/100000) := by
  intro st A
  have hst : st = (A.map (fun m => (m.t, m))).foldl (insertTrim fp |horizon|) [] :=
    skf_stream fp U ms (SKF.new horizon true) rfl
  have hsub : A.Sublist ms := by
    have : ∀ (ms : List (Meas P)) (s : KFState B P), (notDiscarded fp U s ms).Sublist ms := by
      intro ms
      induction ms with
      | nil => intro s; exact List.Sublist.refl _
      | cons m ms ih =>
        intro s
        unfold notDiscarded
        split
        · exact (ih _).cons _
        · exact (ih _).cons_cons _
    exact this ms _
  have hkA : ∀ e ∈ A.map (fun m => (m.t, m)), 0 ≤ e.1 ∧ e.1 ≤ 8589934590000000000 := by
    intro e he
    obtain ⟨m, hm, rfl⟩ := List.mem_map.mp he
    exact hk m (hsub.subset hm)
  obtain ⟨p1, p2, _, _⟩ := foldl_insertTrim fp |horizon| (A.map (fun m => (m.t, m))) [] List.Pairwise.nil
  rw [← hst] at p1 p2
  have hmem : ∀ e ∈ st, e.1 = e.2.t ∧ e.2 ∈ A := by
    intro e he
    rcases p2 e he with h | h
    · simp at h
    · obtain ⟨m, hm, rfl⟩ := List.mem_map.mp h; exact ⟨rfl, hm⟩
  have hget : ∀ k, Buf.getAllAt st k = (st.filter (fun e => e.1 == k)).map (·.2) := by
    intro k
    unfold Buf.getAllAt
    split
    · rfl
    · rename_i hno
      symm; rw [List.map_eq_nil_iff, List.filter_eq_nil_iff]
      intro e he hc
      exact hno ((Buf.existAt_iff _ k).mpr ⟨e, he, by simpa using hc⟩)
  have hAk : ∀ k, ((A.map (fun m => (m.t, m))).filter (fun e => e.1 == k)).map (·.2) = A.filter (fun m => m.t == k) := by
    intro k
    rw [List.filter_map, List.map_map]
    simp [Function.comp_def]
  have hg := insertTrim_groups fp |horizon| hm0 hm1 (A.map (fun m => (m.t, m))) hkA
  rw [← hst] at hg
  refine ⟨hsub, p1, hmem, ?_, ?_, ?_⟩
  · intro k
    rw [hget, ← hAk]
    exact (hg k).1.map _
  · intro k hin
    rw [hget, ← hAk, (hg k).2]
    intro e he
    obtain ⟨m, hm, rfl⟩ := List.mem_map.mp he
    exact hin m hm
  · intro e he m hm
    have hne : A.map (fun m => (m.t, m)) ≠ [] := List.ne_nil_of_mem (List.mem_map.mpr ⟨m, hm, rfl⟩)
    obtain ⟨l, hl1, hl2, _, _, hl5⟩ := c15_stream fp |horizon| hm0 hm1 _ hne hkA
    rw [← hst] at hl5
    have h1 := (hl5 e he).2
    have h2 := hl2 (m.t, m) (List.mem_map.mpr ⟨m, hm, rfl⟩)
    have h3 : ((m.t - e.1 : ℤ) : ℚ) ≤ ((l.1 - e.1 : ℤ) : ℚ) := by exact_mod_cast (by simp at h2; omega)
    have : ((m.t - e.1 : ℤ) : ℚ) / 1000000000 ≤ ((l.1 - e.1 : ℤ) : ℚ) / 1000000000 := by
      apply div_le_div_of_nonneg_right h3; norm_num
    linarith

/-- C32. Without delay handling nothing is ever stored, and switching it off empties the store. -/
theorem c32_off (fp : FP) (U : KFUser B P) (s : KFState B P) (ms : List (Meas P)) :
    (ms.foldl (fun s m => (SKF.process fp U s m).1) (setDelayed s false)).meas = [] := by
  have : ∀ (ms : List (Meas P)) (s : KFState B P), s.delayed = false → s.meas = [] →
      (ms.foldl (fun s m => (SKF.process fp U s m).1) s).meas = [] := by
    intro ms
    induction ms with
    | nil => intro s _ h; exact h
    | cons m ms ih =>
      intro s hd hm
      obtain ⟨h1, _, h3⟩ := skf_process_meas fp U s m
      apply ih
      · rw [h1]; exact hd
      · rw [h3, if_neg (by simp [hd])]; exact hm
  exact this ms _ rfl rfl

/-! ## C33 -/

/-- Delegate a list of measurements in order. -/
def skfRun (U : KFUser B P) (b : Buf B) : List (Meas P) → Buf B × List Status
  | [] => (b, [])
  | m :: L => ((skfRun U (SKF.delegate U b m).1 L).1,
      (SKF.delegate U b m).2 :: (skfRun U (SKF.delegate U b m).1 L).2)

theorem skf_foldl (U : KFUser B P) (L : List (Meas P)) (b : Buf B) (rs : List Status) :
    L.foldl (SKF.redoStep U) (b, rs) = ((skfRun U b L).1, rs ++ (skfRun U b L).2) := by
  induction L generalizing b rs with
  | nil => simp [skfRun]
  | cons m L ih => simp [SKF.redoStep, skfRun, ih]

/-- The intended meaning of `redo_updates_after_t`: remove the beliefs after `t`, then delegate all
stored measurements after `t` once in order. -/
def RedoAfterCorrect (U : KFUser B P) (s : KFState B P) (t : Int) : Prop :=
  (SKF.redoAfter U s t).1.meas = s.meas ∧
  ((SKF.redoAfter U s t).1.bel, (SKF.redoAfter U s t).2) =
    skfRun U (s.bel.filter (fun e => decide (e.1 ≤ t))) ((s.meas.filter (fun e => decide (t < e.1))).map (·.2))

/-- C33, as far as it holds: unless two or more measurements are stored at a single stamp after `t`. -/
theorem c33_redo_after_partial (U : KFUser B P) (s : KFState B P) (hb : s.bel.SortedKeys)
    (hs : s.meas.SortedKeys) (t : Int)
    (hc : (∀ x ∈ s.meas, ∀ y ∈ s.meas, t < x.1 → t < y.1 → x.1 = y.1) →
      (s.meas.filter (fun e => decide (t < e.1))).length ≤ 1) : RedoAfterCorrect U s t := by
  refine ⟨(redoAfter_frame' U s t).1, ?_⟩
  unfold SKF.redoAfter
  simp only
  rw [Buf.removeAfter_eq _ hb]
  split
  · rename_i a l ha hl
    have hle := hs.le_getLast hl
    have ha' := ha
    rw [Buf.getAfter_eq _ hs] at ha'
    have hafter := Buf.SortedKeys.head_le (hs.filter _) ha'
    have ham := List.mem_filter.mp (List.mem_of_head? ha')
    have hat : t < a.1 := by simpa using ham.2
    have hms : (if a.1 == l.1 then (s.meas.getAt a.1).toList.map (·.2) else s.meas.visitMulti a.1 l.1) =
        (s.meas.filter (fun e => decide (t < e.1))).map (·.2) := by
      rw [← Handler.redoAfter_list s.meas hs t a l ha hl]
      by_cases hal : a.1 = l.1
      · rw [if_pos (by simp [hal]), if_pos (by simp [hal]),
          ]
        have hsame : ∀ x ∈ s.meas, t < x.1 → x.1 = a.1 := by
          intro x hx htx
          have h1 := hafter x (List.mem_filter.mpr ⟨hx, by simpa using htx⟩)
          have h2 := hle x hx
          omega
        have h1 := hc (fun x hx y hy htx hty => by rw [hsame x hx htx, hsame y hy hty])
        have heq : s.meas.filter (fun e => e.1 == a.1) = s.meas.filter (fun e => decide (t < e.1)) := by
          apply List.filter_congr
          intro e he
          rw [Bool.eq_iff_iff]; simp
          constructor
          · intro h; omega
          · intro h; exact hsame e he h
        have hone : s.meas.filter (fun e => decide (t < e.1)) = [a] := by
          cases hf : s.meas.filter (fun e => decide (t < e.1)) with
          | nil => rw [hf] at ha'; simp at ha'
          | cons x r =>
            rw [hf] at ha' h1; simp at ha'; subst ha'
            cases r with
            | nil => rfl
            | cons _ _ => simp at h1
        have hget : s.meas.getAt a.1 = some a := by
          unfold Buf.getAt
          rw [← List.head?_filter, heq, hone]; rfl
        unfold Buf.getAllAt
        rw [if_pos ((Buf.existAt_iff _ _).mpr ⟨a, ham.1, rfl⟩), hget]
        unfold Buf.equalRange
        rw [heq, hone]; rfl
      · rw [if_neg (by simp [hal]), if_neg (by simp [hal])]
    rw [hms, skf_foldl]; simp
  · rename_i hno
    have : s.meas.filter (fun e => decide (t < e.1)) = [] := by
      by_contra hne
      obtain ⟨a, _, ha, _⟩ := head_last_of_ne _ hne
      have hm : s.meas ≠ [] := List.ne_nil_of_mem (List.mem_filter.mp (List.mem_of_head? ha)).1
      obtain ⟨_, l, _, hl⟩ := head_last_of_ne s.meas hm
      exact hno a l (by rw [Buf.getAfter_eq _ hs]; exact ha) hl
    rw [this]; rfl

/-- C33 fails otherwise: with all measurements after `t` at one stamp, only the first is
re-processed. -/
theorem c33_redo_after_fails (U : KFUser B P) (s : KFState B P) (hb : s.bel.SortedKeys)
    (hs : s.meas.SortedKeys) (t k : Int) (e : Int × Meas P) (r : Buf (Meas P))
    (hf : s.meas.filter (fun e => decide (t < e.1)) = e :: r) (hr : r ≠ [])
    (hk : ∀ x ∈ e :: r, x.1 = k) :
    ((SKF.redoAfter U s t).1.bel, (SKF.redoAfter U s t).2) =
      skfRun U (s.bel.filter (fun e => decide (e.1 ≤ t))) [e.2] ∧ ¬ RedoAfterCorrect U s t := by
  have ha : s.meas.getAfter t = some e := by rw [Buf.getAfter_eq _ hs, hf]; rfl
  have hem : e ∈ s.meas.filter (fun e => decide (t < e.1)) := by rw [hf]; simp
  have hne : s.meas ≠ [] := List.ne_nil_of_mem (List.mem_filter.mp hem).1
  obtain ⟨_, l, _, hl⟩ := head_last_of_ne s.meas hne
  have hlat : s.meas.latest = some l := hl
  have hte : t < e.1 := by simpa using (List.mem_filter.mp hem).2
  have hle := hs.le_getLast hl
  have hlk : l.1 = k := by
    have h1 := hle e (List.mem_filter.mp hem).1
    have : l ∈ s.meas.filter (fun e => decide (t < e.1)) :=
      List.mem_filter.mpr ⟨List.mem_of_getLast? hl, by simp; omega⟩
    rw [hf] at this
    exact hk l this
  have hek : e.1 = k := hk e (by simp)
  have hget : s.meas.getAt e.1 = some e := by
    unfold Buf.getAt
    rw [← List.head?_filter]
    have : s.meas.filter (fun x => x.1 == e.1) = s.meas.filter (fun x => decide (t < x.1)) := by
      apply List.filter_congr
      intro x hx
      rw [Bool.eq_iff_iff]; simp
      constructor
      · intro h; omega
      · intro h
        have : x ∈ s.meas.filter (fun e => decide (t < e.1)) := List.mem_filter.mpr ⟨hx, by simpa using h⟩
        rw [hf] at this
        rw [hk x this, hek]
    rw [this, hf]; rfl
  have h1 : ((SKF.redoAfter U s t).1.bel, (SKF.redoAfter U s t).2) =
      skfRun U (s.bel.filter (fun e => decide (e.1 ≤ t))) [e.2] := by
    unfold SKF.redoAfter
    simp only [ha, hlat]
    rw [if_pos (by simp [hek, hlk]), hget, Buf.removeAfter_eq _ hb, ]
    simp only [Option.toList_some, List.map_cons, List.map_nil]
    rw [skf_foldl]; simp
  refine ⟨h1, ?_⟩
  rintro ⟨_, h2⟩
  rw [h1] at h2
  have h3 := congrArg (fun x => x.2.length) h2
  have hlen : ∀ (L : List (Meas P)) (b : Buf B), (skfRun U b L).2.length = L.length := by
    intro L
    induction L with
    | nil => intro b; rfl
    | cons m L ih => intro b; simp [skfRun, ih]
  simp only [hlen, List.length_map] at h3
  rw [hf] at h3
  simp at h3
  exact hr h3

/-- A store meeting each hypothesis. -/
example : ∃ s : KFState Char Unit, s.meas.SortedKeys ∧
    s.meas.filter (fun e => decide ((4:Int) < e.1)) =
      (5, ⟨1, 5, .propagation, ()⟩) :: [(5, ⟨1, 5, .priv, ()⟩)] :=
  ⟨⟨[], [(3, ⟨1, 3, .propagation, ()⟩), (5, ⟨1, 5, .propagation, ()⟩), (5, ⟨1, 5, .priv, ()⟩)], 1, 1, true⟩,
    by simp [Buf.SortedKeys], by decide⟩
example : ∃ s : KFState Char Unit, s.meas.SortedKeys ∧
    ((∀ x ∈ s.meas, ∀ y ∈ s.meas, (2:Int) < x.1 → 2 < y.1 → x.1 = y.1) →
      (s.meas.filter (fun e => decide ((2:Int) < e.1))).length ≤ 1) ∧
    2 ≤ (s.meas.filter (fun e => decide ((2:Int) < e.1))).length := by
  refine ⟨⟨[], [(3, ⟨1, 3, .propagation, ()⟩), (5, ⟨1, 5, .priv, ()⟩)], 1, 1, true⟩,
    by simp [Buf.SortedKeys], ?_, by decide⟩
  intro h
  have := h (3, ⟨1, 3, .propagation, ()⟩) (by simp) (5, ⟨1, 5, .priv, ()⟩) (by simp) (by decide) (by decide)
  simp at this

end Ikf
