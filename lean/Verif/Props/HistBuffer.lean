import Verif.Lemmas.BufferMap

/-! # Properties C05-C11: THistoryBuffer (ordered map of time to value) -/

namespace Ikf
open Buf
variable {α : Type _}

/-! ## Specification: a finite map from stamps to values, without any list or iterator -/

/-- Mutating operations of the buffer. -/
inductive MapOp (α : Type _) where
  | insert (t : Int) (v : α)
  | removeAt (t : Int)
  | removeBefore (t : Int)
  | removeAfter (t : Int)
  | removeEvery (N : Nat)
  | subsample (N : Nat)
  | clear

/-- Number of stored stamps before `k`. -/
noncomputable def specRank (f : Int → Option α) (k : Int) : Nat :=
  {j : Int | j < k ∧ (f j).isSome = true}.ncard

open Classical in
/-- Effect of an operation on the abstract map. `removeBefore` records the actual (C09) behaviour:
nothing happens if everything is older than `t`. -/
noncomputable def specStep (f : Int → Option α) : MapOp α → (Int → Option α)
  | .insert t v => fun k => if k = t then some v else f k
  | .removeAt t => fun k => if k = t then none else f k
  | .removeBefore t => fun k => if (∃ j, t ≤ j ∧ (f j).isSome = true) ∧ k < t then none else f k
  | .removeAfter t => fun k => if t < k then none else f k
  | .removeEvery N => fun k => if specRank f k % N = 0 then none else f k
  | .subsample N => fun k => if specRank f k % N = 0 then f k else none
  | .clear => fun _ => none

/-- The model's step; `none` is undefined behaviour. -/
def mapStep (b : Buf α) : MapOp α → Option (Buf α)
  | .insert t v => some (b.insertMap t v)
  | .removeAt t => some (b.removeAt t)
  | .removeBefore t => some (b.removeBefore t)
  | .removeAfter t => some (b.removeAfter t)
  | .removeEvery N => b.removeEvery N
  | .subsample N => b.subsample N
  | .clear => some []

/-- Run a history of operations. -/
def mapRun (b : Buf α) : List (MapOp α) → Option (Buf α)
  | [] => some b
  | op :: ops => (mapStep b op).bind (fun b' => mapRun b' ops)

theorem mapStep_refines (b b' : Buf α) (h : b.StrictKeys) (op : MapOp α)
    (hs : mapStep b op = some b') : b'.StrictKeys ∧ b'.absMap = specStep b.absMap op := by
  classical
  cases op with
  | insert t v =>
    simp [mapStep] at hs; subst hs
    have hst := strict_insertMap b h t v
    refine ⟨hst, absMap_ext _ hst _ ?_⟩
    intro k w
    rw [mem_insertMap b h]
    simp only [specStep]
    by_cases hk : k = t
    · subst hk; simp; exact eq_comm
    · simp [hk, absMap_eq_some b h]
  | removeAt t =>
    simp [mapStep] at hs; subst hs
    refine ⟨h.filter _, absMap_ext _ (h.filter _) _ ?_⟩
    intro k w
    simp only [specStep]
    rw [List.mem_filter]
    by_cases hk : k = t
    · simp [hk]
    · simp [hk, absMap_eq_some b h]
  | removeBefore t =>
    simp [mapStep] at hs; subst hs
    have hst : (b.removeBefore t).StrictKeys := by
      rw [removeBefore_eq b h.sorted]; split
      · exact h.filter _
      · exact h
    refine ⟨hst, absMap_ext _ hst _ ?_⟩
    intro k w
    rw [removeBefore_eq b h.sorted]
    simp only [specStep]
    have he : (∃ j, t ≤ j ∧ (b.absMap j).isSome = true) ↔ ∃ e ∈ b, t ≤ e.1 := by
      simp only [absMap_isSome b h]
      constructor
      · rintro ⟨j, hj, e, he, rfl⟩; exact ⟨e, he, hj⟩
      · rintro ⟨e, he, hj⟩; exact ⟨e.1, hj, e, he, rfl⟩
    simp only [he]
    split
    · rename_i hex
      rw [List.mem_filter]
      by_cases hk : k < t
      · rw [if_pos ⟨hex, hk⟩]; simp; intro _; omega
      · rw [if_neg (by tauto), absMap_eq_some b h]
        simp; intro _; omega
    · rename_i hex
      rw [if_neg (fun hc => hex hc.1), absMap_eq_some b h]
  | removeAfter t =>
    simp [mapStep] at hs; subst hs
    rw [removeAfter_eq b h.sorted]
    refine ⟨h.filter _, absMap_ext _ (h.filter _) _ ?_⟩
    intro k w
    simp only [specStep]
    rw [List.mem_filter]
    by_cases hk : t < k
    · simp [hk]
    · simp [hk, absMap_eq_some b h]; intro _; omega
  | removeEvery N =>
    simp only [mapStep, removeEvery] at hs
    rcases Nat.eq_zero_or_pos N with rfl | hN
    · cases b with
      | nil =>
        simp [removeEveryLoop] at hs; subst hs
        refine ⟨h, ?_⟩; funext k; simp [specStep, absMap, getAt]
      | cons e r => simp [removeEveryLoop] at hs
    · rw [removeEveryLoop_eq N hN] at hs
      simp only [Option.some.injEq] at hs
      subst hs
      have hst : StrictKeys (((b.zipIdx 0).filter (fun p => decide (p.2 % N ≠ 0))).map (·.1)) :=
        List.Pairwise.sublist (posFilter_sublist b 0 _) h
      refine ⟨hst, absMap_ext _ hst _ ?_⟩
      intro k w
      rw [mem_posFilter b (fun i => decide (i % N ≠ 0))]
      simp only [specStep]
      constructor
      · rintro ⟨i, hi, hp⟩
        have hr : specRank b.absMap k = i := rank_eq b h i (k, w) hi
        rw [hr, if_neg (by simpa using hp), absMap_eq_some b h]
        exact List.mem_of_getElem? hi
      · intro hk
        split at hk
        · simp at hk
        · rename_i hne
          have hm := (absMap_eq_some b h k w).mp hk
          obtain ⟨i, hi⟩ := List.mem_iff_getElem?.mp hm
          refine ⟨i, hi, ?_⟩
          have hr : specRank b.absMap k = i := rank_eq b h i (k, w) hi
          rw [← hr]; simpa using hne
  | subsample N =>
    simp only [mapStep, Buf.subsample] at hs
    rcases Nat.eq_zero_or_pos N with rfl | hN
    · cases b with
      | nil =>
        simp [subsampleLoop] at hs; subst hs
        refine ⟨h, ?_⟩; funext k; simp [specStep, absMap, getAt]
      | cons e r => simp [subsampleLoop] at hs
    · rw [subsampleLoop_eq N hN] at hs
      simp only [Option.some.injEq] at hs
      subst hs
      have hst : StrictKeys (((b.zipIdx 0).filter (fun p => decide (p.2 % N = 0))).map (·.1)) :=
        List.Pairwise.sublist (posFilter_sublist b 0 _) h
      refine ⟨hst, absMap_ext _ hst _ ?_⟩
      intro k w
      rw [mem_posFilter b (fun i => decide (i % N = 0))]
      simp only [specStep]
      constructor
      · rintro ⟨i, hi, hp⟩
        have hr : specRank b.absMap k = i := rank_eq b h i (k, w) hi
        rw [hr, if_pos (by simpa using hp), absMap_eq_some b h]
        exact List.mem_of_getElem? hi
      · intro hk
        split at hk
        · rename_i hne
          have hm := (absMap_eq_some b h k w).mp hk
          obtain ⟨i, hi⟩ := List.mem_iff_getElem?.mp hm
          refine ⟨i, hi, ?_⟩
          have hr : specRank b.absMap k = i := rank_eq b h i (k, w) hi
          rw [← hr]; simpa using hne
        · simp at hk
  | clear =>
    simp [mapStep] at hs; subst hs
    exact ⟨List.Pairwise.nil, by funext k; simp [specStep, absMap, getAt]⟩

theorem mapRun_refines (ops : List (MapOp α)) (b b' : Buf α) (h : b.StrictKeys)
    (hr : mapRun b ops = some b') :
    b'.StrictKeys ∧ b'.absMap = ops.foldl specStep b.absMap := by
  induction ops generalizing b with
  | nil => simp [mapRun] at hr; subst hr; exact ⟨h, rfl⟩
  | cons op ops ih =>
    simp only [mapRun, Option.bind_eq_some_iff] at hr
    obtain ⟨b1, h1, h2⟩ := hr
    obtain ⟨h3, h4⟩ := mapStep_refines b b1 h op h1
    obtain ⟨h5, h6⟩ := ih b1 h3 h2
    exact ⟨h5, by rw [h6, h4]; rfl⟩

/-- C05. After any history of operations on an initially empty buffer (none of which divided by
zero), iteration is strictly increasing in time, every lookup returns exactly what the abstract map
holds, and the size is the number of stamps in the map. -/
theorem c05_refines_finite_map (ops : List (MapOp α)) (b : Buf α) (hr : mapRun [] ops = some b) :
    b.Pairwise (fun x y => x.1 < y.1) ∧
    (∀ k v, (k, v) ∈ b ↔ ops.foldl specStep (fun _ => none) k = some v) ∧
    (∀ k, (b.getAt k).map (·.2) = ops.foldl specStep (fun _ => none) k) ∧
    b.length = {k | (ops.foldl specStep (fun _ => none : Int → Option α) k).isSome = true}.ncard := by
  have h0 : Buf.absMap ([] : Buf α) = fun _ => none := by funext k; simp [absMap, getAt]
  obtain ⟨h1, h2⟩ := mapRun_refines ops [] b List.Pairwise.nil hr
  rw [h0] at h2
  refine ⟨h1, ?_, ?_, ?_⟩
  · intro k v; rw [← h2, absMap_eq_some b h1]
  · intro k; rw [← h2]; rfl
  · rw [← h2, ← ncard_keys b h1]
    congr 1; ext k; simp only [Set.mem_ofPred_eq, absMap_isSome b h1]

/-- C05 corollary: the last insert at a stamp wins. -/
theorem c05_last_insert_wins (ops : List (MapOp α)) (b b' : Buf α) (t : Int) (v : α)
    (hr : mapRun [] ops = some b) (hr' : mapRun [] (ops ++ [.insert t v]) = some b') :
    (b'.getAt t).map (·.2) = some v ∧
    ∀ k, k ≠ t → (b'.getAt k).map (·.2) = (b.getAt k).map (·.2) := by
  have h1 := (c05_refines_finite_map ops b hr).2.2.1
  have h2 := (c05_refines_finite_map _ b' hr').2.2.1
  constructor
  · rw [h2]; simp [specStep]
  · intro k hk; rw [h2, h1]; simp [specStep, hk]

example : mapRun ([] : Buf Nat) [.insert 5 1, .insert 3 2, .insert 5 7, .insert 9 4, .removeAt 3,
    .insert 4 8, .removeAfter 5] = some [(4, 8), (5, 7)] := by decide

/-- C06. `get_before_t`: fails iff nothing is strictly before; otherwise the greatest one before. -/
theorem c06_get_before (b : Buf α) (h : b.StrictKeys) (t : Int) :
    (b.getBefore t = none ↔ ∀ e ∈ b, t ≤ e.1) ∧
    (∀ e, b.getBefore t = some e ↔ e ∈ b ∧ e.1 < t ∧ ∀ e' ∈ b, e'.1 < t → e'.1 ≤ e.1) := by
  rw [getBefore_eq b h.sorted]
  constructor
  · rw [List.getLast?_eq_none_iff, List.filter_eq_nil_iff]
    constructor
    · intro hh e he; have := hh e he; simp at this; omega
    · intro hh e he; have := hh e he; simp; omega
  · intro e
    have hf : StrictKeys (b.filter (fun e => decide (e.1 < t))) := h.filter _
    constructor
    · intro he
      have hm := List.mem_of_getLast? he
      rw [List.mem_filter] at hm
      refine ⟨hm.1, by simpa using hm.2, ?_⟩
      intro e' he' hlt
      exact hf.sorted.le_getLast he e' (List.mem_filter.mpr ⟨he', by simpa using hlt⟩)
    · rintro ⟨he, hlt, hmax⟩
      have hm : e ∈ b.filter (fun e => decide (e.1 < t)) := List.mem_filter.mpr ⟨he, by simpa using hlt⟩
      cases hl : (b.filter (fun e => decide (e.1 < t))).getLast? with
      | none => rw [List.getLast?_eq_none_iff] at hl; rw [hl] at hm; simp at hm
      | some l =>
        have hl' := List.mem_of_getLast? hl
        rw [List.mem_filter] at hl'
        have h1 := hf.sorted.le_getLast hl e hm
        have h2 := hmax l hl'.1 (by simpa using hl'.2)
        have h3 := (getAt_eq_some b h l.1 l).mpr ⟨hl'.1, rfl⟩
        have h4 := (getAt_eq_some b h l.1 e).mpr ⟨he, by omega⟩
        rw [h3] at h4; exact h4

/-- C06. `get_after_t`: fails iff nothing is strictly after; otherwise the least one after. -/
theorem c06_get_after (b : Buf α) (h : b.StrictKeys) (t : Int) :
    (b.getAfter t = none ↔ ∀ e ∈ b, e.1 ≤ t) ∧
    (∀ e, b.getAfter t = some e ↔ e ∈ b ∧ t < e.1 ∧ ∀ e' ∈ b, t < e'.1 → e.1 ≤ e'.1) := by
  rw [getAfter_eq b h.sorted]
  constructor
  · rw [List.head?_eq_none_iff, List.filter_eq_nil_iff]
    constructor
    · intro hh e he; have := hh e he; simp at this; omega
    · intro hh e he; have := hh e he; simp; omega
  · intro e
    have hf : StrictKeys (b.filter (fun e => decide (t < e.1))) := h.filter _
    constructor
    · intro he
      have hm := List.mem_of_head? he
      rw [List.mem_filter] at hm
      refine ⟨hm.1, by simpa using hm.2, ?_⟩
      intro e' he' hlt
      exact hf.sorted.head_le he e' (List.mem_filter.mpr ⟨he', by simpa using hlt⟩)
    · rintro ⟨he, hlt, hmin⟩
      have hm : e ∈ b.filter (fun e => decide (t < e.1)) := List.mem_filter.mpr ⟨he, by simpa using hlt⟩
      cases hl : (b.filter (fun e => decide (t < e.1))).head? with
      | none => rw [List.head?_eq_none_iff] at hl; rw [hl] at hm; simp at hm
      | some l =>
        have hl' := List.mem_of_head? hl
        rw [List.mem_filter] at hl'
        have h1 := hf.sorted.head_le hl e hm
        have h2 := hmin l hl'.1 (by simpa using hl'.2)
        have h3 := (getAt_eq_some b h l.1 l).mpr ⟨hl'.1, rfl⟩
        have h4 := (getAt_eq_some b h l.1 e).mpr ⟨he, by omega⟩
        rw [h3] at h4; exact h4

/-- C06. The existence queries are exact. -/
theorem c06_exists (b : Buf α) (h : b.StrictKeys) (t : Int) :
    (b.existAt t = true ↔ ∃ e ∈ b, e.1 = t) ∧
    (b.existAfter t = true ↔ ∃ e ∈ b, t < e.1) ∧
    (b.existBefore t = true ↔ ∃ e ∈ b, e.1 < t) :=
  ⟨existAt_iff b t, existAfter_iff b h.sorted t, existBefore_iff b h.sorted t⟩

/-- C06. Oldest and latest are the extremes; they fail only on an empty buffer. -/
theorem c06_extremes (b : Buf α) (h : b.StrictKeys) :
    (b.oldest = none ↔ b = []) ∧ (b.latest = none ↔ b = []) ∧
    (∀ e, b.oldest = some e ↔ e ∈ b ∧ ∀ e' ∈ b, e.1 ≤ e'.1) ∧
    (∀ e, b.latest = some e ↔ e ∈ b ∧ ∀ e' ∈ b, e'.1 ≤ e.1) := by
  refine ⟨List.head?_eq_none_iff, List.getLast?_eq_none_iff, ?_, ?_⟩
  · intro e
    constructor
    · intro he; exact ⟨List.mem_of_head? he, h.sorted.head_le he⟩
    · rintro ⟨he, hmin⟩
      cases hl : b.oldest with
      | none => unfold oldest at hl; rw [List.head?_eq_none_iff] at hl; rw [hl] at he; simp at he
      | some l =>
        have hl' := List.mem_of_head? hl
        have h1 := h.sorted.head_le hl e he
        have h2 := hmin l hl'
        have h3 := (getAt_eq_some b h l.1 l).mpr ⟨hl', rfl⟩
        have h4 := (getAt_eq_some b h l.1 e).mpr ⟨he, by omega⟩
        rw [h3] at h4; exact h4
  · intro e
    constructor
    · intro he; exact ⟨List.mem_of_getLast? he, h.sorted.le_getLast he⟩
    · rintro ⟨he, hmax⟩
      cases hl : b.latest with
      | none => unfold latest at hl; rw [List.getLast?_eq_none_iff] at hl; rw [hl] at he; simp at he
      | some l =>
        have hl' := List.mem_of_getLast? hl
        have h1 := h.sorted.le_getLast hl e he
        have h2 := hmax l hl'
        have h3 := (getAt_eq_some b h l.1 l).mpr ⟨hl', rfl⟩
        have h4 := (getAt_eq_some b h l.1 e).mpr ⟨he, by omega⟩
        rw [h3] at h4; exact h4

/-- C06. `index_at_t` returns the position. -/
theorem c06_index_at (b : Buf α) (h : b.StrictKeys) (t : Int) (i : Nat) :
    b.indexAt t = some i ↔ ∃ e, b[i]? = some e ∧ e.1 = t := by
  have hkey : b.findIdx? (fun e => e.1 == t) = some i ↔ ∃ e, b[i]? = some e ∧ e.1 = t := by
    rw [List.findIdx?_eq_some_iff_getElem]
    constructor
    · rintro ⟨hi, h1, _⟩
      exact ⟨b[i], by simp [hi], by simpa using h1⟩
    · rintro ⟨e, he, hk⟩
      obtain ⟨hi, rfl⟩ := List.getElem?_eq_some_iff.mp he
      refine ⟨hi, by simpa using hk, ?_⟩
      intro j hj
      have := List.pairwise_iff_getElem.mp h j i (by omega) hi hj
      simp; omega
  unfold indexAt
  cases b with
  | nil => simp
  | cons x r => simpa using hkey

theorem filter_lt_take (b : Buf α) (h : b.StrictKeys) (i : Nat) (hi : i < b.length) :
    (b.filter (fun e => decide (e.1 < b[i].1))).length = i := by
  induction b generalizing i with
  | nil => simp at hi
  | cons x r ih =>
    have hx := List.pairwise_cons.mp h
    cases i with
    | zero =>
      have : (x :: r).filter (fun e => decide (e.1 < (x :: r)[0].1)) = [] := by
        rw [List.filter_eq_nil_iff]
        intro e he
        simp only [List.getElem_cons_zero, decide_eq_true_eq, not_lt]
        rcases List.mem_cons.mp he with rfl | he
        · exact le_refl _
        · exact (hx.1 e he).le
      rw [this]; rfl
    | succ j =>
      have hj : j < r.length := by simpa using hi
      have h1 : x.1 < r[j].1 := hx.1 _ (List.getElem_mem hj)
      have h2 : (x :: r)[j+1] = r[j] := rfl
      rw [h2, List.filter_cons, if_pos (by simpa using h1), List.length_cons, ih hx.2 j hj]

/-- C06. `at(i)` delivers the element with exactly `i` older ones, and fails exactly when there are
not more than `i` elements. -/
theorem c06_at (b : Buf α) (h : b.StrictKeys) (i : Nat) :
    (b.at? i = none ↔ b.length ≤ i) ∧
    (∀ e, b.at? i = some e ↔
      e ∈ b ∧ (b.filter (fun e' => decide (e'.1 < e.1))).length = i) := by
  have key : b.at? i = b[i]? := by
    unfold at?; split
    · rfl
    · rename_i hi; rw [List.getElem?_eq_none (by omega)]
  rw [key]
  refine ⟨List.getElem?_eq_none_iff, fun e => ⟨?_, ?_⟩⟩
  · intro he
    obtain ⟨hi, rfl⟩ := List.getElem?_eq_some_iff.mp he
    exact ⟨List.getElem_mem hi, filter_lt_take b h i hi⟩
  · rintro ⟨he, hc⟩
    obtain ⟨j, hj, rfl⟩ := List.getElem_of_mem he
    rw [filter_lt_take b h j hj] at hc
    subst hc
    simp [hj]

example : StrictKeys ([(1, 'a'), (4, 'b'), (9, 'c')] : Buf Char) ∧
    Buf.getBefore [(1, 'a'), (4, 'b'), (9, 'c')] 9 = some (4, 'b') ∧
    Buf.getBefore [(1, 'a'), (4, 'b'), (9, 'c')] 100 = some (9, 'c') ∧
    Buf.getBefore [(1, 'a'), (4, 'b'), (9, 'c')] 1 = none := by decide

/-- C08. Range visits are exactly the closed interval, in time order (`foreach_between`,
`accumulate_between`). -/
theorem c08_visit_map (b : Buf α) (h : b.StrictKeys) (t1 t2 : Int) (h12 : t1 ≤ t2) :
    b.visitMap t1 t2 = (b.filter (fun e => decide (t1 ≤ e.1 ∧ e.1 ≤ t2))).map (·.2) ∧
    ∀ (init : α) (op : α → α → α), b.accumulateMap t1 t2 init op =
      ((b.filter (fun e => decide (t1 ≤ e.1 ∧ e.1 ≤ t2))).map (·.2)).foldl op init := by
  have hr := range_eq b h.sorted t1 t2
  simp only [← Bool.decide_and] at hr
  constructor
  · unfold visitMap
    cases b with
    | nil => simp
    | cons x r => rw [if_pos ⟨h12, by simp⟩, hr]
  · intro init op
    unfold accumulateMap
    cases b with
    | nil => simp
    | cons x r => rw [if_pos ⟨h12, by simp⟩, hr, List.foldl_map]

/-- C08. `get_between_t1_t2` is exact for distinct bounds. -/
theorem c08_between_map_partial (b : Buf α) (h : b.StrictKeys) (t1 t2 : Int) (h12 : t1 < t2) :
    b.betweenMap t1 t2 = b.filter (fun e => decide (t1 ≤ e.1 ∧ e.1 ≤ t2)) := by
  have hr := range_eq b h.sorted t1 t2
  simp only [← Bool.decide_and] at hr
  unfold betweenMap
  cases b with
  | nil => simp
  | cons x r => rw [if_pos ⟨h12, by simp⟩, hr]

/-- C08, refutation for equal bounds: a stored element at `t` is never returned by
`get_between_t1_t2(t, t)`, although `foreach_between_t1_t2(t, t)` visits it. -/
theorem c08_between_map_equal_bounds_fails (b : Buf α) (h : b.StrictKeys) (t : Int) (v : α)
    (hm : (t, v) ∈ b) : b.betweenMap t t = [] ∧ v ∈ b.visitMap t t := by
  constructor
  · simp [betweenMap]
  · rw [(c08_visit_map b h t t le_rfl).1]
    rw [List.mem_map]
    exact ⟨(t, v), List.mem_filter.mpr ⟨hm, by simp⟩, rfl⟩

example : StrictKeys ([(1, 'a'), (4, 'b')] : Buf Char) ∧ (4, 'b') ∈ ([(1, 'a'), (4, 'b')] : Buf Char) := by
  decide

/-- C09. Full statement: nothing before `t` remains and everything else is kept. -/
def RemoveBeforeExact (remove : Buf α → Int → Buf α) (b : Buf α) (t : Int) : Prop :=
  remove b t = b.filter (fun e => decide (t ≤ e.1))

/-- C09. True whenever some element is at or after `t`. Missing: the case where all elements are
before `t`, in which the code removes nothing (next theorem). -/
theorem c09_remove_before_partial (b : Buf α) (h : b.SortedKeys) (t : Int)
    (hex : ∃ e ∈ b, t ≤ e.1) : RemoveBeforeExact Buf.removeBefore b t := by
  unfold RemoveBeforeExact; rw [removeBefore_eq b h, if_pos hex]

/-- C09 is violated exactly when the buffer is non-empty and entirely older than `t`: then all
elements stay. -/
theorem c09_remove_before_fails (b : Buf α) (h : b.SortedKeys) (t : Int) :
    ¬ RemoveBeforeExact Buf.removeBefore b t ↔ b ≠ [] ∧ ∀ e ∈ b, e.1 < t := by
  unfold RemoveBeforeExact; rw [removeBefore_eq b h]
  constructor
  · intro hne
    split at hne
    · simp at hne
    · rename_i hex
      refine ⟨?_, ?_⟩
      · rintro rfl; simp at hne
      · intro e he; by_contra hc; exact hex ⟨e, he, by omega⟩
  · rintro ⟨hne, hall⟩
    rw [if_neg (by rintro ⟨e, he, hle⟩; have := hall e he; omega)]
    intro heq
    cases b with
    | nil => exact hne rfl
    | cons x r =>
      have : x ∈ List.filter (fun e => decide (t ≤ e.1)) (x :: r) := by rw [← heq]; simp
      rw [List.mem_filter] at this
      have h2 := of_decide_eq_true this.2
      have h3 := hall x (by simp)
      omega

/-- C09 concrete witness. -/
theorem c09_witness : Buf.removeBefore [(1, 'a'), (2, 'b')] 5 = [(1, 'a'), (2, 'b')] := by
  decide

/-- C10. `remove_after_t` and `remove_at_t` are exact (map and multimap). -/
theorem c10_remove_exact (b : Buf α) (h : b.SortedKeys) (t : Int) :
    b.removeAfter t = b.filter (fun e => decide (e.1 ≤ t)) ∧
    b.removeAt t = b.filter (fun e => decide (e.1 ≠ t)) := by
  refine ⟨removeAfter_eq b h t, ?_⟩
  unfold removeAt; congr 1; funext e; rw [Bool.eq_iff_iff]; simp

example : SortedKeys ([(1, 'a'), (1, 'x'), (2, 'b')] : Buf Char) := by decide

/-- C11. `subsample_by_N` keeps exactly the positions divisible by `N`, `remove_every_N` exactly the
others; order preserved. -/
theorem c11_subsample (b : Buf α) (N : Nat) (hN : 1 ≤ N) :
    b.subsample N = some ((b.zipIdx.filter (fun p => decide (p.2 % N = 0))).map (·.1)) ∧
    b.removeEvery N = some ((b.zipIdx.filter (fun p => decide (p.2 % N ≠ 0))).map (·.1)) :=
  ⟨subsampleLoop_eq N hN 0 b, removeEveryLoop_eq N hN 0 b⟩

/-- C11. `N = 0` is undefined behaviour exactly on non-empty buffers. -/
theorem c11_zero_ub (b : Buf α) :
    (b.subsample 0 = none ↔ b ≠ []) ∧ (b.removeEvery 0 = none ↔ b ≠ []) := by
  cases b <;> simp [Buf.subsample, subsampleLoop, removeEvery, removeEveryLoop]

example : Buf.subsample [(1, 'a'), (2, 'b'), (3, 'c'), (4, 'd'), (5, 'e')] 2 =
    some [(1, 'a'), (3, 'c'), (5, 'e')] := by decide

end Ikf
