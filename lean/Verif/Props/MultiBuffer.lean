import Verif.Lemmas.BufferMap
import Mathlib.Data.List.Sort

/-! # Properties C08 (multimap), C12, C13, C14: TMultiHistoryBuffer -/

namespace Ikf
variable {α : Type _}

/-! ## C12 -/

/-- Mutating operations of the multi-history buffer. -/
inductive MultiOp (α : Type _) where
  | insert (t : Int) (v : α)
  | removeAt (t : Int)
  | removeBefore (t : Int)
  | removeAfter (t : Int)
  | clear

/-- The model's step. -/
def multiStep (b : Buf α) : MultiOp α → Buf α
  | .insert t v => Buf.insertMulti b t v
  | .removeAt t => Buf.removeAt b t
  | .removeBefore t => Buf.removeBefore b t
  | .removeAfter t => Buf.removeAfter b t
  | .clear => []

/-- Specification: for every stamp the list of values in arrival order; no buffer involved.
`removeBefore` has the actual behaviour: without effect if everything is older. -/
noncomputable def bagStep (f : Int → List α) : MultiOp α → (Int → List α)
  | .insert t v => fun k => if k = t then f k ++ [v] else f k
  | .removeAt t => fun k => if k = t then [] else f k
  | .removeBefore t => fun k =>
      open Classical in if (∃ j, t ≤ j ∧ f j ≠ []) ∧ k < t then [] else f k
  | .removeAfter t => fun k => if t < k then [] else f k
  | .clear => fun _ => []

/-- The values stored at `k`, in iteration order. -/
def valuesAt (b : Buf α) (k : Int) : List α := (b.filter (fun e => e.1 == k)).map (·.2)

theorem valuesAt_filter (b : Buf α) (p : Int → Bool) (k : Int) :
    valuesAt (b.filter (fun e => p e.1)) k = if p k then valuesAt b k else [] := by
  unfold valuesAt
  rw [List.filter_filter]
  by_cases h : p k
  · rw [if_pos h]; congr 1; apply List.filter_congr
    intro e _; by_cases he : e.1 = k <;> simp [he, h]
  · rw [if_neg h, List.map_eq_nil_iff, List.filter_eq_nil_iff]
    intro e _; by_cases he : e.1 = k <;> simp [he, h]

theorem valuesAt_ne_nil (b : Buf α) (k : Int) : valuesAt b k ≠ [] ↔ ∃ e ∈ b, e.1 = k := by
  unfold valuesAt
  rw [Ne, List.map_eq_nil_iff, List.filter_eq_nil_iff]; simp

theorem multiStep_refines (b : Buf α) (h : b.SortedKeys) (op : MultiOp α) :
    (multiStep b op).SortedKeys ∧ valuesAt (multiStep b op) = bagStep (valuesAt b) op := by
  classical
  cases op with
  | insert t v =>
    refine ⟨Buf.sorted_insertMulti b h t v, ?_⟩
    funext k
    simp only [multiStep, bagStep, valuesAt]
    rw [Buf.filter_key_insertMulti b h]
    by_cases hk : k = t
    · simp [hk]
    · simp [hk, Ne.symm hk]
  | removeAt t =>
    refine ⟨h.filter _, ?_⟩
    funext k
    simp only [multiStep, bagStep]
    unfold Buf.removeAt
    rw [valuesAt_filter b (fun x => !(x == t))]
    by_cases hk : k = t <;> simp [hk]
  | removeBefore t =>
    simp only [multiStep]
    rw [Buf.removeBefore_eq b h]
    have he : (∃ j, t ≤ j ∧ valuesAt b j ≠ []) ↔ ∃ e ∈ b, t ≤ e.1 := by
      simp only [valuesAt_ne_nil]
      constructor
      · rintro ⟨j, hj, e, he, rfl⟩; exact ⟨e, he, hj⟩
      · rintro ⟨e, he, hj⟩; exact ⟨e.1, hj, e, he, rfl⟩
    split
    · rename_i hex
      refine ⟨h.filter _, ?_⟩
      funext k
      simp only [bagStep, he]
      rw [valuesAt_filter b (fun x => decide (t ≤ x))]
      by_cases hk : k < t
      · rw [if_neg (by simpa using hk), if_pos ⟨hex, hk⟩]
      · rw [if_pos (by simp; omega), if_neg (fun hc => hk hc.2)]
    · rename_i hex
      refine ⟨h, ?_⟩
      funext k
      simp only [bagStep, he]
      rw [if_neg (fun hc => hex hc.1)]
  | removeAfter t =>
    simp only [multiStep]
    rw [Buf.removeAfter_eq b h]
    refine ⟨h.filter _, ?_⟩
    funext k
    simp only [bagStep]
    rw [valuesAt_filter b (fun x => decide (x ≤ t))]
    by_cases hk : t < k
    · rw [if_neg (by simp; omega), if_pos hk]
    · rw [if_pos (by simp; omega), if_neg hk]
  | clear => exact ⟨List.Pairwise.nil, rfl⟩

theorem multiRun_refines (ops : List (MultiOp α)) (b : Buf α) (h : b.SortedKeys) :
    (ops.foldl multiStep b).SortedKeys ∧
    valuesAt (ops.foldl multiStep b) = ops.foldl bagStep (valuesAt b) := by
  induction ops generalizing b with
  | nil => exact ⟨h, rfl⟩
  | cons op ops ih =>
    obtain ⟨h1, h2⟩ := multiStep_refines b h op
    obtain ⟨h3, h4⟩ := ih _ h1
    exact ⟨h3, by simp only [List.foldl_cons]; rw [h4, h2]⟩

/-- C12. After any history on an initially empty buffer: iteration is in non-decreasing time, and for
every stamp `get_all_at_t` returns exactly the values the specification holds there, in arrival
order. -/
theorem c12_refines_bag (ops : List (MultiOp α)) :
    (ops.foldl multiStep []).Pairwise (fun x y => x.1 ≤ y.1) ∧
    ∀ k, Buf.getAllAt (ops.foldl multiStep []) k = ops.foldl bagStep (fun _ => []) k := by
  obtain ⟨h1, h2⟩ := multiRun_refines ops ([] : Buf α) List.Pairwise.nil
  refine ⟨h1, ?_⟩
  intro k
  have h0 : valuesAt ([] : Buf α) = fun _ => [] := rfl
  rw [h0] at h2
  rw [← h2]
  unfold Buf.getAllAt
  split
  · rfl
  · rename_i hne
    symm
    by_contra hc
    exact hne ((Buf.existAt_iff _ _).mpr ((valuesAt_ne_nil _ _).mp hc))

/-- C12. The number of stored elements is the number of values the specification holds: an insert
adds one, nothing else adds. -/
theorem c12_size (b : Buf α) (h : b.SortedKeys) (t : Int) (v : α) :
    (Buf.insertMulti b t v).length = b.length + 1 ∧
    (Buf.removeAt b t).length + (valuesAt b t).length = b.length ∧
    (Buf.removeAfter b t).length = (b.filter (fun e => decide (e.1 ≤ t))).length := by
  refine ⟨?_, ?_, ?_⟩
  · have := (Buf.perm_insertMulti b t v).length_eq; simpa using this
  · unfold Buf.removeAt valuesAt
    rw [List.length_map]
    have := List.length_eq_length_filter_add (l := b) (fun e => e.1 == t)
    omega
  · rw [Buf.removeAfter_eq b h]

example : Buf.getAllAt ([MultiOp.insert 5 'a', .insert 3 'b', .insert 5 'c', .insert 9 'd',
    .removeAfter 8].foldl multiStep []) 5 = ['a', 'c'] := by decide

/-! ## C08 for the multimap -/

namespace Buf

theorem mem_setInsert (s : List Int) (k x : Int) : x ∈ setInsert s k ↔ x = k ∨ x ∈ s := by
  induction s with
  | nil => simp [setInsert]
  | cons y r ih =>
    unfold setInsert
    split
    · simp
    · split
      · rename_i h; simp at h; subst h; simp
      · simp only [List.mem_cons, ih]; tauto

theorem setInsert_max (s : List Int) (k : Int) (hs : ∀ x ∈ s, x ≤ k) (hp : s.Pairwise (· < ·)) :
    setInsert s k = if k ∈ s then s else s ++ [k] := by
  induction s with
  | nil => simp [setInsert]
  | cons y r ih =>
    have hy := hs y (by simp)
    rw [List.pairwise_cons] at hp
    unfold setInsert
    rw [if_neg (by omega)]
    by_cases hk : k = y
    · simp [hk]
    · rw [if_neg (by simpa using hk), ih (fun x hx => hs x (by simp [hx])) hp.2]
      by_cases hm : k ∈ r
      · simp [hm]
      · simp [hm, hk]

/-- Distinct keys of a sorted list, by the std::set. -/
theorem foldl_setInsert (b : Buf α) (h : b.SortedKeys) (s : List Int) (hs : s.Pairwise (· < ·))
    (hle : ∀ x ∈ s, ∀ e ∈ b, x ≤ e.1) :
    (b.foldl (fun s e => setInsert s e.1) s).Pairwise (· < ·) ∧
    ∀ x, x ∈ b.foldl (fun s e => setInsert s e.1) s ↔ x ∈ s ∨ ∃ e ∈ b, e.1 = x := by
  induction b generalizing s with
  | nil => simp [hs]
  | cons e r ih =>
    unfold SortedKeys at h
    rw [List.pairwise_cons] at h
    simp only [List.foldl_cons]
    have hmax := setInsert_max s e.1 (fun x hx => hle x hx e (by simp)) hs
    have hp : (setInsert s e.1).Pairwise (· < ·) := by
      rw [hmax]; split
      · exact hs
      · rename_i hne
        rw [List.pairwise_append]
        refine ⟨hs, by simp, ?_⟩
        intro x hx y hy
        simp at hy; subst hy
        have := hle x hx e (by simp)
        have : x ≠ e.1 := fun hc => hne (hc ▸ hx)
        omega
    obtain ⟨h1, h2⟩ := ih h.2 (setInsert s e.1) hp (by
      intro x hx y hy
      rw [mem_setInsert] at hx
      rcases hx with rfl | hx
      · exact h.1 y hy
      · exact hle x hx y (by simp [hy]))
    refine ⟨h1, ?_⟩
    intro x
    rw [h2, mem_setInsert]
    simp only [List.mem_cons, exists_eq_or_imp]
    constructor
    · rintro ((rfl | h) | h)
      · right; left; rfl
      · left; exact h
      · right; right; exact h
    · rintro (h | h | h)
      · left; right; exact h
      · left; left; exact h.symm
      · right; exact h

/-- Grouping a sorted list by its distinct keys gives the list back. -/
theorem flatMap_groups (b : Buf α) (h : b.SortedKeys) (ks : List Int) (hk : ks.Pairwise (· < ·))
    (hall : ∀ e ∈ b, e.1 ∈ ks) :
    ks.flatMap (fun k => b.filter (fun e => e.1 == k)) = b := by
  induction ks generalizing b with
  | nil =>
    cases b with
    | nil => rfl
    | cons e r => exact absurd (hall e (by simp)) (by simp)
  | cons k ks ih =>
    rw [List.pairwise_cons] at hk
    simp only [List.flatMap_cons]
    have hge : ∀ e ∈ b, k ≤ e.1 := by
      intro e he
      rcases List.mem_cons.mp (hall e he) with h1 | h1
      · omega
      · have := hk.1 _ h1; omega
    have hsplit : b = b.filter (fun e => e.1 == k) ++ b.filter (fun e => decide (k < e.1)) := by
      have hb := belowUB_eq b h k
      have hu := upperBound_eq b h k
      have : b = b.belowUB k ++ b.upperBound k := by
        unfold belowUB upperBound; exact (List.takeWhile_append_dropWhile).symm
      rw [hb, hu] at this
      conv_lhs => rw [this]
      congr 1
      apply List.filter_congr
      intro e he
      have := hge e he
      rw [Bool.eq_iff_iff]; simp; omega
    have hih := ih (b.filter (fun e => decide (k < e.1))) (h.filter _) hk.2 (by
      intro e he
      rw [List.mem_filter] at he
      rcases List.mem_cons.mp (hall e he.1) with h1 | h1
      · have := he.2; simp at this; omega
      · exact h1)
    have hcong : ks.flatMap (fun k' => b.filter (fun e => e.1 == k')) =
        ks.flatMap (fun k' => (b.filter (fun e => decide (k < e.1))).filter (fun e => e.1 == k')) := by
      apply List.flatMap_congr
      intro k' hk'
      rw [List.filter_filter]
      apply List.filter_congr
      intro e _
      have := hk.1 k' hk'
      by_cases he : e.1 = k'
      · simp [he]; omega
      · simp [he]
    rw [hcong, hih]
    exact hsplit.symm

end Buf

open Buf in
/-- The distinct stamps in the interval, ascending; then grouping them yields the interval. -/
theorem interval_groups (b : Buf α) (h : b.SortedKeys) (t1 t2 : Int) (h12 : t1 ≤ t2) (hne : b ≠ []) :
    (b.stampsBetween t1 t2).flatMap (fun k => b.equalRange k) =
      b.filter (fun e => decide (t1 ≤ e.1 ∧ e.1 ≤ t2)) ∧
    (b.stampsBetween t1 t2).Pairwise (· < ·) ∧
    (∀ k, k ∈ b.stampsBetween t1 t2 ↔ t1 ≤ k ∧ k ≤ t2 ∧ ∃ e ∈ b, e.1 = k) := by
  have hlen : 0 < b.length := List.length_pos_iff.mpr hne
  have hr := range_eq b h t1 t2
  simp only [← Bool.decide_and] at hr
  have hsb : b.stampsBetween t1 t2 = (b.range t1 t2).foldl (fun s e => setInsert s e.1) [] := by
    unfold stampsBetween; rw [if_pos ⟨h12, hlen⟩]
  rw [hsb, hr]
  obtain ⟨h1, h2⟩ := foldl_setInsert (b.filter (fun e => decide (t1 ≤ e.1 ∧ e.1 ≤ t2)))
    (h.filter _) [] List.Pairwise.nil (by simp)
  have hmem : ∀ k, k ∈ (b.filter (fun e => decide (t1 ≤ e.1 ∧ e.1 ≤ t2))).foldl
      (fun s e => setInsert s e.1) [] ↔ t1 ≤ k ∧ k ≤ t2 ∧ ∃ e ∈ b, e.1 = k := by
    intro k
    rw [h2]
    simp only [List.not_mem_nil, false_or, List.mem_filter, decide_eq_true_eq]
    constructor
    · rintro ⟨e, ⟨he, ha, hb⟩, rfl⟩; exact ⟨ha, hb, e, he, rfl⟩
    · rintro ⟨ha, hb, e, he, rfl⟩; exact ⟨e, ⟨he, ha, hb⟩, rfl⟩
  refine ⟨?_, h1, hmem⟩
  have hg := flatMap_groups (b.filter (fun e => decide (t1 ≤ e.1 ∧ e.1 ≤ t2))) (h.filter _) _ h1 (by
    intro e he; rw [h2]; right; exact ⟨e, he, rfl⟩)
  rw [← hg]
  conv_lhs => rw [hg]
  apply List.flatMap_congr
  intro k hk
  obtain ⟨ha, hb, _⟩ := (hmem k).mp hk
  unfold equalRange
  rw [List.filter_filter]
  apply List.filter_congr
  intro e _
  by_cases he : e.1 = k
  · simp [he, ha, hb]
  · simp [he]

theorem insertMulti_last (b : Buf α) (k : Int) (v : α) (h : ∀ e ∈ b, e.1 ≤ k) :
    Buf.insertMulti b k v = b ++ [(k, v)] := by
  induction b with
  | nil => rfl
  | cons e r ih =>
    unfold Buf.insertMulti
    have := h e (by simp)
    rw [if_neg (by omega), ih (fun x hx => h x (by simp [hx]))]; rfl

theorem foldl_insertMulti_sorted (l h : Buf α) (hs : (h ++ l).SortedKeys) :
    l.foldl (fun h e => Buf.insertMulti h e.1 e.2) h = h ++ l := by
  induction l generalizing h with
  | nil => simp
  | cons e r ih =>
    simp only [List.foldl_cons]
    have hl : ∀ x ∈ h, x.1 ≤ e.1 := by
      unfold Buf.SortedKeys at hs
      rw [List.pairwise_append] at hs
      exact fun x hx => hs.2.2 x hx e (by simp)
    rw [insertMulti_last h e.1 e.2 hl, ih]
    · simp
    · simpa using hs

theorem foldl_flatMap' {β γ δ : Type _} (f : β → List γ) (g : δ → γ → δ) (ks : List β) (init : δ) :
    ks.foldl (fun a k => (f k).foldl g a) init = (ks.flatMap f).foldl g init := by
  induction ks generalizing init with
  | nil => rfl
  | cons k ks ih => simp [List.flatMap_cons, List.foldl_append, ih]

/-- C08 (multimap). `get_between`, `foreach_between` and `accumulate_between` cover exactly the
elements in the closed interval, in stored order, for all `t1 ≤ t2` including equal bounds. -/
theorem c08_multi (b : Buf α) (h : b.SortedKeys) (t1 t2 : Int) (h12 : t1 ≤ t2) :
    Buf.betweenMulti b t1 t2 = b.filter (fun e => decide (t1 ≤ e.1 ∧ e.1 ≤ t2)) ∧
    Buf.visitMulti b t1 t2 = (b.filter (fun e => decide (t1 ≤ e.1 ∧ e.1 ≤ t2))).map (·.2) ∧
    ∀ (init : α) (op : α → α → α), Buf.accumulateMulti b t1 t2 init op =
      ((b.filter (fun e => decide (t1 ≤ e.1 ∧ e.1 ≤ t2))).map (·.2)).foldl op init := by
  by_cases hne : b = []
  · subst hne; simp [Buf.betweenMulti, Buf.visitMulti, Buf.accumulateMulti]
  obtain ⟨hg, hp, hm⟩ := interval_groups b h t1 t2 h12 hne
  have hlen : 0 < b.length := List.length_pos_iff.mpr hne
  refine ⟨?_, ?_, ?_⟩
  · unfold Buf.betweenMulti
    rw [if_pos ⟨h12, hlen⟩, foldl_flatMap' (fun k => Buf.equalRange b k), hg]
    have := foldl_insertMulti_sorted (b.filter (fun e => decide (t1 ≤ e.1 ∧ e.1 ≤ t2))) []
      (by simpa using h.filter _)
    simpa using this
  · unfold Buf.visitMulti
    rw [if_pos ⟨h12, hlen⟩, ← hg, List.map_flatMap]
  · intro init op
    unfold Buf.accumulateMulti
    rw [if_pos ⟨h12, hlen⟩, foldl_flatMap' (fun k => Buf.equalRange b k), hg, List.foldl_map]

/-- C08 (multimap). `get_timestamps_between_t1_t2` lists every stamp of the interval once, ascending. -/
theorem c08_multi_stamps (b : Buf α) (h : b.SortedKeys) (t1 t2 : Int) (h12 : t1 ≤ t2) :
    (Buf.stampsBetween b t1 t2).Pairwise (· < ·) ∧
    ∀ k, k ∈ Buf.stampsBetween b t1 t2 ↔ t1 ≤ k ∧ k ≤ t2 ∧ ∃ e ∈ b, e.1 = k := by
  by_cases hne : b = []
  · subst hne; simp [Buf.stampsBetween]
  · exact ⟨(interval_groups b h t1 t2 h12 hne).2.1, (interval_groups b h t1 t2 h12 hne).2.2⟩

example : Buf.betweenMulti [(1, 'a'), (4, 'b'), (4, 'c'), (9, 'd')] 4 4 = [(4, 'b'), (4, 'c')] := by
  decide

/-! ## C06 for the multimap -/

/-- C06 (multimap): `get_before_t` returns the last-inserted element of the greatest earlier stamp and
`get_after_t` the first-inserted element of the least later stamp. -/
theorem c06_multi_neighbours (b : Buf α) (h : b.SortedKeys) (t : Int) :
    Buf.getBefore b t = (b.filter (fun e => decide (e.1 < t))).getLast? ∧
    Buf.getAfter b t = (b.filter (fun e => decide (t < e.1))).head? :=
  ⟨Buf.getBefore_eq b h t, Buf.getAfter_eq b h t⟩

/-! ## C13 -/

/-- C13, exact behaviour of the multimap's `exist_before_t`: it is true iff some element is at or
after `t` and, in case an element is exactly at `t`, another one is before it. -/
theorem c13_exist_before_exact (b : Buf α) (h : b.SortedKeys) (t : Int) :
    Buf.existBeforeMulti b t = true ↔
      (∃ e ∈ b, t ≤ e.1) ∧ ((∃ e ∈ b, e.1 = t) → ∃ e ∈ b, e.1 < t) := by
  have hl := Buf.lowerBound_eq b h t
  have hbl := Buf.belowLB_eq b h t
  unfold Buf.existBeforeMulti
  by_cases hne : b = []
  · subst hne; simp
  rw [if_pos (by simpa using hne)]
  have hbe : (Buf.belowLB b t).isEmpty = false ↔ ∃ e ∈ b, e.1 < t := by
    rw [hbl, List.isEmpty_eq_false_iff]
    rw [Ne, List.filter_eq_nil_iff]; simp
  cases hlb : Buf.lowerBound b t with
  | nil =>
    rw [hl] at hlb
    rw [List.filter_eq_nil_iff] at hlb
    simp only [Bool.false_eq_true, false_iff]
    rintro ⟨⟨e, he, hle⟩, _⟩
    have := hlb e he; simp at this; omega
  | cons x r =>
    rw [hl] at hlb
    have hx : x ∈ b.filter (fun e => decide (t ≤ e.1)) := by
      rw [hlb]; simp
    rw [List.mem_filter] at hx
    have hxt : t ≤ x.1 := by simpa using hx.2
    have hmin : ∀ e ∈ b, t ≤ e.1 → x.1 ≤ e.1 := by
      intro e he hle
      have hs : Buf.SortedKeys (b.filter (fun e => decide (t ≤ e.1))) := h.filter _
      exact hs.head_le (o := x) (by rw [hlb]; rfl) e (List.mem_filter.mpr ⟨he, by simpa using hle⟩)
    simp only
    by_cases hxe : x.1 = t
    · rw [if_pos (by simpa using hxe)]
      rw [Bool.not_eq_true', hbe]
      constructor
      · intro h1; exact ⟨⟨x, hx.1, hxt⟩, fun _ => h1⟩
      · rintro ⟨_, h2⟩; exact h2 ⟨x, hx.1, hxe⟩
    · rw [if_neg (by simpa using hxe)]
      simp only [true_iff]
      refine ⟨⟨x, hx.1, hxt⟩, ?_⟩
      rintro ⟨e, he, rfl⟩
      have := hmin e he le_rfl
      omega

/-- C13, full statement. -/
def ExistBeforeCorrect (f : Buf α → Int → Bool) (b : Buf α) (t : Int) : Prop :=
  f b t = true ↔ ∃ e ∈ b, e.1 < t

/-- C13 holds if the queried stamp itself is stored. Missing: stamps not stored. -/
theorem c13_exist_before_partial (b : Buf α) (h : b.SortedKeys) (t : Int) (hat : ∃ e ∈ b, e.1 = t) :
    ExistBeforeCorrect Buf.existBeforeMulti b t := by
  unfold ExistBeforeCorrect
  rw [c13_exist_before_exact b h]
  constructor
  · rintro ⟨_, h2⟩; exact h2 hat
  · intro h1; obtain ⟨e, he, hk⟩ := hat; exact ⟨⟨e, he, hk.ge⟩, fun _ => h1⟩

/-- C13 is violated both ways: with only newer elements it answers true, with only older ones false. -/
theorem c13_exist_before_fails (b : Buf α) (h : b.SortedKeys) (t : Int) (hne : b ≠ []) :
    ((∀ e ∈ b, t < e.1) → Buf.existBeforeMulti b t = true ∧ ¬ ∃ e ∈ b, e.1 < t) ∧
    ((∀ e ∈ b, e.1 < t) → Buf.existBeforeMulti b t = false ∧ ∃ e ∈ b, e.1 < t) := by
  obtain ⟨x, hx⟩ := List.exists_mem_of_ne_nil b hne
  constructor
  · intro hall
    refine ⟨(c13_exist_before_exact b h t).mpr ⟨⟨x, hx, (hall x hx).le⟩, ?_⟩, ?_⟩
    · rintro ⟨e, he, rfl⟩; have := hall e he; omega
    · rintro ⟨e, he, hlt⟩; have := hall e he; omega
  · intro hall
    refine ⟨?_, x, hx, hall x hx⟩
    rw [← Bool.not_eq_true, c13_exist_before_exact b h]
    rintro ⟨⟨e, he, hle⟩, _⟩; have := hall e he; omega

example : Buf.existBeforeMulti [(5, 'a')] 3 = true ∧ Buf.existBeforeMulti [(5, 'a')] 7 = false := by
  decide

/-! ## C14 -/

/-- C14 is violated: `index_at_t` returns `false` even when the stamp is stored. -/
theorem c14_index_at_fails (b : Buf α) (t : Int) : (Buf.indexAtMulti b t).1 = false := by
  unfold Buf.indexAtMulti; split <;> rfl

/-- C14, what does hold: the written index is the first position of that stamp, and nothing is
written if the stamp is not stored. Missing: the return value. -/
theorem c14_index_at_partial (b : Buf α) (t : Int) (i : Nat) :
    ((Buf.indexAtMulti b t).2 = some i ↔
      ∃ h : i < b.length, (b[i]).1 = t ∧ ∀ j (hj : j < i), (b[j]).1 ≠ t) ∧
    ((Buf.indexAtMulti b t).2 = none ↔ ∀ e ∈ b, e.1 ≠ t) := by
  unfold Buf.indexAtMulti
  constructor
  · by_cases he : Buf.existAt b t
    · rw [if_pos he]
      rw [List.findIdx?_eq_some_iff_getElem]
      simp
    · rw [if_neg he]
      simp only [reduceCtorEq, false_iff]
      rintro ⟨h1, h2, _⟩
      exact he ((Buf.existAt_iff b t).mpr ⟨_, List.getElem_mem h1, h2⟩)
  · by_cases he : Buf.existAt b t
    · rw [if_pos he, List.findIdx?_eq_none_iff]
      simp
    · rw [if_neg he]
      simp only [true_iff]
      intro e hm hk
      exact he ((Buf.existAt_iff b t).mpr ⟨e, hm, hk⟩)

example : Buf.indexAtMulti [(1, 'a'), (4, 'b'), (4, 'c')] 4 = (false, some 1) := by decide

end Ikf
