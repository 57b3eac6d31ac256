import Verif.Model.Buffer
import Verif.Lemmas.Timestamp

namespace Ikf
namespace Buf
variable {α : Type _}

/-- Keys non-decreasing in iteration order (multimap). -/
def SortedKeys (b : Buf α) : Prop := b.Pairwise (fun a c => a.1 ≤ c.1)
/-- Keys strictly increasing in iteration order (map). -/
def StrictKeys (b : Buf α) : Prop := b.Pairwise (fun a c => a.1 < c.1)

instance (b : Buf α) : Decidable (SortedKeys b) := inferInstanceAs (Decidable (List.Pairwise _ _))
instance (b : Buf α) : Decidable (StrictKeys b) := inferInstanceAs (Decidable (List.Pairwise _ _))

theorem StrictKeys.sorted {b : Buf α} (h : b.StrictKeys) : b.SortedKeys :=
  List.Pairwise.imp (fun h => Int.le_of_lt h) h

theorem takeWhile_eq_filter (b : Buf α) (h : b.SortedKeys) (p : Int × α → Bool)
    (hp : ∀ a c : Int × α, a.1 ≤ c.1 → p c = true → p a = true) :
    b.takeWhile p = b.filter p ∧ b.dropWhile p = b.filter (fun e => !p e) := by
  induction b with
  | nil => simp
  | cons e r ih =>
    have hr : SortedKeys r := (List.pairwise_cons.mp h).2
    have he := (List.pairwise_cons.mp h).1
    obtain ⟨h1, h2⟩ := ih hr
    cases hpe : p e with
    | true => simp [List.takeWhile_cons, List.dropWhile_cons, hpe, h1, h2]
    | false =>
      have hall : ∀ x ∈ r, p x = false := by
        intro x hx
        by_contra hc
        have := hp e x (he x hx) (by simpa using hc)
        rw [hpe] at this; cases this
      have hf : r.filter p = [] := by
        rw [List.filter_eq_nil_iff]; intro a ha; simp [hall a ha]
      have hf2 : r.filter (fun e => !p e) = r := by
        rw [List.filter_eq_self]; intro a ha; simp [hall a ha]
      simp [List.takeWhile_cons, List.dropWhile_cons, hpe, hf, hf2]

theorem lowerBound_eq (b : Buf α) (h : b.SortedKeys) (t : Int) :
    b.lowerBound t = b.filter (fun e => decide (t ≤ e.1)) := by
  have := (takeWhile_eq_filter b h (fun e => decide (e.1 < t))
    (by intro a c hac hc; simp at *; omega)).2
  unfold lowerBound; rw [this]; congr 1; funext e; rw [Bool.eq_iff_iff]; simp

theorem belowLB_eq (b : Buf α) (h : b.SortedKeys) (t : Int) :
    b.belowLB t = b.filter (fun e => decide (e.1 < t)) :=
  (takeWhile_eq_filter b h (fun e => decide (e.1 < t)) (by intro a c hac hc; simp at *; omega)).1

theorem upperBound_eq (b : Buf α) (h : b.SortedKeys) (t : Int) :
    b.upperBound t = b.filter (fun e => decide (t < e.1)) := by
  have := (takeWhile_eq_filter b h (fun e => !decide (t < e.1))
    (by intro a c hac hc; simp at *; omega)).2
  unfold upperBound; rw [this]; congr 1; funext e; rw [Bool.eq_iff_iff]; simp

theorem belowUB_eq (b : Buf α) (h : b.SortedKeys) (t : Int) :
    b.belowUB t = b.filter (fun e => decide (e.1 ≤ t)) := by
  have := (takeWhile_eq_filter b h (fun e => !decide (t < e.1))
    (by intro a c hac hc; simp at *; omega)).1
  unfold belowUB; rw [this]; congr 1; funext e; rw [Bool.eq_iff_iff]; simp

theorem SortedKeys.filter {b : Buf α} (h : b.SortedKeys) (p) : SortedKeys (b.filter p) :=
  List.Pairwise.filter p h
theorem StrictKeys.filter {b : Buf α} (h : b.StrictKeys) (p) : StrictKeys (b.filter p) :=
  List.Pairwise.filter p h

theorem range_eq (b : Buf α) (h : b.SortedKeys) (t1 t2 : Int) :
    b.range t1 t2 = b.filter (fun e => decide (t1 ≤ e.1) && decide (e.1 ≤ t2)) := by
  unfold range
  rw [lowerBound_eq b h, belowUB_eq _ (h.filter _), List.filter_filter]
  congr 1; funext e; exact Bool.and_comm _ _

/-- In a sorted buffer every element is at or before the last. -/
theorem SortedKeys.le_getLast {b : Buf α} (h : b.SortedKeys) {l : Int × α}
    (hl : b.getLast? = some l) : ∀ e ∈ b, e.1 ≤ l.1 := by
  obtain ⟨r, rfl⟩ := List.getLast?_eq_some_iff.mp hl
  intro e he
  rcases List.mem_append.mp he with he | he
  · exact (List.pairwise_append.mp h).2.2 e he l (by simp)
  · simp at he; rw [he]

theorem SortedKeys.head_le {b : Buf α} (h : b.SortedKeys) {o : Int × α}
    (ho : b.head? = some o) : ∀ e ∈ b, o.1 ≤ e.1 := by
  cases b with
  | nil => simp at ho
  | cons x r =>
    simp at ho; subst ho
    intro e he
    rcases List.mem_cons.mp he with rfl | he
    · exact le_rfl
    · exact (List.pairwise_cons.mp h).1 e he

theorem removeBefore_eq (b : Buf α) (h : b.SortedKeys) (t : Int) :
    b.removeBefore t = if ∃ e ∈ b, t ≤ e.1 then b.filter (fun e => decide (t ≤ e.1)) else b := by
  unfold removeBefore
  rw [lowerBound_eq b h]
  split
  · rename_i heq
    rw [List.filter_eq_nil_iff] at heq
    rw [if_neg]
    rintro ⟨e, he, hle⟩
    have := heq e he; simp at this; omega
  · rename_i hne
    rw [if_pos]
    by_contra hc
    apply hne
    rw [List.filter_eq_nil_iff]
    intro a ha; simp; by_contra hc'; exact hc ⟨a, ha, by omega⟩

theorem removeAfter_eq (b : Buf α) (h : b.SortedKeys) (t : Int) :
    b.removeAfter t = b.filter (fun e => decide (e.1 ≤ t)) := by
  unfold removeAfter
  rw [upperBound_eq b h]
  split
  · rename_i heq
    rw [List.filter_eq_nil_iff] at heq
    symm; rw [List.filter_eq_self]
    intro a ha; have := heq a ha; simp at *; omega
  · rw [belowUB_eq b h]

theorem getBefore_eq (b : Buf α) (h : b.SortedKeys) (t : Int) :
    b.getBefore t = (b.filter (fun e => decide (e.1 < t))).getLast? := by
  unfold getBefore
  rw [lowerBound_eq b h, belowLB_eq b h]
  split
  · rename_i heq
    split
    · rename_i h2; simp only [List.isEmpty_iff] at h2; simp [h2]
    · rfl
  · rename_i heq
    rw [List.filter_eq_nil_iff] at heq
    have : b.filter (fun e => decide (e.1 < t)) = b := by
      rw [List.filter_eq_self]; intro a ha; have := heq a ha; simp at *; omega
    rw [this]
    cases b <;> simp

theorem getAfter_eq (b : Buf α) (h : b.SortedKeys) (t : Int) :
    b.getAfter t = (b.filter (fun e => decide (t < e.1))).head? := by
  unfold getAfter; rw [upperBound_eq b h]

theorem existAfter_iff (b : Buf α) (h : b.SortedKeys) (t : Int) :
    b.existAfter t = true ↔ ∃ e ∈ b, t < e.1 := by
  unfold existAfter
  rw [upperBound_eq b h]
  cases b with
  | nil => simp
  | cons x r =>
    simp only [List.isEmpty_cons, Bool.not_false, if_true]
    split
    · rename_i heq
      rw [List.filter_eq_nil_iff] at heq
      simp only [Bool.false_eq_true, false_iff]
      rintro ⟨e, he, hlt⟩
      have := heq e he; simp at this; omega
    · rename_i y ys heq
      simp only [true_iff]
      have hm : y ∈ List.filter (fun e => decide (t < e.1)) (x :: r) := by rw [heq]; simp
      rw [List.mem_filter] at hm
      exact ⟨y, hm.1, by simpa using hm.2⟩

theorem existBefore_iff (b : Buf α) (h : b.SortedKeys) (t : Int) :
    b.existBefore t = true ↔ ∃ e ∈ b, e.1 < t := by
  unfold existBefore
  rw [lowerBound_eq b h, belowLB_eq b h]
  cases b with
  | nil => simp
  | cons x r =>
    simp only [List.isEmpty_cons, Bool.not_false, if_true]
    split
    · simp only [Bool.not_eq_true', ite_eq_left_iff, Bool.not_eq_false, Bool.false_eq_true,
        imp_false]
      rw [Bool.not_eq_true, List.isEmpty_eq_false_iff, ne_eq, List.filter_eq_nil_iff]
      simp only [decide_eq_true_eq, not_forall, exists_prop, not_not]
    · rename_i heq
      rw [List.filter_eq_nil_iff] at heq
      simp only [List.length_cons, ne_eq, Nat.add_eq_zero_iff, Nat.succ_ne_self, and_false,
        not_false_eq_true, if_true, true_iff]
      exact ⟨x, by simp, by have := heq x (by simp); simp at this; omega⟩

theorem existAt_iff (b : Buf α) (t : Int) : b.existAt t = true ↔ ∃ e ∈ b, e.1 = t := by
  unfold existAt
  cases b with
  | nil => simp
  | cons x r => simp [List.find?_isSome]

/-! ### insertion -/

theorem mem_insertMap (b : Buf α) (h : b.StrictKeys) (k : Int) (v : α) (e : Int × α) :
    e ∈ b.insertMap k v ↔ e = (k, v) ∨ (e ∈ b ∧ e.1 ≠ k) := by
  induction b with
  | nil => simp [insertMap]
  | cons x r ih =>
    have hr : StrictKeys r := (List.pairwise_cons.mp h).2
    have hx := (List.pairwise_cons.mp h).1
    unfold insertMap
    split
    · rename_i hlt
      simp only [List.mem_cons]
      constructor
      · rintro (h | h | h)
        · simp [h]
        · subst h; exact Or.inr ⟨Or.inl rfl, by omega⟩
        · have := hx e h; exact Or.inr ⟨Or.inr h, by omega⟩
      · rintro (h | ⟨h | h, _⟩) <;> simp [h]
    · split
      · rename_i h1 h2
        simp at h2
        simp only [List.mem_cons]
        constructor
        · rintro (h | h)
          · simp [h]
          · have := hx e h; exact Or.inr ⟨Or.inr h, by omega⟩
        · rintro (h | ⟨h | h, hne⟩)
          · simp [h]
          · subst h; omega
          · simp [h]
      · rename_i h1 h2
        simp at h2
        simp only [List.mem_cons, ih hr]
        constructor
        · rintro (h | h | ⟨h, hne⟩)
          · subst h; exact Or.inr ⟨Or.inl rfl, by omega⟩
          · simp [h]
          · exact Or.inr ⟨Or.inr h, hne⟩
        · rintro (h | ⟨h | h, hne⟩)
          · simp [h]
          · simp [h]
          · exact Or.inr (Or.inr ⟨h, hne⟩)

theorem strict_insertMap (b : Buf α) (h : b.StrictKeys) (k : Int) (v : α) :
    (b.insertMap k v).StrictKeys := by
  induction b with
  | nil => simp [insertMap, StrictKeys]
  | cons x r ih =>
    have hr : StrictKeys r := (List.pairwise_cons.mp h).2
    have hx := (List.pairwise_cons.mp h).1
    unfold insertMap
    split
    · rename_i hlt
      unfold StrictKeys
      rw [List.pairwise_cons]
      refine ⟨?_, h⟩
      intro a ha
      rcases List.mem_cons.mp ha with rfl | ha
      · exact hlt
      · have := hx a ha; simp; omega
    · split
      · rename_i h1 h2
        simp at h2
        unfold StrictKeys
        rw [List.pairwise_cons]
        refine ⟨?_, hr⟩
        intro a ha
        have := hx a ha; simp; omega
      · rename_i h1 h2
        simp at h2
        unfold StrictKeys
        rw [List.pairwise_cons]
        refine ⟨?_, ih hr⟩
        intro a ha
        rw [mem_insertMap r hr] at ha
        rcases ha with rfl | ⟨ha, _⟩
        · simp; omega
        · exact hx a ha

/-- Lookup in a map buffer. -/
theorem getAt_eq_some (b : Buf α) (h : b.StrictKeys) (t : Int) (e : Int × α) :
    b.getAt t = some e ↔ e ∈ b ∧ e.1 = t := by
  unfold getAt
  induction b with
  | nil => simp
  | cons x r ih =>
    have hr : StrictKeys r := (List.pairwise_cons.mp h).2
    have hx := (List.pairwise_cons.mp h).1
    rw [List.find?_cons]
    split
    · rename_i heq
      simp at heq
      simp only [Option.some.injEq, List.mem_cons]
      constructor
      · rintro rfl; exact ⟨Or.inl rfl, heq⟩
      · rintro ⟨rfl | he, hk⟩
        · rfl
        · have := hx e he; omega
    · rename_i heq
      simp at heq
      rw [ih hr]
      simp only [List.mem_cons]
      constructor
      · rintro ⟨h1, h2⟩; exact ⟨Or.inr h1, h2⟩
      · rintro ⟨rfl | he, hk⟩
        · omega
        · exact ⟨he, hk⟩

theorem getAt_eq_none (b : Buf α) (t : Int) : b.getAt t = none ↔ ∀ e ∈ b, e.1 ≠ t := by
  unfold getAt; simp [List.find?_eq_none]

/-- Multimap insertion splits the list at the upper bound. -/
theorem insertMulti_eq (b : Buf α) (k : Int) (v : α) :
    b.insertMulti k v = b.belowUB k ++ (k, v) :: b.upperBound k := by
  induction b with
  | nil => simp [insertMulti, belowUB, upperBound]
  | cons x r ih =>
    unfold insertMulti
    split
    · rename_i h; simp [belowUB, upperBound, h]
    · rename_i h
      rw [ih]; simp [belowUB, upperBound, h]

theorem sorted_insertMulti (b : Buf α) (h : b.SortedKeys) (k : Int) (v : α) :
    (b.insertMulti k v).SortedKeys := by
  rw [insertMulti_eq, belowUB_eq b h, upperBound_eq b h]
  unfold SortedKeys
  rw [List.pairwise_append]
  refine ⟨h.filter _, ?_, ?_⟩
  · rw [List.pairwise_cons]
    refine ⟨?_, h.filter _⟩
    intro a ha; simp at ha; omega
  · intro a ha c hc
    simp at ha hc
    rcases hc with rfl | hc
    · simp; omega
    · omega

theorem perm_insertMulti (b : Buf α) (k : Int) (v : α) :
    (b.insertMulti k v).Perm ((k, v) :: b) := by
  rw [insertMulti_eq]
  refine List.perm_middle.trans ?_
  have : b.belowUB k ++ b.upperBound k = b := List.takeWhile_append_dropWhile
  rw [this]

theorem mem_insertMulti (b : Buf α) (k : Int) (v : α) (e : Int × α) :
    e ∈ b.insertMulti k v ↔ e = (k, v) ∨ e ∈ b := by
  rw [(perm_insertMulti b k v).mem_iff]; simp

/-- Concurrent elements stay in insertion order. -/
theorem filter_key_insertMulti (b : Buf α) (h : b.SortedKeys) (k : Int) (v : α) (t : Int) :
    (b.insertMulti k v).filter (fun e => e.1 == t) =
      b.filter (fun e => e.1 == t) ++ (if k = t then [(k, v)] else []) := by
  have hb : b = b.belowUB k ++ b.upperBound k := List.takeWhile_append_dropWhile.symm
  conv_rhs => rw [hb]
  rw [insertMulti_eq]
  simp only [List.filter_append, List.filter_cons]
  by_cases hk : k = t
  · subst hk
    have : (b.upperBound k).filter (fun e => e.1 == k) = [] := by
      rw [upperBound_eq b h, List.filter_filter, List.filter_eq_nil_iff]
      intro a _; simp; omega
    simp [this]
  · simp [hk]

end Buf
end Ikf
