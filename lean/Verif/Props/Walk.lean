import Verif.Model.Walk
import Verif.Props.HistBuffer
import Verif.Props.MultiBuffer

/-! # Property C109: visiting all elements of a buffer -/

namespace Ikf
open Buf
variable {α : Type _}

/-! ## Specification -/

/-- `w` lists the finite map `f` in the order of time. -/
def ListsMap (f : Int → Option α) (w : List (Int × α)) : Prop :=
  w.Pairwise (fun x y => x.1 < y.1) ∧ ∀ k v, (k, v) ∈ w ↔ f k = some v

/-- `w` lists the values `f` holds for each time in the order of time, those of the same time in the order of `f`. -/
def ListsBag (f : Int → List α) (w : List (Int × α)) : Prop :=
  w.Pairwise (fun x y => x.1 ≤ y.1) ∧ ∀ k, (w.filter (fun e => e.1 == k)).map (·.2) = f k

/-- Every way to visit the elements of the buffer `b` visits those of `w`, each once and in that order, or in the reverse order. -/
structure Visits (b : Buf α) (w : List (Int × α)) : Prop where
  size : b.length = w.length
  values : ∀ {σ : Type} (op : σ → α → σ) (s : σ), forEach op s b = (w.map (·.2)).foldl op s
  times : ∀ {σ : Type} (op : σ → Int → σ) (s : σ), forEachT op s b = (w.map (·.1)).foldl op s
  reverse : ∀ {σ : Type} (op : σ → α → σ) (s : σ), forEachReverse op s b = (w.map (·.2)).reverse.foldl op s
  accumulated : ∀ (op : α → α → α) (init : α), accumulate op init b = (w.map (·.2)).foldl op init
  indexed : ∀ i, b.at? i = w[i]?
  streamed : stream b = (w.length, w)
  oldest : ∀ N, 0 < N → Buf.print b N = w.take N
  newest : ∀ N, 0 < N → Buf.printReverse b N = (w.drop (w.length - N)).reverse
  all : Buf.print b 0 = w ∧ Buf.printReverse b 0 = w.reverse

/-! ## Proofs -/

theorem forEach_eq {σ : Type} (op : σ → α → σ) (b : Buf α) : ∀ s, forEach op s b = (b.map (·.2)).foldl op s := by
  induction b with
  | nil => intro s; rfl
  | cons e b ih => intro s; exact ih _

theorem forEachT_eq {σ : Type} (op : σ → Int → σ) (b : Buf α) : ∀ s, forEachT op s b = (b.map (·.1)).foldl op s := by
  induction b with
  | nil => intro s; rfl
  | cons e b ih => intro s; exact ih _

theorem accumulate_eq (op : α → α → α) (b : Buf α) : ∀ s, accumulate op s b = (b.map (·.2)).foldl op s := by
  induction b with
  | nil => intro s; rfl
  | cons e b ih => intro s; exact ih _

theorem printLoop_eq (len : ℕ) (b : Buf α) : ∀ cnt, printLoop len cnt b = b.take (len - cnt) := by
  induction b with
  | nil => intro cnt; simp [printLoop]
  | cons e b ih =>
    intro cnt
    unfold printLoop
    split
    · rw [ih, show len - cnt = (len - (cnt + 1)) + 1 by omega, List.take_succ_cons]
    · rw [show len - cnt = 0 by omega, List.take_zero]

theorem visits_self (b : Buf α) : Visits b b where
  size := rfl
  values op s := forEach_eq op b s
  times op s := forEachT_eq op b s
  reverse op s := by
    unfold forEachReverse
    rw [forEach_eq, List.map_reverse]
  accumulated op s := accumulate_eq op b s
  indexed i := by
    unfold Buf.at?
    split
    · rfl
    · rw [List.getElem?_eq_none (by omega)]
  streamed := rfl
  oldest N hN := by
    unfold Buf.print
    rw [if_neg (by omega), printLoop_eq, Nat.sub_zero]
  newest N hN := by
    unfold Buf.printReverse
    rw [if_neg (by omega), printLoop_eq, Nat.sub_zero, List.take_reverse]
  all := by
    unfold Buf.print Buf.printReverse
    rw [if_pos rfl, printLoop_eq, printLoop_eq, Nat.sub_zero, List.take_length]
    refine ⟨rfl, ?_⟩
    rw [List.take_of_length_le (by simp)]

theorem ListsMap.unique {f : Int → Option α} {w w' : List (Int × α)} (h : ListsMap f w) (h' : ListsMap f w') : w = w' := by
  have nd : ∀ {u : List (Int × α)}, ListsMap f u → u.Nodup := fun hu =>
    hu.1.imp (fun hlt he => by rw [he] at hlt; exact lt_irrefl _ hlt)
  have hp : w.Perm w' := (List.perm_ext_iff_of_nodup (nd h) (nd h')).mpr (fun e => by
    obtain ⟨k, v⟩ := e
    rw [h.2, h'.2])
  exact hp.eq_of_pairwise (fun a b _ _ hab hba => absurd hab (not_lt.mpr hba.le)) h.1 h'.1

theorem eq_of_filters {w : List (Int × α)} : ∀ {w' : List (Int × α)}, w.Pairwise (fun x y => x.1 ≤ y.1) → w'.Pairwise (fun x y => x.1 ≤ y.1) →
    (∀ k, w.filter (fun e => e.1 == k) = w'.filter (fun e => e.1 == k)) → w = w' := by
  have mem : ∀ {u u' : List (Int × α)} {e : Int × α}, (∀ k, u.filter (fun e => e.1 == k) = u'.filter (fun e => e.1 == k)) → e ∈ u → e ∈ u' := by
    intro u u' e h he
    have : e ∈ u.filter (fun x => x.1 == e.1) := List.mem_filter.mpr ⟨he, by simp⟩
    rw [h] at this
    exact (List.mem_filter.mp this).1
  induction w with
  | nil =>
    intro w' _ _ h
    cases w' with
    | nil => rfl
    | cons e w' =>
      have := mem (fun k => (h k).symm) (List.mem_cons_self (a := e) (l := w'))
      simp at this
  | cons e w ih =>
    intro w' hw hw' h
    cases w' with
    | nil =>
      have := mem h (List.mem_cons_self (a := e) (l := w))
      simp at this
    | cons e' w' =>
      have h1 : e'.1 ≤ e.1 := by
        rcases List.mem_cons.mp (mem h (List.mem_cons_self (a := e) (l := w))) with he | he
        · rw [he]
        · exact (List.pairwise_cons.mp hw').1 _ he
      have h2 : e.1 ≤ e'.1 := by
        rcases List.mem_cons.mp (mem (fun k => (h k).symm) (List.mem_cons_self (a := e') (l := w'))) with he | he
        · rw [he]
        · exact (List.pairwise_cons.mp hw).1 _ he
      have hk : e'.1 = e.1 := le_antisymm h1 h2
      have h3 := h e.1
      rw [List.filter_cons_of_pos (by simp), List.filter_cons_of_pos (by simp [hk])] at h3
      have he : e = e' := (List.cons.inj h3).1
      subst he
      congr 1
      refine ih (List.pairwise_cons.mp hw).2 (List.pairwise_cons.mp hw').2 (fun k => ?_)
      have h4 := h k
      by_cases hek : e.1 = k
      · rw [List.filter_cons_of_pos (by simp [hek]), List.filter_cons_of_pos (by simp [hek])] at h4
        exact (List.cons.inj h4).2
      · rw [List.filter_cons_of_neg (by simp [hek]), List.filter_cons_of_neg (by simp [hek])] at h4
        exact h4

theorem ListsBag.unique {f : Int → List α} {w w' : List (Int × α)} (h : ListsBag f w) (h' : ListsBag f w') : w = w' := by
  have hf : ∀ k, w.filter (fun e => e.1 == k) = w'.filter (fun e => e.1 == k) := by
    intro k
    have pair : ∀ u : List (Int × α), u.filter (fun e => e.1 == k) = ((u.filter (fun e => e.1 == k)).map (·.2)).map (fun v => (k, v)) := by
      intro u
      induction u with
      | nil => rfl
      | cons e u ih =>
        rw [List.filter_cons]
        split
        · rename_i he
          have : e.1 = k := by simpa using he
          rw [List.map_cons, List.map_cons, ← ih, ← this]
        · exact ih
    rw [pair w, pair w', h.2, h'.2]
  exact eq_of_filters h.1 h'.1 hf

/-! ## Theorems -/

/-- C109. After any history of a buffer with one element per time, there is one list of what it holds in the order of time, and every way
to visit the elements follows it. -/
theorem c109_map (ops : List (MapOp α)) (b : Buf α) (hr : mapRun [] ops = some b) :
    ∃ w, ListsMap (ops.foldl specStep (fun _ => none)) w ∧
      (∀ w', ListsMap (ops.foldl specStep (fun _ => none)) w' → w' = w) ∧ Visits b w := by
  obtain ⟨h1, h2, -, -⟩ := c05_refines_finite_map ops b hr
  have hb : ListsMap (ops.foldl specStep (fun _ => none)) b := ⟨h1, h2⟩
  exact ⟨b, hb, fun w' h' => h'.unique hb, visits_self b⟩

/-- C109. The same for a buffer with several elements per time, which are visited in the order they arrived. -/
theorem c109_multi (ops : List (MultiOp α)) :
    ∃ w, ListsBag (ops.foldl bagStep (fun _ => [])) w ∧
      (∀ w', ListsBag (ops.foldl bagStep (fun _ => [])) w' → w' = w) ∧ Visits (ops.foldl multiStep []) w := by
  obtain ⟨h1, h2⟩ := multiRun_refines ops ([] : Buf α) List.Pairwise.nil
  have hb : ListsBag (ops.foldl bagStep (fun _ => [])) (ops.foldl multiStep []) := by
    refine ⟨h1, fun k => ?_⟩
    have := congrFun h2 k
    exact this
  exact ⟨_, hb, fun w' h' => h'.unique hb, visits_self _⟩

/-- C109. After insertions only, the visit is the sequence of insertions sorted by time, insertions of the same time in their order. -/
theorem c109_insertions (ins : List (Int × α)) :
    Visits ((ins.map (fun e => MultiOp.insert e.1 e.2)).foldl multiStep []) (ins.mergeSort (fun x y => decide (x.1 ≤ y.1))) := by
  obtain ⟨w, hw, hu, hv⟩ := c109_multi (ins.map (fun e => MultiOp.insert e.1 e.2))
  have hval : ∀ (l : List (Int × α)) (f : Int → List α),
      (l.map (fun e => MultiOp.insert e.1 e.2)).foldl bagStep f = fun k => f k ++ (l.filter (fun e => e.1 == k)).map (·.2) := by
    intro l
    induction l with
    | nil => intro f; funext k; simp
    | cons e l ih =>
      intro f
      rw [List.map_cons, List.foldl_cons, ih]
      funext k
      by_cases hk : k = e.1
      · subst hk
        simp [bagStep]
      · simp [bagStep, hk, Ne.symm hk]
  have hs : ListsBag ((ins.map (fun e => MultiOp.insert e.1 e.2)).foldl bagStep (fun _ => []))
      (ins.mergeSort (fun x y => decide (x.1 ≤ y.1))) := by
    constructor
    · have := List.pairwise_mergeSort (le := fun x y : Int × α => decide (x.1 ≤ y.1))
        (fun a b c h1 h2 => by simp at *; omega) (fun a b => by simp; omega) ins
      exact this.imp (fun h => by simpa using h)
    · intro k
      rw [hval]
      simp only [List.nil_append]
      congr 1
      have h1 : (ins.filter (fun e => e.1 == k)).Sublist (ins.mergeSort (fun x y => decide (x.1 ≤ y.1))) :=
        List.sublist_mergeSort (fun a b c h1 h2 => by simp at *; omega) (fun a b => by simp; omega)
          (List.pairwise_of_forall_mem_list (fun a ha b hb => by
            have ha' := (List.mem_filter.mp ha).2
            have hb' := (List.mem_filter.mp hb).2
            simp at ha' hb' ⊢
            omega)) List.filter_sublist
      have h2 := h1.filter (fun e => e.1 == k)
      rw [List.filter_filter] at h2
      simp only [Bool.and_self] at h2
      refine (h2.eq_of_length ?_).symm
      exact (((List.mergeSort_perm ins (fun x y => decide (x.1 ≤ y.1))).filter (fun e => e.1 == k)).length_eq).symm
  rw [← hu _ hs] at hv
  exact hv

/-! ## Examples -/

/-- Three insertions out of order, two of them at the same time. -/
example : Buf.print (([(3, "a"), (1, "b"), (3, "c")].map (fun e => MultiOp.insert e.1 e.2)).foldl multiStep []) 2 = [((1 : Int), "b"), (3, "a")] :=
  rfl

example : mapRun [] [.insert 3 "a", .insert 1 "b", .insert 3 "c"] = some [((1 : Int), "b"), (3, "c")] := rfl

end Ikf
