import Verif.Model.Heap
import Verif.Lemmas.Iterated
import Verif.Props.FactorStore

/-! # Lemmas: histories of pointers show the histories of values -/

namespace Ikf
open Mat

/-! ## Buffers do not look at the values -/
namespace Buf
variable {α β : Type _}

/-- The values changed. -/
def mv (f : α → β) (b : Buf α) : Buf β := b.map (fun e => (e.1, f e.2))

theorem mv_cons (f : α → β) (e : Int × α) (r : Buf α) : mv f (e :: r) = (e.1, f e.2) :: mv f r := rfl

theorem mv_length (f : α → β) (b : Buf α) : (mv f b).length = b.length := List.length_map _

theorem mv_isEmpty (f : α → β) (b : Buf α) : (mv f b).isEmpty = b.isEmpty := by cases b <;> rfl

theorem find_mv (f : α → β) (b : Buf α) (p : Int → Bool) : (mv f b).find? (fun e => p e.1) = (b.find? (fun e => p e.1)).map (fun e => (e.1, f e.2)) := by
  unfold mv; rw [List.find?_map]; rfl

theorem getAt_mv (f : α → β) (b : Buf α) (t : Int) : (mv f b).getAt t = (b.getAt t).map (fun e => (e.1, f e.2)) :=
  find_mv f b (fun k => k == t)

theorem existAt_mv (f : α → β) (b : Buf α) (t : Int) : (mv f b).existAt t = b.existAt t := by
  unfold existAt
  rw [mv_isEmpty, find_mv f b (fun k => k == t)]
  simp

theorem dropWhile_mv (f : α → β) (b : Buf α) (p : Int → Bool) : (mv f b).dropWhile (fun e => p e.1) = mv f (b.dropWhile (fun e => p e.1)) := by
  induction b with
  | nil => rfl
  | cons e r ih =>
    rw [mv_cons, List.dropWhile_cons, List.dropWhile_cons]
    simp only
    split
    · exact ih
    · rfl

theorem takeWhile_mv (f : α → β) (b : Buf α) (p : Int → Bool) : (mv f b).takeWhile (fun e => p e.1) = mv f (b.takeWhile (fun e => p e.1)) := by
  induction b with
  | nil => rfl
  | cons e r ih =>
    rw [mv_cons, List.takeWhile_cons, List.takeWhile_cons]
    simp only
    split
    · rw [ih]; rfl
    · rfl

theorem lowerBound_mv (f : α → β) (b : Buf α) (t : Int) : (mv f b).lowerBound t = mv f (b.lowerBound t) := dropWhile_mv f b (fun k => decide (k < t))
theorem upperBound_mv (f : α → β) (b : Buf α) (t : Int) : (mv f b).upperBound t = mv f (b.upperBound t) := dropWhile_mv f b (fun k => !decide (t < k))
theorem belowLB_mv (f : α → β) (b : Buf α) (t : Int) : (mv f b).belowLB t = mv f (b.belowLB t) := takeWhile_mv f b (fun k => decide (k < t))
theorem belowUB_mv (f : α → β) (b : Buf α) (t : Int) : (mv f b).belowUB t = mv f (b.belowUB t) := takeWhile_mv f b (fun k => !decide (t < k))

theorem existBefore_mv (f : α → β) (b : Buf α) (t : Int) : (mv f b).existBefore t = b.existBefore t := by
  unfold existBefore
  rw [mv_isEmpty, lowerBound_mv, belowLB_mv, mv_isEmpty, mv_length]
  cases b.lowerBound t <;> rfl

theorem removeAfter_mv (f : α → β) (b : Buf α) (t : Int) : (mv f b).removeAfter t = mv f (b.removeAfter t) := by
  unfold removeAfter
  rw [upperBound_mv, belowUB_mv]
  cases b.upperBound t <;> rfl

theorem removeBefore_mv (f : α → β) (b : Buf α) (t : Int) : (mv f b).removeBefore t = mv f (b.removeBefore t) := by
  unfold removeBefore
  rw [lowerBound_mv]
  cases b.lowerBound t <;> rfl

theorem removeAt_mv (f : α → β) (b : Buf α) (t : Int) : (mv f b).removeAt t = mv f (b.removeAt t) := by
  unfold removeAt mv
  rw [List.filter_map]; rfl

theorem insertMap_mv (f : α → β) (b : Buf α) (t : Int) (v : α) : (mv f b).insertMap t (f v) = mv f (b.insertMap t v) := by
  induction b with
  | nil => rfl
  | cons e r ih =>
    rw [mv_cons, insertMap, insertMap]
    simp only
    split
    · rfl
    · split
      · rfl
      · rw [ih]; rfl

theorem latest_mv (f : α → β) (b : Buf α) : (mv f b).latest = b.latest.map (fun e => (e.1, f e.2)) := by
  unfold latest mv; rw [List.getLast?_map]

theorem oldest_mv (f : α → β) (b : Buf α) : (mv f b).oldest = b.oldest.map (fun e => (e.1, f e.2)) := by
  unfold oldest mv; rw [List.head?_map]

theorem horizon_mv (fp : FP) (f : α → β) (b : Buf α) : (mv f b).horizon fp = b.horizon fp := by
  unfold horizon
  rw [latest_mv, oldest_mv, mv_length]
  cases b.latest <;> cases b.oldest <;> rfl

theorem checkHorizonRestricted_mv (fp : FP) (max : ℚ) (f : α → β) (b : Buf α) (n : ℕ) :
    checkHorizonRestricted fp max (mv f b) n = mv f (checkHorizonRestricted fp max b n) := by
  unfold checkHorizonRestricted
  rw [mv_length, horizon_mv, latest_mv]
  split
  · cases b.latest with
    | none => rfl
    | some l => exact removeBefore_mv f b _
  · rfl

theorem checkHorizonRestricted_sublist (fp : FP) (max : ℚ) (b : Buf α) (n : ℕ) : (checkHorizonRestricted fp max b n).Sublist b := by
  unfold checkHorizonRestricted
  split
  · split
    · unfold removeBefore
      split
      · exact List.Sublist.refl _
      · exact List.dropWhile_sublist _
    · exact List.Sublist.refl _
  · exact List.Sublist.refl _

theorem removeAfter_sublist (b : Buf α) (t : Int) : (b.removeAfter t).Sublist b := by
  unfold removeAfter
  split
  · exact List.Sublist.refl _
  · exact List.takeWhile_sublist _

end Buf

namespace PInst

/-- `a` is stored in the history. -/
def Holds (i : PInst) (a : ℕ) : Prop := ∃ k, (k, a) ∈ i.ptr

/-- Increasing times, no object stored twice, all objects exist. -/
structure Sep (H : Heap) (i : PInst) : Prop where
  keys : i.ptr.StrictKeys
  inj : ∀ k l a, (k, a) ∈ i.ptr → (l, a) ∈ i.ptr → k = l
  lt : ∀ k a, (k, a) ∈ i.ptr → a < H.next

/-- A call turned `(H, i)` into `(H', i')`, and touched only objects of `i`, the object `ext` given by the caller, and new
ones. -/
structure Step (ext : Option ℕ) (H : Heap) (i : PInst) (H' : Heap) (i' : PInst) : Prop where
  next : H.next ≤ H'.next
  frame : ∀ a, a < H.next → ¬ i.Holds a → ext ≠ some a → H'.val a = H.val a
  holds : ∀ a, i'.Holds a → i.Holds a ∨ ext = some a ∨ (H.next ≤ a ∧ a < H'.next)
  sep : i'.Sep H'

theorem Step.refl {H : Heap} {i : PInst} (hs : i.Sep H) (ext : Option ℕ) : Step ext H i H i :=
  ⟨le_rfl, fun _ _ _ _ => rfl, fun _ h => Or.inl h, hs⟩

/-- Removing entries and changing factors is a step. -/
theorem Step.sub {ext : Option ℕ} {H H' : Heap} {i i' j : PInst} (h : Step ext H i H' i') (hs : j.ptr.Sublist i'.ptr) : Step ext H i H' j where
  next := h.next
  frame := h.frame
  holds a := fun ⟨k, hk⟩ => h.holds a ⟨k, hs.subset hk⟩
  sep := ⟨h.sep.keys.sublist hs, fun k l a h1 h2 => h.sep.inj k l a (hs.subset h1) (hs.subset h2), fun k a h1 => h.sep.lt k a (hs.subset h1)⟩

theorem view_bel (H : Heap) (i : PInst) : (i.view H).bel = Buf.mv H.val i.ptr := rfl

theorem beliefAt_view (H : Heap) (i : PInst) (t : Int) : (i.view H).beliefAt t = (i.ptr.getAt t).map (fun e => H.val e.2) := by
  unfold Inst.beliefAt
  rw [view_bel, Buf.getAt_mv]
  cases i.ptr.getAt t <;> rfl

theorem view_congr {H H' : Heap} {i : PInst} (h : ∀ k a, (k, a) ∈ i.ptr → H'.val a = H.val a) : i.view H' = i.view H := by
  unfold view
  congr 1
  apply List.map_congr_left
  intro e he
  rw [h e.1 e.2 he]

theorem mem_of_getAt {b : Buf ℕ} {t : Int} {e : Int × ℕ} (h : b.getAt t = some e) : (t, e.2) ∈ b := by
  unfold Buf.getAt at h
  have h1 := List.mem_of_find?_eq_some h
  have h2 := List.find?_some h
  simp only [beq_iff_eq] at h2
  rw [← h2]; exact h1

theorem addCorrection_view (H : Heap) (i : PInst) (ta tb : Int) (F : Mat) :
    (i.view H).addCorrection ta tb F = (i.addCorrection ta tb F).mapv (fun j => j.view H) := by
  unfold Inst.addCorrection addCorrection
  show (SMap.mapR _ i.ccf >>= _) = _
  cases SMap.mapR (Inst.bufMul ta tb F) i.ccf <;> rfl

theorem addCorrection_ptr {i j : PInst} {ta tb : Int} {F : Mat} (h : i.addCorrection ta tb F = .ok j) : j.ptr = i.ptr := by
  unfold addCorrection at h
  obtain ⟨c, _, h⟩ := Hdl.bind_eq_ok h
  rw [← Res.ok.inj h]

theorem checkHorizon_view (fp : FP) (H : Heap) (i : PInst) : (i.view H).checkHorizon fp = (i.checkHorizon fp).view H := by
  unfold Inst.checkHorizon checkHorizon
  show Inst.mk (Buf.checkHorizonRestricted fp i.hor (Buf.mv H.val i.ptr) 4) _ _ = _
  rw [Buf.checkHorizonRestricted_mv]; rfl

theorem checkHorizon_sub (fp : FP) (i : PInst) : (i.checkHorizon fp).ptr.Sublist i.ptr := Buf.checkHorizonRestricted_sublist fp i.hor i.ptr 4

/-- What storing a new pointer shows. -/
theorem setPtr_view {H : Heap} {i : PInst} (a : ℕ) (t : Int) : (i.setPtr a t).view H = (i.view H).setBelief (H.val a) t := by
  unfold setPtr view Inst.setBelief
  congr 1
  exact (Buf.insertMap_mv H.val i.ptr t a).symm

theorem setPtr_holds {H : Heap} {i : PInst} (hs : i.Sep H) (a x : ℕ) (t : Int) (h : (i.setPtr a t).Holds x) : x = a ∨ i.Holds x := by
  obtain ⟨k, hk⟩ := h
  rcases (Buf.mem_insertMap _ hs.keys t a (k, x)).mp hk with h | h
  · exact Or.inl (Prod.mk.inj h).2
  · exact Or.inr ⟨k, h.1⟩

theorem setPtr_sep {H : Heap} {i : PInst} (hs : i.Sep H) {a : ℕ} (ha : a < H.next) (hn : ¬ i.Holds a) (t : Int) : (i.setPtr a t).Sep H where
  keys := Buf.strict_insertMap _ hs.keys _ _
  inj := by
    intro k l x h1 h2
    rcases (Buf.mem_insertMap _ hs.keys t a _).mp h1 with h1 | h1 <;> rcases (Buf.mem_insertMap _ hs.keys t a _).mp h2 with h2 | h2
    · rw [(Prod.mk.inj h1).1, (Prod.mk.inj h2).1]
    · exact absurd ⟨l, (Prod.mk.inj h1).2 ▸ h2.1⟩ hn
    · exact absurd ⟨k, (Prod.mk.inj h2).2 ▸ h1.1⟩ hn
    · exact hs.inj k l x h1.1 h2.1
  lt := by
    intro k x h1
    rcases (Buf.mem_insertMap _ hs.keys t a _).mp h1 with h1 | h1
    · rw [(Prod.mk.inj h1).2]; exact ha
    · exact hs.lt k x h1.1

theorem Sep.mono {H H' : Heap} {i : PInst} (hs : i.Sep H) (h : H.next ≤ H'.next) : i.Sep H' :=
  ⟨hs.keys, hs.inj, fun k a hk => lt_of_lt_of_le (hs.lt k a hk) h⟩

/-- Changing the object stored at `t` shows as a changed belief at `t` and nowhere else. -/
theorem put_view {H : Heap} {i : PInst} (hs : i.Sep H) {t : Int} {a : ℕ} (hm : (t, a) ∈ i.ptr) (b : Belief) :
    i.view (H.put a b) = (i.view H).setBelief b t := by
  unfold view Inst.setBelief
  congr 1
  show Buf.mv (H.put a b).val i.ptr = Buf.insertMap (Buf.mv H.val i.ptr) t b
  have hk : Buf.StrictKeys i.ptr := hs.keys
  have hinj := hs.inj
  revert hm hk hinj
  generalize i.ptr = l
  intro hm hk hinj
  induction l with
  | nil => cases hm
  | cons e r ih =>
    have hk' := List.pairwise_cons.mp hk
    rw [Buf.mv_cons, Buf.mv_cons, Buf.insertMap]
    rcases List.mem_cons.mp hm with he | he
    · subst he
      rw [if_neg (by simp), if_pos (by simp)]
      congr 1
      · simp [Heap.put]
      · apply List.map_congr_left
        intro x hx
        have hne : x.2 ≠ a := by
          intro hxa
          have h1 := hinj x.1 t a (List.mem_cons_of_mem _ (by rw [← hxa]; exact hx)) (by simp)
          have := hk'.1 x hx
          simp only at this; omega
        simp [Heap.put, hne]
    · have hlt := hk'.1 _ he
      simp only at hlt
      rw [if_neg (by simp only; omega), if_neg (by simp only [beq_iff_eq]; omega)]
      congr 1
      · have hne : e.2 ≠ a := by
          intro hea
          have h1 := hinj e.1 t a (by rw [← hea]; simp) (List.mem_cons_of_mem _ he)
          omega
        simp [Heap.put, hne]
      · exact ih he hk'.2 (fun k l x h1 h2 => hinj k l x (List.mem_cons_of_mem _ h1) (List.mem_cons_of_mem _ h2))

theorem Step.put {H : Heap} {i : PInst} (hs : i.Sep H) {a : ℕ} (ha : i.Holds a) (b : Belief) : Step none H i (H.put a b) i where
  next := le_rfl
  frame x _ hn _ := by
    have : x ≠ a := fun e => hn (e ▸ ha)
    simp [Heap.put, this]
  holds _ h := Or.inl h
  sep := ⟨hs.keys, hs.inj, hs.lt⟩

theorem alloc_val {H : Heap} (b : Belief) {a : ℕ} (ha : a < H.next) : (H.alloc b).1.val a = H.val a := by
  have : a ≠ H.next := by omega
  simp [Heap.alloc, this]

theorem alloc_self (H : Heap) (b : Belief) : (H.alloc b).1.val (H.alloc b).2 = b := by simp [Heap.alloc]

theorem alloc_view {H : Heap} {i : PInst} (hs : i.Sep H) (b : Belief) : i.view (H.alloc b).1 = i.view H :=
  view_congr (fun k a hk => alloc_val b (hs.lt k a hk))

theorem Step.alloc {H : Heap} {i : PInst} (hs : i.Sep H) (b : Belief) : Step none H i (H.alloc b).1 i where
  next := Nat.le_succ _
  frame a ha _ _ := alloc_val b ha
  holds _ h := Or.inl h
  sep := hs.mono (Nat.le_succ _)

/-- The pair of instance and answer a call shows. -/
def shown (r : Heap × PInst × Bool) : Inst × Bool := (r.2.1.view r.1, r.2.2)

theorem basePropEKF_view {H : Heap} {i : PInst} (hs : i.Sep H) (a : ℕ) (mb Phi Q : Mat) (tb : Int) :
    (i.view H).basePropEKF (H.val a) mb Phi Q tb = (basePropEKF H i a mb Phi Q tb).mapv shown ∧
    ∀ r, basePropEKF H i a mb Phi Q tb = .ok r → Step none H i r.1 r.2.1 := by
  unfold Inst.basePropEKF basePropEKF
  by_cases hq : checkDimQ (H.val a).Sigma Phi Q = true
  · rw [if_pos hq, if_pos hq]
    cases hc : covPropagation (H.val a).Sigma Phi Q false with
    | throws => exact ⟨rfl, fun r hr => by simp at hr⟩
    | ub => exact ⟨rfl, fun r hr => by simp at hr⟩
    | ok Sb =>
      rw [Res.bind_ok, Res.bind_ok]
      simp only [alloc_self]
      have hst := Step.alloc hs (H.val a)
      by_cases hm : checkDimMean mb Sb = true
      · rw [if_pos hm, if_pos hm]
        by_cases hb : ((H.val a).set mb Sb).2 = true
        · rw [if_pos hb, if_pos hb]
          have hnh : ¬ i.Holds (H.alloc (H.val a)).2 := fun ⟨k, hk⟩ => by
            have := hs.lt _ _ hk; simp [Heap.alloc] at this
          constructor
          · unfold Res.mapv shown
            simp only
            congr 2
            rw [setPtr_view]
            congr 1
            · have : i.view ((H.alloc (H.val a)).1.put (H.alloc (H.val a)).2 _) = i.view (H.alloc (H.val a)).1 :=
                view_congr (H := (H.alloc (H.val a)).1) (H' := (H.alloc (H.val a)).1.put (H.alloc (H.val a)).2 { ((H.val a).set mb Sb).1 with stamp := tb })
                  (fun k x hk => by
                    have : x ≠ (H.alloc (H.val a)).2 := fun e => hnh ⟨k, e ▸ hk⟩
                    simp [Heap.put, this])
              rw [this, alloc_view hs]
            · simp [Heap.put]
          · intro r hr
            rw [← Res.ok.inj hr]
            have hsep := setPtr_sep (H := (H.alloc (H.val a)).1) (hs.mono (Nat.le_succ _)) (a := (H.alloc (H.val a)).2)
              (by simp [Heap.alloc]) hnh tb
            refine ⟨Nat.le_succ _, fun x hx _ _ => ?_, fun x hx => ?_, ⟨hsep.keys, hsep.inj, hsep.lt⟩⟩
            · have : x ≠ (H.alloc (H.val a)).2 := by simp [Heap.alloc]; omega
              simp only [Heap.put, this, if_false]
              exact alloc_val _ hx
            · rcases setPtr_holds hs _ _ _ hx with h | h
              · right; right; subst h; simp [Heap.alloc, Heap.put]
              · exact Or.inl h
        · rw [if_neg hb, if_neg hb]
          refine ⟨?_, fun r hr => by rw [← Res.ok.inj hr]; exact hst⟩
          unfold Res.mapv shown; simp only; rw [alloc_view hs]
      · rw [if_neg hm, if_neg hm]
        refine ⟨?_, fun r hr => by rw [← Res.ok.inj hr]; exact hst⟩
        unfold Res.mapv shown; simp only; rw [alloc_view hs]
  · rw [if_neg hq, if_neg hq]
    exact ⟨rfl, fun r hr => by rw [← Res.ok.inj hr]; exact Step.refl hs none⟩

/-- The tail of a propagation: factors and horizon. -/
noncomputable def tail (fp : FP) (ta tb : Int) (Phi : Mat) (r : Heap × PInst × Bool) : Res (Heap × PInst × Bool) :=
  if r.2.2 then do
    let j ← r.2.1.addCorrection ta tb Phi
    .ok (r.1, j.checkHorizon fp, true)
  else .ok (r.1, r.2.1, false)

theorem tail_view (fp : FP) (ta tb : Int) (Phi : Mat) (r : Heap × PInst × Bool) :
    (if (shown r).2 then do
      let j ← (shown r).1.addCorrection ta tb Phi
      .ok (j.checkHorizon fp, true)
     else .ok ((shown r).1, false) : Res (Inst × Bool)) = (tail fp ta tb Phi r).mapv shown := by
  unfold tail
  show (if r.2.2 = true then _ else _) = _
  by_cases h : r.2.2 = true
  · rw [if_pos h, if_pos h]
    show ((r.2.1.view r.1).addCorrection ta tb Phi >>= _) = _
    rw [addCorrection_view]
    cases r.2.1.addCorrection ta tb Phi with
    | throws => rfl
    | ub => rfl
    | ok j =>
      show Res.ok ((j.view r.1).checkHorizon fp, true) = Res.ok ((j.checkHorizon fp).view r.1, true)
      rw [checkHorizon_view]
  · rw [if_neg h, if_neg h]; rfl

theorem tail_step {fp : FP} {ta tb : Int} {Phi : Mat} {ext : Option ℕ} {H : Heap} {i : PInst} {r r' : Heap × PInst × Bool}
    (hs : Step ext H i r.1 r.2.1) (h : tail fp ta tb Phi r = .ok r') : Step ext H i r'.1 r'.2.1 := by
  unfold tail at h
  split at h
  · obtain ⟨j, hj, h⟩ := Hdl.bind_eq_ok h
    rw [← Res.ok.inj h]
    exact hs.sub ((checkHorizon_sub fp j).trans (by rw [addCorrection_ptr hj]))
  · rw [← Res.ok.inj h]; exact hs

theorem mapv_bind_shown {α β γ : Type _} {x : Res α} {y : Res β} {f : β → α} (h : x = y.mapv f) (k : α → Res γ) : (x >>= k) = (y >>= fun b => k (f b)) := by
  rw [h]; cases y <;> rfl

theorem propEKF_view (fp : FP) {H : Heap} {i : PInst} (hs : i.Sep H) (a : ℕ) (mb Phi Q : Mat) (ta tb : Int) :
    (i.view H).propEKF fp (H.val a) mb Phi Q ta tb = (propEKF fp H i a mb Phi Q ta tb).mapv shown ∧
    ∀ r, propEKF fp H i a mb Phi Q ta tb = .ok r → Step none H i r.1 r.2.1 := by
  obtain ⟨h1, h2⟩ := basePropEKF_view hs a mb Phi Q tb
  constructor
  · unfold Inst.propEKF propEKF
    rw [mapv_bind_shown h1, Res.mapv_bind]
    congr 1; funext r
    exact tail_view fp ta tb Phi r
  · intro r hr
    unfold propEKF at hr
    obtain ⟨r1, e1, hr⟩ := Hdl.bind_eq_ok hr
    exact tail_step (h2 r1 e1) hr

theorem propKFBase_view (fp : FP) {H : Heap} {i : PInst} (hs : i.Sep H) (Phi Q : Mat) (ta tb : Int) :
    Inst.propKF fp (i.view H) Phi Q ta tb = ((propKFBase fp H i Phi Q ta tb) >>= fun r =>
      (if (shown r).2 then do
        let j ← (shown r).1.addCorrection ta tb Phi
        .ok (j.checkHorizon fp, true)
       else .ok ((shown r).1, false) : Res (Inst × Bool))) ∧
    ∀ r, propKFBase fp H i Phi Q ta tb = .ok r → Step none H i r.1 r.2.1 := by
  unfold Inst.propKF propKFBase
  rw [beliefAt_view]
  cases hg : i.ptr.getAt ta with
  | none => exact ⟨rfl, fun r hr => by rw [← Res.ok.inj hr]; exact Step.refl hs none⟩
  | some e =>
    simp only [Option.map_some]
    by_cases hm : checkDimMean (H.val e.2).mean Phi = true
    · simp only [hm, if_true]
      constructor
      · cases Phi *! (H.val e.2).mean with
        | throws => rfl
        | ub => rfl
        | ok mb =>
          rw [Res.bind_ok, Res.bind_ok]
          exact mapv_bind_shown (propEKF_view fp hs e.2 mb Phi Q ta tb).1 _
      · intro r hr
        obtain ⟨mb, _, hr⟩ := Hdl.bind_eq_ok hr
        exact (propEKF_view fp hs e.2 mb Phi Q ta tb).2 r hr
    · simp only [hm]
      exact ⟨rfl, fun r hr => by rw [← Res.ok.inj hr]; exact Step.refl hs none⟩

theorem propKF_view (fp : FP) {H : Heap} {i : PInst} (hs : i.Sep H) (Phi Q : Mat) (ta tb : Int) :
    (i.view H).propKF fp Phi Q ta tb = (propKF fp H i Phi Q ta tb).mapv shown ∧
    ∀ r, propKF fp H i Phi Q ta tb = .ok r → Step none H i r.1 r.2.1 := by
  obtain ⟨h1, h2⟩ := propKFBase_view fp hs Phi Q ta tb
  constructor
  · rw [h1]
    unfold propKF
    rw [Res.mapv_bind]
    congr 1; funext r
    exact tail_view fp ta tb Phi r
  · intro r hr
    unfold propKF at hr
    obtain ⟨r1, e1, hr⟩ := Hdl.bind_eq_ok hr
    exact tail_step (h2 r1 e1) hr

theorem Step.setPtr {H : Heap} {i : PInst} (hs : i.Sep H) {a : ℕ} (ha : a < H.next) (hn : ¬ i.Holds a) (t : Int) :
    Step (some a) H i H (i.setPtr a t) where
  next := le_rfl
  frame _ _ _ _ := rfl
  holds x hx := by
    rcases setPtr_holds hs _ _ _ hx with h | h
    · exact Or.inr (Or.inl (by rw [h]))
    · exact Or.inl h
  sep := setPtr_sep hs ha hn t

theorem doInit_view (H : Heap) (i : PInst) (a : ℕ) (t : Int) : (i.doInit a t).view H = (i.view H).doInit (H.val a) t := rfl

theorem Step.doInit {H : Heap} {i : PInst} {a : ℕ} (ha : a < H.next) (t : Int) : Step (some a) H i H (i.doInit a t) where
  next := le_rfl
  frame _ _ _ _ := rfl
  holds x hx := by
    obtain ⟨k, hk⟩ := hx
    simp only [PInst.doInit, Buf.insertMap, List.mem_singleton] at hk
    exact Or.inr (Or.inl (by rw [(Prod.mk.inj hk).2]))
  sep := by
    refine ⟨by simp [PInst.doInit, Buf.insertMap, Buf.StrictKeys], fun k l x h1 h2 => ?_, fun k x h1 => ?_⟩
    · simp only [PInst.doInit, Buf.insertMap, List.mem_singleton] at h1 h2
      rw [(Prod.mk.inj h1).1, (Prod.mk.inj h2).1]
    · simp only [PInst.doInit, Buf.insertMap, List.mem_singleton] at h1
      rw [(Prod.mk.inj h1).2]; exact ha

theorem propBel_view (fp : FP) {H : Heap} {i : PInst} (hs : i.Sep H) {a : ℕ} (ha : a < H.next) (hn : ¬ i.Holds a) (Phi : Mat) (ta tb : Int) :
    (i.view H).propBel fp (H.val a) Phi ta tb = (propBel fp H i a Phi ta tb).mapv shown ∧
    ∀ r, propBel fp H i a Phi ta tb = .ok r → Step (some a) H i r.1 r.2.1 := by
  unfold Inst.propBel propBel
  by_cases hd : checkDimPhi (H.val a).Sigma Phi = true
  · rw [if_pos hd, if_pos hd]
    have hv : i.view (H.put a { H.val a with stamp := tb }) = i.view H :=
      view_congr (fun k x hk => by
        have : x ≠ a := fun e => hn ⟨k, e ▸ hk⟩
        simp [Heap.put, this])
    have h1 : (i.setPtr a tb).view (H.put a { H.val a with stamp := tb }) = (i.view H).setBelief { H.val a with stamp := tb } tb := by
      rw [setPtr_view, hv]; simp [Heap.put]
    constructor
    · rw [← h1, addCorrection_view, Res.bind_mapv, Res.mapv_bind]
      congr 1; funext j
      show Res.ok ((j.view _).checkHorizon fp, true) = Res.ok ((j.checkHorizon fp).view _, true)
      rw [checkHorizon_view]
    · intro r hr
      obtain ⟨j, hj, hr⟩ := Hdl.bind_eq_ok hr
      rw [← Res.ok.inj hr]
      have st := Step.setPtr hs ha hn tb
      have st2 : Step (some a) H i (H.put a { H.val a with stamp := tb }) (i.setPtr a tb) :=
        ⟨le_rfl, fun x hx _ he => by
          have : x ≠ a := fun e => he (by rw [e])
          simp [Heap.put, this], st.holds, ⟨st.sep.keys, st.sep.inj, st.sep.lt⟩⟩
      exact st2.sub ((checkHorizon_sub fp j).trans (by rw [addCorrection_ptr hj]))
  · rw [if_neg hd, if_neg hd]
    exact ⟨rfl, fun r hr => by rw [← Res.ok.inj hr]; exact Step.refl hs _⟩

theorem addCorrection_put {H : Heap} {i j : PInst} {ta tb : Int} {F : Mat} (h : i.addCorrection ta tb F = .ok j) (hs : i.Sep H) : j.Sep H := by
  have := addCorrection_ptr h
  exact ⟨by rw [this]; exact hs.keys, by rw [this]; exact hs.inj, by rw [this]; exact hs.lt⟩

theorem privEKF_view {H : Heap} {i : PInst} (hs : i.Sep H) {t : Int} {a : ℕ} (hm : (t, a) ∈ i.ptr) (Hm R r : Mat) (cfg : Cfg) :
    (i.view H).privEKF (H.val a) t Hm R r cfg = (privEKF H i a Hm R r cfg).mapv shown ∧
    ∀ x, privEKF H i a Hm R r cfg = .ok x → Step none H i x.1 x.2.1 := by
  unfold Inst.privEKF privEKF
  constructor
  · rw [Res.mapv_bind]
    congr 1; funext res
    by_cases hr : (!res.rejected) = true
    · rw [if_pos hr, if_pos hr]
      unfold Inst.applyCorrection
      show ((i.view H).addCorrection _ _ _ >>= _) = _
      rw [addCorrection_view, Res.bind_mapv, Res.mapv_bind]
      cases hj : i.addCorrection (H.val a).stamp (H.val a).stamp res.U with
      | throws => rfl
      | ub => rfl
      | ok j =>
        rw [Res.bind_ok, Res.bind_ok, Res.mapv_bind]
        congr 1; funext b'
        show Res.ok ((j.view H).setBelief b' t, true) = Res.ok (j.view (H.put a b'), true)
        rw [put_view (addCorrection_put hj hs) (by rw [addCorrection_ptr hj]; exact hm)]
    · rw [if_neg hr, if_neg hr]; rfl
  · intro r hr
    obtain ⟨res, _, hr⟩ := Hdl.bind_eq_ok hr
    split at hr
    · obtain ⟨j, hj, hr⟩ := Hdl.bind_eq_ok hr
      obtain ⟨b', _, hr⟩ := Hdl.bind_eq_ok hr
      rw [← Res.ok.inj hr]
      exact (Step.put hs ⟨t, hm⟩ b').sub (by rw [addCorrection_ptr hj])
    · rw [← Res.ok.inj hr]; exact Step.refl hs none

theorem privKF_view {H : Heap} {i : PInst} (hs : i.Sep H) (Hm R z : Mat) (t : Int) (cfg : Cfg) :
    (i.view H).privKF Hm R z t cfg = (privKF H i Hm R z t cfg).mapv shown ∧
    ∀ r, privKF H i Hm R z t cfg = .ok r → Step none H i r.1 r.2.1 := by
  unfold Inst.privKF privKF
  rw [beliefAt_view]
  cases hg : i.ptr.getAt t with
  | none => exact ⟨rfl, fun r hr => by rw [← Res.ok.inj hr]; exact Step.refl hs none⟩
  | some e =>
    have hm := mem_of_getAt hg
    simp only [Option.map_some]
    constructor
    · rw [Res.mapv_bind]
      congr 1; funext hm'
      rw [Res.mapv_bind]
      congr 1; funext r
      exact (privEKF_view hs hm Hm R r cfg).1
    · intro r hr
      obtain ⟨_, _, hr⟩ := Hdl.bind_eq_ok hr
      obtain ⟨r', _, hr⟩ := Hdl.bind_eq_ok hr
      exact (privEKF_view hs hm Hm R r' cfg).2 r hr

end PInst
end Ikf
